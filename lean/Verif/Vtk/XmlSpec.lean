import Verif.Vtk.VtkModel
import Verif.Part.TextSpec
/-!
# What C87 asks of the texts: XML, and what a reader of VTK files makes of it
-/
namespace Verif.Vtk
open Verif.Agi Verif.Part.Text

/-- an element with elements in it, or one with text in it, of which the words count -/
inductive Xml where
  | elem (name : List Char) (attrs : List (List Char × List Char)) (kids : List Xml)
  | data (name : List Char) (attrs : List (List Char × List Char)) (words : List (List Char))

/-- the words of a text: what stands between white space; `cur` is the word being read -/
def wordsFrom (cur : List Char) : List Char → List (List Char)
  | [] => if cur = [] then [] else [cur]
  | c :: t => if c.isWhitespace then (if cur = [] then wordsFrom [] t else cur :: wordsFrom [] t) else wordsFrom (cur ++ [c]) t

def words (t : List Char) : List (List Char) := wordsFrom [] t

def IsName (n : List Char) : Prop := n ≠ [] ∧ ∀ c ∈ n, c.isAlpha = true

instance (n : List Char) : Decidable (IsName n) := by unfold IsName; infer_instance

/-- the attributes of an element: no name twice, no quote, `<` or `&` in a value -/
inductive ReadsAttrs : List Char → List (List Char × List Char) → Prop
  | nil : ReadsAttrs [] []
  | cons {n v t : List Char} {as : List (List Char × List Char)} : IsName n → (∀ c ∈ v, c ≠ '"' ∧ c ≠ '<' ∧ c ≠ '&') →
      (∀ a ∈ as, a.1 ≠ n) → ReadsAttrs t as → ReadsAttrs ([' '] ++ n ++ ['=', '"'] ++ v ++ ['"'] ++ t) ((n, v) :: as)

/-- well-formed XML without entities and comments, and what it says -/
inductive Reads : List Char → List Xml → Prop
  | nil : Reads [] []
  | space {c : Char} {t : List Char} {xs : List Xml} : c.isWhitespace = true → Reads t xs → Reads (c :: t) xs
  | elem {name at_ body t : List Char} {attrs : List (List Char × List Char)} {kids xs : List Xml} : IsName name → ReadsAttrs at_ attrs →
      Reads body kids → Reads t xs →
      Reads ((['<'] ++ name ++ at_ ++ ['>']) ++ (body ++ ((['<', '/'] ++ name ++ ['>']) ++ t))) (.elem name attrs kids :: xs)
  | data {name at_ s t : List Char} {attrs : List (List Char × List Char)} {xs : List Xml} : IsName name → ReadsAttrs at_ attrs →
      (∀ c ∈ s, c ≠ '<' ∧ c ≠ '&') → Reads t xs →
      Reads ((['<'] ++ name ++ at_ ++ ['>']) ++ (s ++ ((['<', '/'] ++ name ++ ['>']) ++ t))) (.data name attrs (words s) :: xs)
  | empty {name at_ t : List Char} {attrs : List (List Char × List Char)} {xs : List Xml} : IsName name → ReadsAttrs at_ attrs →
      Reads t xs → Reads ((['<'] ++ name ++ at_ ++ ['/', '>']) ++ t) (.elem name attrs [] :: xs)

/-- a document is one element -/
def Document (t : List Char) (x : Xml) : Prop := Reads t [x]

/-- what an array is: type, name, number of components -/
structure Arr where
  type : List Char
  name : List Char
  comps : Option (List Char)

def partArr : Arr := ⟨"Int32".toList, "Part".toList, some "1".toList⟩
def kindArr : Arr := ⟨"Int32".toList, "VorE".toList, some "1".toList⟩
def tagArr : Arr := ⟨"Int32".toList, "Tag".toList, some "1".toList⟩
def pointArr : Arr := ⟨"Float64".toList, "Points".toList, some "3".toList⟩

/-- an element is an array if its attributes, in any order, say so and that the numbers are plain text -/
def Attrs (a : Arr) (attrs : List (List Char × List Char)) : Prop :=
  attrs.Perm ([("type".toList, a.type), ("Name".toList, a.name), ("format".toList, "ascii".toList)] ++
    (match a.comps with | some n => [("NumberOfComponents".toList, n)] | none => []))

/-- an array with numbers -/
def IsArray (a : Arr) (ws : List (List Char)) (x : Xml) : Prop := ∃ attrs, Attrs a attrs ∧ x = .data "DataArray".toList attrs ws

/-- an array announced -/
def Announces (a : Arr) (x : Xml) : Prop := ∃ attrs, Attrs a attrs ∧ x = .elem "PDataArray".toList attrs []

/-- three words for a point -/
def ShowsPoint (p : Option Coord) (ws : List (List Char)) : Prop :=
  match p with
  | some c => ∃ a b d, ws = [a, b, d] ∧ Spells 6 c.1 a ∧ Spells 6 c.2.1 b ∧ Spells 6 c.2.2 d
  | none => ws = List.replicate 3 "-nan".toList

def ShowsPoints : List (Option Coord) → List (List Char) → Prop
  | [], ws => ws = []
  | p :: ps, ws => ∃ a b, ws = a ++ b ∧ ShowsPoint p a ∧ ShowsPoints ps b

/-- whole numbers, in order -/
def ShowsInts (l : List Int) (ws : List (List Char)) : Prop := List.Forall₂ SpellsInt l ws

/-- the arrays of values at the points: the part, what kind of point it is, the tag -/
def valueArrays (f : File) : List (Arr × List Int) :=
  [(partArr, f.part)] ++ (match f.vorE with | some l => [(kindArr, l.map Int.ofNat)] | none => []) ++
    (match f.tag with | some l => [(tagArr, l)] | none => [])

/-- the document is the unstructured grid `f` -/
def IsGrid (f : File) (x : Xml) : Prop :=
  ∃ np nc pw cw ow tw p c1 c2 c3 vs, SpellsInt f.numPoints np ∧ SpellsInt f.numCells nc ∧ ShowsPoints f.points pw ∧
    ShowsInts (f.connectivity.map Int.ofNat) cw ∧ ShowsInts (f.offsets.map Int.ofNat) ow ∧ ShowsInts (f.types.map Int.ofNat) tw ∧
    IsArray pointArr pw p ∧ IsArray ⟨"Int32".toList, "connectivity".toList, none⟩ cw c1 ∧
    IsArray ⟨"Int32".toList, "offsets".toList, none⟩ ow c2 ∧ IsArray ⟨"UInt8".toList, "types".toList, none⟩ tw c3 ∧
    List.Forall₂ (fun a x => ∃ ws, ShowsInts a.2 ws ∧ IsArray a.1 ws x) (valueArrays f) vs ∧
    x = .elem "VTKFile".toList [("type".toList, "UnstructuredGrid".toList)] [.elem "UnstructuredGrid".toList []
      [.elem "Piece".toList [("NumberOfPoints".toList, np), ("NumberOfCells".toList, nc)]
        [.elem "Points".toList [] [p], .elem "Cells".toList [] [c1, c2, c3], .elem "PointData".toList [] vs]]]

/-- the document is an index of the files `names` whose points have the values `arrs` -/
def IsIndex (names : List (List Char)) (arrs : List Arr) (x : Xml) : Prop :=
  ∃ p vs, Announces pointArr p ∧ List.Forall₂ Announces arrs vs ∧
    x = .elem "VTKFile".toList [("type".toList, "PUnstructuredGrid".toList)]
      [.elem "PUnstructuredGrid".toList [("GhostLevel".toList, "0".toList)]
        ([.elem "PPoints".toList [] [p], .elem "PPointData".toList [] vs] ++
          names.map (fun n => .elem "Piece".toList [("Source".toList, n)] []))]

/-- the directory of a file: its name up to the last slash -/
def dirOf (name : List Char) : List Char := (name.reverse.dropWhile (fun c => decide (c ≠ '/'))).reverse

/-- a name in the index is looked up from the directory of the index, unless it starts at the root -/
def resolve (index name : List Char) : List Char := if name.head? = some '/' then name else dirOf index ++ name

end Verif.Vtk
