import Verif.Vtk.VtkModel
import Verif.Part.TextModel
/-!
# Model of the texts `writeVTK` writes, agi/agiVTK.cpp

`File` (C61) has the numbers of a `.vtu` file; here they are printed.  Names of files are those of C69.
-/
namespace Verif.Vtk
open Verif.Agi Verif.Part.Text Verif.Names

def nl : List Char := ['\n']

/-- `%f` of a coordinate, `-nan` for 0/0: agi/agiVTK.cpp:15, 81 -/
def pointLine : Option Coord → List Char
  | some c => [' '] ++ fixed 6 c.1 ++ [' '] ++ fixed 6 c.2.1 ++ [' '] ++ fixed 6 c.2.2 ++ nl
  | none => [' '] ++ ['-', 'n', 'a', 'n'] ++ [' '] ++ ['-', 'n', 'a', 'n'] ++ [' '] ++ ['-', 'n', 'a', 'n'] ++ nl

/-- `"%d %d\n"`, two numbers on a line: agi/agiVTK.cpp:101, 139.  There is never an odd one. -/
def pairLines : List Nat → List Char
  | a :: b :: l => int a ++ [' '] ++ int b ++ nl ++ pairLines l
  | [a] => int a ++ nl
  | [] => []

/-- `" %d\n"`, agi/agiVTK.cpp:114, 126, 146, 152 -/
def spaceLines (l : List Nat) : List Char := (l.map (fun (n : Nat) => [' '] ++ int n ++ nl)).flatten

/-- `"%d\n"`, agi/agiVTK.cpp:164, 169, 179, 183, 194-205 -/
def lines (l : List Int) : List Char := (l.map (fun n => int n ++ nl)).flatten

/-- `writePoints`, agi/agiVTK.cpp:7-9, 15, 81, 85 -/
def pointsText (f : File) (rest : List Char) : List Char :=
  "<Points>".toList ++ (nl ++ ("<DataArray NumberOfComponents=\"3\" type=\"Float64\" format=\"ascii\" Name=\"Points\">".toList ++
    ((nl ++ (f.points.map pointLine).flatten ++ nl) ++ ("</DataArray>".toList ++ (nl ++ ("</Points>".toList ++ (nl ++ rest)))))))

/-- `writeCells`, agi/agiVTK.cpp:89-157 -/
def cellsText (f : File) (rest : List Char) : List Char :=
  "<Cells>".toList ++ (nl ++
    ("<DataArray type=\"Int32\" Name=\"connectivity\" format=\"ascii\">".toList ++ ((nl ++ pairLines f.connectivity ++ nl) ++ ("</DataArray>".toList ++ (nl ++
    ("<DataArray type=\"Int32\" Name=\"offsets\" format=\"ascii\">".toList ++ ((nl ++ spaceLines f.offsets ++ nl) ++ ("</DataArray>".toList ++ (nl ++
    ("<DataArray type=\"UInt8\" Name=\"types\" format=\"ascii\">".toList ++ ((nl ++ spaceLines f.types ++ nl) ++ ("</DataArray>".toList ++ (nl ++
    ("</Cells>".toList ++ (nl ++ rest)))))))))))))))

/-- the array VorE, agi/agiVTK.cpp:174-187 -/
def vorEText (v : Option (List Nat)) (rest : List Char) : List Char :=
  match v with
  | some l => "<DataArray type=\"Int32\" Name=\"VorE\" NumberOfComponents=\"1\" format=\"ascii\">".toList ++
      ((nl ++ lines (l.map Int.ofNat)) ++ ("</DataArray>".toList ++ (nl ++ rest)))
  | none => rest

/-- the array Tag, agi/agiVTK.cpp:188-210 -/
def tagText (v : Option (List Int)) (rest : List Char) : List Char :=
  match v with
  | some l => "<DataArray type=\"Int32\" Name=\"Tag\" NumberOfComponents=\"1\" format=\"ascii\">".toList ++
      ((nl ++ lines l) ++ ("</DataArray>".toList ++ (nl ++ rest)))
  | none => rest

/-- `writePointData`, agi/agiVTK.cpp:158-212 -/
def pointDataText (f : File) (rest : List Char) : List Char :=
  "<PointData>".toList ++ (nl ++ ("<DataArray type=\"Int32\" Name=\"Part\" NumberOfComponents=\"1\" format=\"ascii\">".toList ++
    ((nl ++ lines f.part) ++ ("</DataArray>".toList ++ (nl ++ vorEText f.vorE (tagText f.tag ("</PointData>".toList ++ (nl ++ rest))))))))

/-- `<Piece ..>`, agi/agiVTK.cpp:279-280 -/
def pieceOpen (f : File) : List Char :=
  "<Piece NumberOfPoints=\"".toList ++ int f.numPoints ++ "\" NumberOfCells=\"".toList ++ int f.numCells ++ "\">".toList

/-- the `.vtu` file of a part, agi/agiVTK.cpp:273-286 -/
def vtuText (f : File) : List Char :=
  "<VTKFile type=\"UnstructuredGrid\">".toList ++ (nl ++ ("<UnstructuredGrid>".toList ++ (nl ++ (pieceOpen f ++ (nl ++
    pointsText f (cellsText f (pointDataText f ("</Piece>".toList ++ (nl ++ ("</UnstructuredGrid>".toList ++ (nl ++ ("</VTKFile>".toList ++ nl))))))))))))

/-- `<Piece Source=".."/>`, agi/agiVTK.cpp:255 -/
def sourceText (name : List Char) : List Char := "<Piece Source=\"".toList ++ name ++ "\"/>".toList

/-- the lines of `writePSources`, agi/agiVTK.cpp:251-257 -/
def sourcesText (names : List (List Char)) (rest : List Char) : List Char :=
  match names with
  | [] => rest
  | n :: ns => sourceText n ++ (nl ++ sourcesText ns rest)

/-- `writePPointData`, agi/agiVTK.cpp:240-249 -/
def pPointDataText (hyper tagged : Bool) (rest : List Char) : List Char :=
  "<PPointData>".toList ++ (nl ++ ("<PDataArray type=\"Int32\" Name=\"Part\" NumberOfComponents=\"1\" format=\"ascii\"/>".toList ++ (nl ++
    ((if hyper then "<PDataArray type=\"Int32\" Name=\"VorE\" NumberOfComponents=\"1\" format=\"ascii\"/>".toList ++ nl else []) ++
    ((if tagged then "<PDataArray type=\"Int32\" Name=\"Tag\" NumberOfComponents=\"1\" format=\"ascii\"/>".toList ++ nl else []) ++
    ("</PPointData>".toList ++ (nl ++ rest)))))))

/-- the index, `writePVTU` and `writePPoints`, agi/agiVTK.cpp:234-239, 259-268; `names` as in `writePSources` -/
def pvtuText (names : List (List Char)) (hyper tagged : Bool) : List Char :=
  "<VTKFile type=\"PUnstructuredGrid\">".toList ++ (nl ++ ("<PUnstructuredGrid GhostLevel=\"0\">".toList ++ (nl ++
    ("<PPoints>".toList ++ (nl ++ ("<PDataArray NumberOfComponents=\"3\" type=\"Float64\" format=\"ascii\" Name=\"Points\"/>".toList ++ (nl ++
    ("</PPoints>".toList ++ (nl ++ pPointDataText hyper tagged (sourcesText names
    ("</PUnstructuredGrid>".toList ++ (nl ++ ("</VTKFile>".toList ++ nl)))))))))))))

/-- whether the index has the array Tag, agi/agiVTK.cpp:245 -/
def tagged (g : Graph) (tag : Option (Mem Int)) (t : TagOn) : Bool := tag.isSome && decide (t ≠ .none) && (decide (t = .vtx) || g.isHyper)

/-- the files on the disk after `writeVTK(g, prefix, tag, t)` on all parts, agi/agiVTK.cpp:269-296: the index of part 0 and the
files of the parts, each with its name -/
def vtkDisk (gs : List Graph) (tags : List (Option (Mem Int))) (t : TagOn) (o1 o2 : Nat → List Nat) (pre : List Char) :
    Outcome ((List Char × List Char) × List (List Char × List Char)) := do
  let fs ← writeVTK gs tags t o1 o2
  let names ← pieces pre gs.length
  let own ← (List.range gs.length).mapM (vtuName pre)
  let idx ← pvtuName pre
  let g ← rd gs 0
  let tag ← rd tags 0
  return ((idx, pvtuText names g.isHyper (tagged g tag t)), own.zip (fs.map vtuText))

end Verif.Vtk
