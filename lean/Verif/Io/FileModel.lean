import Verif.Agi.MigSpec
import Verif.Io.BytesModel
/-!
# Model of `saveToFile` / `loadFromFile`, agi/agiIO.cpp

The file of a part is a list of bytes (`writeUnsigneds`, … of `BytesModel`, compression off).  Weights and
coordinates are exact numbers in the graph model and 64-bit patterns in the file; `Codec` is the bit
representation of `double`.  Opening, closing and naming of files is left out; part `p` writes and reads
its own file.
-/
namespace Verif.Io
open Verif.Agi

/-- the bit pattern of a `double` and the number a pattern stands for -/
structure Codec where
  enc : Wgt → Nat
  dec : Nat → Wgt

/-- conversion to `unsigned int` -/
def toU32 (x : Int) : Nat := (x % 2 ^ 32).toNat

/-- `PCU_WRITE_UNSIGNED(f,x)`, pcu/pcu_io.h:31, with the conversion of `x` to `unsigned int` -/
def wU (little : Bool) (x : Int) : List Nat := writeUnsigneds little [toU32 x]

/-- `pcu_write_doubles` -/
def wD (c : Codec) (little : Bool) (ws : List Wgt) : List Nat := writeDoubles little (ws.map c.enc)

/-- `std::unordered_map<gid_t,part_t>` as the list of its entries: `m[k] = p` -/
def assocPut (m : List (Gid × Part)) (k : Gid) (p : Part) : List (Gid × Part) :=
  if m.any (fun x => x.1 == k) then m.map (fun x => if x.1 = k then (k, p) else x) else m ++ [(k, p)]

/-! ## writing -/

/-- `writeHeader`, agi/agiIO.cpp:50-53 -/
def writeHeader (little : Bool) (g : Graph) : List Nat := wU little (if g.isHyper then 1 else 0)

/-- one vertex, agi/agiIO.cpp:59-64 -/
def writeVertex (c : Codec) (little : Bool) (g : Graph) (acc : List Nat) (v : Handle) : Outcome (List Nat × Bool) := do
  let gid ← g.globalID v
  let w ← g.weight v
  return (acc ++ (wU little gid ++ wD c little [w]), false)

/-- the coordinates of one vertex, agi/agiIO.cpp:71-77 -/
def writeCoord (c : Codec) (little : Bool) (g : Graph) (acc : List Nat) (v : Handle) : Outcome (List Nat × Bool) := do
  let x ← g.coord v
  return (acc ++ wD c little [x.1, x.2.1, x.2.2], false)

/-- lines 66-83; `hasCoords()` is `local_coords != NULL` (agi/agiVertex.cpp:35-37) -/
def writeCoords (c : Codec) (little : Bool) (g : Graph) : Outcome (List Nat) :=
  if g.coords.isSome then
    iterLoop g.iterVertex (writeCoord c little g) g.bound vertexBegin (wU little 1)
  else .ok (wU little 0)

/-- `writeVertices`, agi/agiIO.cpp:54-84 -/
def writeVertices (c : Codec) (little : Bool) (g : Graph) : Outcome (List Nat) := do
  let vs ← iterLoop g.iterVertex (writeVertex c little g) g.bound vertexBegin (wU little g.numLocal)
  let cs ← writeCoords c little g
  return vs ++ cs

/-- `if (owner(v) != PCU_Comm_Self()) owns[ps[i]] = owner(v)`, agi/agiIO.cpp:100-101 -/
def noteOwner (g : Graph) (owns : List (Gid × Part)) (v : Handle) (pin : Nat) : Outcome (List (Gid × Part)) := do
  let o ← g.owner v
  if o ≠ g.self then return assocPut owns (pin : Int) o else return owns

/-- the pin loop, agi/agiIO.cpp:97-102: `deg` rounds whatever the iterator does; state: iterator, `ps`, `owns` -/
def writePin (g : Graph) (s : PinIt × List Nat × List (Gid × Part)) (_ : Nat) :
    Outcome (PinIt × List Nat × List (Gid × Part)) := do
  let (v, it) ← g.iterPin s.1
  let gid ← g.globalID v
  let owns ← noteOwner g s.2.2 v (toU32 gid)
  return (it, s.2.1 ++ [toU32 gid], owns)

/-- one edge, agi/agiIO.cpp:91-109; state: bytes, `owns` -/
def writeEdge (c : Codec) (little : Bool) (g : Graph) (s : List Nat × List (Gid × Part)) (e : Handle) :
    Outcome ((List Nat × List (Gid × Part)) × Bool) := do
  let gid ← g.globalIDE e
  let w ← g.weightE e
  let d ← g.degreeE e
  let it ← g.pins e
  let r ← (List.range (toU32 d)).foldlM (writePin g) (it, [], s.2)
  return ((s.1 ++ (wU little gid ++ wD c little [w] ++ wU little d ++ writeUnsigneds little r.2.1), r.2.2), false)

/-- `writeEdges`, agi/agiIO.cpp:84-111 -/
def writeEdges (c : Codec) (little : Bool) (g : Graph) (s : List Nat × List (Gid × Part)) (t : Nat) :
    Outcome (List Nat × List (Gid × Part)) := do
  let ne ← g.numLocalEdges t
  let it ← g.edgeBegin t
  iterLoop g.iterEdge (writeEdge c little g) g.bound it (s.1 ++ (wU little t ++ wU little ne), s.2)

/-- `writeGhosts`, agi/agiIO.cpp:112-122; `ord` is the iteration order of the map -/
def writeGhosts (little : Bool) (ord : List (Gid × Part) → List (Gid × Part)) (owns : List (Gid × Part)) : List Nat :=
  wU little owns.length ++ (ord owns).flatMap (fun x => wU little x.1 ++ wU little x.2)

/-- `Ngraph::saveToFile`, agi/agiIO.cpp:141-159: the contents of the part's file -/
def saveFile (c : Codec) (little : Bool) (ord : List (Gid × Part) → List (Gid × Part)) (g : Graph) :
    Outcome (List Nat) := do
  let vs ← writeVertices c little g
  let es ← (List.range g.numTypes).foldlM (writeEdges c little g) ([], [])
  return writeHeader little g ++ (vs ++ (wU little g.numTypes ++ (es.1 ++ writeGhosts little ord es.2)))

/-! ## reading -/

/-- `PCU_READ_UNSIGNED(f,x)`, pcu/pcu_io.h:29 -/
def rU (little : Bool) (b : List Nat) : Outcome (Nat × List Nat) := do
  let (xs, b) ← readUnsigneds little 1 b
  let x ← rd xs 0
  return (x, b)

/-- `pcu_read_doubles(f,p,n)` -/
def rD (c : Codec) (little : Bool) (n : Nat) (b : List Nat) : Outcome (List Wgt × List Nat) := do
  let (xs, b) ← readDoubles little n b
  return (xs.map c.dec, b)

/-- `n` rounds of reading -/
def repeatRead {α : Type} (f : List Nat → Outcome (α × List Nat)) : Nat → List Nat → Outcome (List α × List Nat)
  | 0, b => .ok ([], b)
  | n + 1, b => do
    let (x, b) ← f b
    let (xs, b) ← repeatRead f n b
    return (x :: xs, b)

/-- one vertex, agi/agiIO.cpp:170-177 -/
def readVertex (c : Codec) (little : Bool) (b : List Nat) : Outcome ((Gid × Wgt) × List Nat) := do
  let (gid, b) ← rU little b
  let (ws, b) ← rD c little 1 b
  let w ← rd ws 0
  return (((gid : Int), w), b)

/-- the coordinates of one vertex, agi/agiIO.cpp:183 -/
def readCoord (c : Codec) (little : Bool) (b : List Nat) : Outcome (Coord × List Nat) := do
  let (xs, b) ← rD c little 3 b
  let x ← rd xs 0
  let y ← rd xs 1
  let z ← rd xs 2
  return ((x, y, z), b)

/-- agi/agiIO.cpp:178-185 -/
def readCoords (c : Codec) (little : Bool) (nv : Nat) (b : List Nat) : Outcome (Option (List Coord) × List Nat) := do
  let (hasC, b) ← rU little b
  if hasC = 1 then do
    let (cs, b) ← repeatRead (readCoord c little) nv b
    return (some cs, b)
  else return (none, b)

/-- one edge, agi/agiIO.cpp:194-210: gid, weight, pins (`degs` is their number) -/
def readEdge (c : Codec) (little : Bool) (b : List Nat) : Outcome ((Gid × Wgt × List Gid) × List Nat) := do
  let (gid, b) ← rU little b
  let (ws, b) ← rD c little 1 b
  let w ← rd ws 0
  let (deg, b) ← rU little b
  let (pins, b) ← repeatRead (rU little) deg b
  return (((gid : Int), w, pins.map Int.ofNat), b)

/-- `readEdges`, agi/agiIO.cpp:188-212: the type found in the file, and the edges -/
def readEdges (c : Codec) (little : Bool) (b : List Nat) : Outcome ((Nat × EdgeInput) × List Nat) := do
  let (t, b) ← rU little b
  let (ne, b) ← rU little b
  let (es, b) ← repeatRead (readEdge c little) ne b
  return ((t, ⟨es.map (fun x => x.1), es.map (fun x => x.2.2), es.map (fun x => x.2.1)⟩), b)

/-- the loop over the types, agi/agiIO.cpp:246-253: the loop variable is overwritten by the type read.  Every
round reads at least two numbers, so the bytes left bound the number of rounds. -/
def readTypes (c : Codec) (little : Bool) (nt : Nat) : Nat → Nat → List Nat → Outcome (List EdgeInput × List Nat)
  | 0, _, _ => .ub
  | fuel + 1, t, b =>
    if t < nt then do
      let ((t', e), b) ← readEdges c little b
      let (es, b) ← readTypes c little nt fuel (toU32 (t' + 1)) b
      return (e :: es, b)
    else .ok ([], b)

/-- one entry of `readGhosts`, agi/agiIO.cpp:218-222 -/
def readGhost (little : Bool) (b : List Nat) : Outcome ((Gid × Part) × List Nat) := do
  let (v, b) ← rU little b
  let (o, b) ← rU little b
  return (((v : Int), (o : Int)), b)

/-- `readGhosts`, agi/agiIO.cpp:213-223 -/
def readGhosts (little : Bool) (b : List Nat) : Outcome (GMap Part × List Nat) := do
  let (n, b) ← rU little b
  let (xs, b) ← repeatRead (readGhost little) n b
  return (xs.foldl (fun (m : GMap Part) x => m.put x.1 x.2) GMap.empty, b)

/-- what is in a file -/
structure FileData where
  input : Input
  coords : Option (List Coord)
  owns : GMap Part

/-- the reading part of `Ngraph::loadFromFile`, agi/agiIO.cpp:233-254.  `lid_t degs` are the numbers of pins.
Simplification: everything is read before the graph is built. -/
def parseFile (c : Codec) (little : Bool) (b : List Nat) : Outcome FileData := do
  let (isHG, b) ← rU little b
  let (nv, b) ← rU little b
  let (vs, b) ← repeatRead (readVertex c little) nv b
  let (cs, b) ← readCoords c little nv b
  let (nt, b) ← rU little b
  let (es, b) ← readTypes c little nt (b.length + 1) 0 b
  let (owns, _) ← readGhosts little b
  return ⟨⟨isHG != 0, vs.map (fun x => x.1), vs.map (fun x => x.2), es⟩, cs, owns⟩

/-- `if (cs != NULL) setCoords(cs)`, agi/agiIO.cpp:240-241 -/
def setCoordsOpt (g : Graph) : Option (List Coord) → Outcome Graph
  | none => .ok g
  | some cs => g.setCoords cs

/-- `Ngraph::loadFromFile`, agi/agiIO.cpp:225-263, on all parts, each on a new graph: `constructVerts`, `setCoords`,
`constructEdges` for every type, `constructGhosts`.  (`setCoords` is done after the edges here; it touches
nothing the edges use.) -/
def loadFiles (c : Codec) (little : Bool) (files : List (List Nat)) (o1 o2 : Nat → List Nat) : Outcome (List Graph) := do
  let ds ← files.mapM (parseFile c little)
  let gs ← buildAll (ds.map FileData.input)
  let gs ← (gs.zip ds).mapM (fun x => setCoordsOpt x.1 x.2.coords)
  constructGhosts gs (ds.map FileData.owns) o1 o2

/-- `saveToFile` on all parts -/
def saveFiles (c : Codec) (little : Bool) (ord : List (Gid × Part) → List (Gid × Part)) (gs : List Graph) :
    Outcome (List (List Nat)) := gs.mapM (saveFile c little ord)

end Verif.Io
