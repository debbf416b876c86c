import Verif.Agi.DistModel
import Verif.Agi.MigrateModel
/-!
# Model of `writeVTK`, agi/agiVTK.cpp

A file is what is printed into it: the counts of the `<Piece>` element and the contents of the data arrays, one entry per
printed number.  The XML text around them, the rounding of `%f` and the `.pvtu` index are in XmlModel (C87).
-/
namespace Verif.Vtk
open Verif.Agi

/-- one `.vtu` file.  A point is `none` if a coordinate printed is not a number (0/0). -/
structure File where
  numPoints : Nat
  numCells : Nat
  points : List (Option Coord)
  connectivity : List Nat
  offsets : List Nat
  types : List Nat
  part : List Int
  vorE : Option (List Nat)
  tag : Option (List Int)
deriving DecidableEq, Inhabited

/-- `while ((v = g->iterate(vitr)))` over the vertices, the printed entries one after the other -/
def eachVertex {β : Type} (g : Graph) (f : Handle → Outcome (List β)) : Outcome (List β) :=
  iterLoop g.iterVertex (fun acc v => do
    let x ← f v
    return (acc ++ x, false)) g.bound vertexBegin []

/-- `while ((e = g->iterate(eitr)))` over the edges of type 0 -/
def eachEdge {β : Type} (g : Graph) (f : Handle → Outcome (List β)) : Outcome (List β) := do
  let it ← g.edgeBegin 0
  iterLoop g.iterEdge (fun acc e => do
    let x ← f e
    return (acc ++ x, false)) g.bound it []

/-- `while ((v = g->iterate(pitr)))` over the pins of an edge -/
def eachPin {β : Type} (g : Graph) (e : Handle) (f : Handle → Outcome (List β)) : Outcome (List β) := do
  let it ← g.pins e
  iterLoop g.iterPin (fun acc v => do
    let x ← f v
    return (acc ++ x, false)) g.bound it []

/-! ## points -/

/-- the positions of the vertices, agi/agiVTK.cpp:11-16 -/
def ownPoints (g : Graph) : Outcome (List Coord) := eachVertex g (fun v => do
  let c ← g.coord v
  return [c])

/-- answering the requests for coordinates, agi/agiVTK.cpp:34-43 -/
def coordReplies (g : Graph) (msgs : List (Nat × Gid)) : Outcome (List (Part × (Gid × Coord))) :=
  msgs.mapM (fun m => do
    let h ← g.findGID m.2
    let c ← g.coord h
    return ((m.1 : Int), (m.2, c)))

/-- storing an answer, agi/agiVTK.cpp:46-55: the vertex must belong to somebody else -/
def coordStore (g : Graph) (a : Mem Coord) (m : Nat × (Gid × Coord)) : Outcome (Mem Coord) := do
  let h ← g.findGID m.2.1
  let o ← g.owner h
  if o = g.self then .fail
  else do
    let l ← vidx h
    if l < g.numLocal then .ub else a.store (l - g.numLocal) m.2.2

/-- the coordinates of the ghosts, agi/agiVTK.cpp:17-56 (the requests of lines 19-25 are those of
`Graph.ghostRequests`); the two communication phases receive in the orders `o1`, `o2` -/
def ghostCoords (gs : List Graph) (o1 o2 : Nat → List Nat) : Outcome (List (Mem Coord)) := do
  let reqs ← gs.mapM Graph.ghostRequests
  let ins ← exchange reqs o1
  let reps ← (gs.zip ins).mapM (fun p => coordReplies p.1 p.2)
  let ins2 ← exchange reps o2
  (gs.zip ins2).mapM (fun p => p.2.foldlM (coordStore p.1) (Mem.alloc p.1.numGhost))

def addCoord (a b : Coord) : Coord := (a.1 + b.1, a.2.1 + b.2.1, a.2.2 + b.2.2)

/-- the coordinates added for a pin, agi/agiVTK.cpp:66-75 -/
def pinCoord (g : Graph) (gc : Mem Coord) (v : Handle) : Outcome Coord := do
  let o ← g.owner v
  if o ≠ g.self then do
    let l ← vidx v
    if l < g.numLocal then .ub else gc.load (l - g.numLocal)
  else g.coord v

/-- division by the degree, agi/agiVTK.cpp:78-81; 0/0 is not a number (other numerators cannot occur with degree 0) -/
def divCoord (c : Coord) (d : Int) : Option Coord :=
  if d = 0 then none else some (c.1 / d, c.2.1 / d, c.2.2 / d)

/-- the position of an edge, agi/agiVTK.cpp:62-82 -/
def edgePoint (g : Graph) (gc : Mem Coord) (e : Handle) : Outcome (Option Coord) := do
  let cs ← eachPin g e (fun v => do
    let c ← pinCoord g gc v
    return [c])
  let d ← g.degreeE e
  return divCoord (cs.foldl addCoord (0, 0, 0)) d

/-- `writePoints`, agi/agiVTK.cpp:6-88, after the communication -/
def points (g : Graph) (gc : Mem Coord) : Outcome (List (Option Coord)) := do
  let vs ← ownPoints g
  if g.isHyper then do
    let es ← eachEdge g (fun e => do
      let c ← edgePoint g gc e
      return [c])
    return vs.map some ++ es
  else return vs.map some

/-! ## cells -/

/-- local id of an edge, agi/agiEdge.cpp:63-66 -/
def edgeLid (g : Graph) (e : Handle) : Outcome Nat := do
  let (_, l) ← g.decodeEdge e
  return l

/-- the pins of an edge the part owns: `out` is printed for each -/
def ownedPins {β : Type} (g : Graph) (e : Handle) (out : Handle → Outcome (List β)) : Outcome (List β) :=
  eachPin g e (fun v => do
    let o ← g.owner v
    if o = g.self then out v else return [])

/-- the connectivity, agi/agiVTK.cpp:94-105 and 136-145 -/
def connectivity (g : Graph) : Outcome (List Nat) :=
  if g.isHyper then eachEdge g (fun e => ownedPins g e (fun v => do
    let l ← edgeLid g e
    let k ← vidx v
    return [l + g.numLocal, k]))
  else eachEdge g (fun e => do
    let u ← g.uEdge e
    let v ← g.vOf e
    let a ← vidx u
    let b ← vidx v
    return [a, b])

/-- one unit per cell, in the loops of agi/agiVTK.cpp:108-117 (120-129, 148-150, 153-155) -/
def cellMarks (g : Graph) : Outcome (List Unit) :=
  if g.isHyper then eachEdge g (fun e => ownedPins g e (fun _ => return [()]))
  else eachEdge g (fun _ => return [()])

/-- the offsets, agi/agiVTK.cpp:106-117, 146-150: `off += 2` for every cell -/
def offsets (marks : List Unit) : List Nat := (List.range marks.length).map (fun k => 2 * (k + 1))

/-- `getNumCells`, agi/agiVTK.cpp:219-237 -/
def getNumCells (g : Graph) : Outcome Nat :=
  if g.isHyper then do
    let l ← eachEdge g (fun e => eachPin g e (fun v => do
      let o ← g.owner v
      return [if o = g.self then 1 else 0]))
    return l.sum
  else g.numLocalEdges 0

/-! ## point data -/

/-- what `tag` and `t` select: agi/agi.h:32-33, `NO_TYPE`, `VTX_TYPE` or an edge type -/
inductive TagOn where
  | none
  | vtx
  | edge (t : Nat)
deriving DecidableEq

/-- the Part array, agi/agiVTK.cpp:161-171 -/
def partData (g : Graph) : Outcome (List Int) := do
  let vs ← eachVertex g (fun _ => return [g.self])
  if g.isHyper then do
    let es ← eachEdge g (fun _ => return [g.self])
    return vs ++ es
  else return vs

/-- the VorE array, agi/agiVTK.cpp:174-187 -/
def vorE (g : Graph) : Outcome (Option (List Nat)) :=
  if g.isHyper then do
    let vs ← eachVertex g (fun _ => return [0])
    let es ← eachEdge g (fun _ => return [1])
    return some (vs ++ es)
  else return none

/-- agi/agiVTK.cpp:192-197 -/
def tagVerts (g : Graph) (d : Mem Int) (t : TagOn) : Outcome (List Int) :=
  eachVertex g (fun v => if t = .vtx then do
      let x ← g.getVtxTag d v
      return [x]
    else return [-1])

/-- agi/agiVTK.cpp:198-208 -/
def tagEdges (g : Graph) (d : Mem Int) (t : TagOn) : Outcome (List Int) :=
  eachEdge g (fun e => if t = .edge 0 then do
      let x ← g.getEdgeTag d e
      return [x]
    else return [-1])

/-- the Tag array, agi/agiVTK.cpp:188-210 -/
def tagData (g : Graph) (tag : Option (Mem Int)) (t : TagOn) : Outcome (Option (List Int)) :=
  match tag with
  | none => return none
  | some d =>
    if t ≠ .none ∧ (t = .vtx ∨ g.isHyper = true) then do
      let vs ← tagVerts g d t
      if g.isHyper then do
        let es ← tagEdges g d t
        return some (vs ++ es)
      else return some vs
    else return none

/-! ## the file -/

/-- the number of points announced, agi/agiVTK.cpp:281-283 -/
def countPoints (g : Graph) : Outcome Nat :=
  if g.isHyper then do
    let e ← g.numLocalEdges 0
    return g.numLocal + e
  else return g.numLocal

/-- the file of one part, agi/agiVTK.cpp:274-292, with the coordinates of its ghosts -/
def writePart (g : Graph) (gc : Mem Coord) (tag : Option (Mem Int)) (t : TagOn) : Outcome File := do
  let nc ← getNumCells g
  let np ← countPoints g
  let ps ← points g gc
  let conn ← connectivity g
  let ms ← cellMarks g
  let pd ← partData g
  let ve ← vorE g
  let td ← tagData g tag t
  return { numPoints := np, numCells := nc, points := ps, connectivity := conn, offsets := offsets ms, types := ms.map (fun _ => 3), part := pd, vorE := ve, tag := td }

/-- `writeVTK(g, prefix, tag, t)` on all parts, agi/agiVTK.cpp:274-302; `tags` has the part's tag array or nothing -/
def writeVTK (gs : List Graph) (tags : List (Option (Mem Int))) (t : TagOn) (o1 o2 : Nat → List Nat) : Outcome (List File) := do
  let gcs ← ghostCoords gs o1 o2
  (gs.zip (gcs.zip tags)).mapM (fun x => writePart x.1 x.2.1 x.2.2 t)

end Verif.Vtk
