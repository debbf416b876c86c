import Verif.Io.BinModel
import Verif.Agi.DistModel
/-!
# Model of the migration of edges: `binGraph::migrate(EdgePartitionMap&)`, interfaces/binGraph.cpp:55-141

The map of a part is the list of its entries in the iteration order of the `unordered_map`: the local number of an edge
and the part it goes to.  The narrowing of ids to 32-bit numbers in `edge_list` is not modelled (ids are as in the file,
C43).  `delete edge_list[0]` of an array made by `new[]` (line 82) is not modelled.
-/
namespace Verif.Io
open Verif.Agi

/-- one entry, binGraph.cpp:59-63; `u(lid)` is the loop of `Graph.uEdge` -/
def vcSend (g : Graph) (x : Nat × Part) : Outcome (Part × (Gid × Gid)) := do
  let e ← g.slot 0
  let r ← uLoop e.degreeList x.1 (g.numLocal + 1) 0 g.numLocal
  let u ← deref r
  let v1 ← g.localUnmap.load u
  let d ← e.edgeList.load x.1
  let v2 ← g.localUnmap.load d
  return (x.2, (v1, v2))

/-- `ranks`, binGraph.cpp:86-91 -/
def vcRanks (me : Int) (n : Nat) (ids : List Gid) : Outcome (Mem Int) :=
  ids.foldlM (fun (m : Mem Int) v => do
    let i ← toIdx v
    m.store i me) (Mem.ofList (List.replicate n (-1)))

/-- the arrays of type 0, binGraph.cpp:73-84 and 305-322; those not written keep what they had -/
def vcEdges (old : Option EType) (ne : Nat) (m : Int) (deg : Mem Nat) (edges : Mem Int) : EType :=
  { old.getD { numEdges := 0, numPins := 0, globalEdges := 0, globalPins := 0, weights := [], degreeList := [], edgeList := [], pinDegree := [], pinList := [], edgeMap := GMap.empty, unmap := [] } with
    numEdges := ne, numPins := 2 * ne, globalEdges := m, globalPins := 2 * m, degreeList := deg, edgeList := edges.map (Option.map Int.toNat) }

/-- the new arrays of part `me`, binGraph.cpp:72-94: `create_dist_csr(ranks,0,false)` up to its last lines; `n` vertices
and `m` edges in all, `recv` the ends of the edges received -/
def vcBuild (g : Graph) (me n : Nat) (m : Int) (recv : List (Gid × Gid)) : Outcome Graph := do
  let ids := recv.flatMap (fun e => [e.1, e.2])
  let ranks ← vcRanks (me : Int) n ids
  let nl ← countLocal (me : Int) ranks n
  let s ← (List.range (2 * recv.length)).foldlM (relabelStep (me : Int) ranks) ⟨Mem.ofList ids, GMap.empty, Mem.alloc nl, 0⟩
  let (deg, edges) ← csrRows nl recv.length s.el
  return { g with numTypes := if g.numTypes = 0 then 1 else g.numTypes, globalVerts := n, numLocal := nl, weights := List.replicate nl (some 1), localUnmap := s.unmap, vtxMap := s.map, types := g.types.set 0 (some (vcEdges ((g.types[0]?).join) recv.length m deg edges)) }

/-- binGraph.cpp:57-94 on all parts: the edges go to their parts, the parts are built; with more than one part the ghost
weights are set (lines 349-351) -/
def vcMove (gs : List Graph) (maps : List (List (Nat × Part))) (o1 o2 o3 : Nat → List Nat) : Outcome (List Graph) := do
  let outs ← (gs.zip maps).mapM (fun p => p.2.mapM (vcSend p.1))
  let ins ← exchange outs o1
  let n := (gs.map (fun g => g.globalVerts)).sum
  let m : Int := (ins.map (fun r => (r.length : Int))).sum
  let gs' ← (List.range gs.length).mapM (fun q => do
    let g ← rd gs q
    let r ← rd ins q
    vcBuild g q n.toNat m (r.map (·.2)))
  if 1 < gs.length then do
    let tags ← createGhostTag gs' Graph.weight o2 o3
    return (gs'.zip tags).map (fun p => { p.1 with ghostWeights := some p.2 })
  else return gs'

/-- everybody hears of every vertex, binGraph.cpp:98-101 -/
def vcTell (g : Graph) (P me : Nat) : Outcome (List (Part × Gid)) := do
  let vs ← (List.range g.numLocal).mapM g.localUnmap.load
  return vs.flatMap (fun v => (List.range' 1 (P - 1)).map (fun j => ((((me + j) % P : Nat) : Int), v)))

/-- the vertices that others have too, binGraph.cpp:109-118: ids, their parts, and how often -/
structure VcDups where
  dups : List (Gid × Nat)
  deg : Mem Nat

/-- one id received, binGraph.cpp:110-117 -/
def vcHear (g : Graph) (s : VcDups) (x : Nat × Gid) : Outcome VcDups :=
  match g.vtxMap x.2 with
  | some l => do
    let deg ← incr s.deg (l + 1) 1
    return ⟨s.dups ++ [(x.2, x.1)], deg⟩
  | none => .ok s

/-- `degree_list[SPLIT_TYPE][i]+=degree_list[SPLIT_TYPE][i-1]`, binGraph.cpp:120-121 -/
def vcSum (d : Mem Nat) (i : Nat) : Outcome (Mem Nat) := do
  let a ← d.load i
  let b ← d.load (i - 1)
  d.store i (a + b)

/-- `memcpy(temp_counts, degree_list[SPLIT_TYPE], num_local_verts*sizeof(int64_t))`, binGraph.cpp:129-130: the source
holds `num_local_verts+1` numbers of 4 bytes, the copy reads `2*num_local_verts` of them and takes each pair for one
number of 8 bytes -/
def vcCopy (little : Bool) (nl : Nat) (deg : Mem Nat) : Outcome (Mem Nat) :=
  if deg.length < 2 * nl then .ub
  else do
    let l ← (List.range nl).mapM (fun k => do
      let a ← deg.load (2 * k)
      let b ← deg.load (2 * k + 1)
      return if little then a + 2 ^ 32 * b else 2 ^ 32 * a + b)
    return Mem.ofList l

/-- the arrays of the type of the split vertices, binGraph.cpp:124-139 -/
structure VcSplit where
  deg : Mem Nat
  edges : Mem Nat
  ghosts : List Gid
  owners : List Part

/-- one shared vertex, binGraph.cpp:134-139 -/
def vcPut (g : Graph) (s : Mem Nat × Mem Nat) (x : (Gid × Nat) × Nat) : Outcome (Mem Nat × Mem Nat) :=
  cursorPut s ((g.vtxMap x.1.1).getD 0) (g.numLocal + x.2)

/-- binGraph.cpp:103-139 on one part -/
def vcSplit (little : Bool) (g : Graph) (inbox : List (Nat × Gid)) : Outcome VcSplit := do
  let s ← inbox.foldlM (vcHear g) ⟨[], Mem.ofList (List.replicate (g.numLocal + 1) 0)⟩
  let deg ← (List.range' 1 g.numLocal).foldlM vcSum s.deg
  let last ← deg.load g.numLocal
  if last ≠ s.dups.length then .fail
  else do
    let temp ← vcCopy little g.numLocal deg
    let r ← s.dups.zipIdx.foldlM (vcPut g) (temp, Mem.alloc s.dups.length)
    return ⟨deg, r.2, s.dups.map (·.1), s.dups.map (fun x => (x.2 : Int))⟩

/-- `binGraph::migrate` on all parts -/
def vcMigrate (little : Bool) (gs : List Graph) (maps : List (List (Nat × Part))) (o1 o2 o3 o4 : Nat → List Nat) :
    Outcome (List (Graph × VcSplit)) := do
  let gs' ← vcMove gs maps o1 o2 o3
  let tells ← (List.range gs'.length).mapM (fun q => do
    let g ← rd gs' q
    vcTell g gs'.length q)
  let ins ← exchange tells o4
  let sp ← (gs'.zip ins).mapM (fun p => vcSplit little p.1 p.2)
  return gs'.zip sp

end Verif.Io
