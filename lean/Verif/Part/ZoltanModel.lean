import Verif.Agi.DistModel
import Verif.Agi.IterModel
import Verif.Agi.PlanModel
/-!
# Model of the callbacks handed to Zoltan: partition/Multilevel/engpar_zoltan.cpp

Zoltan's documented contract: the size callbacks tell how large the arrays are, Zoltan allocates them, the list callbacks
fill them, and Zoltan reads all of them (reading an unwritten cell is undefined).  `NUM_GID_ENTRIES` and
`NUM_LID_ENTRIES` are never set (engpar_zoltan.cpp:83-95) and are 1; the weight dimensions are set to 1.  `zid` is the
conversion of a global id to `ZOLTAN_ID_TYPE`; the conversion of weights from `double` to `float` is not modelled.  The
partitioner itself is outside the model.
-/
namespace Verif.Part
open Verif.Agi

/-- reading an array completely -/
def readArr {α : Type} (m : Mem α) : Outcome (List α) := (List.range m.length).mapM m.load

/-- the arrays of `getVertices` -/
structure ZVerts where
  lids : Mem Int
  gids : Mem Int
  wgts : Mem Wgt

/-- one vertex, engpar_zoltan.cpp:113-118 -/
def zVertex (g : Graph) (zid : Gid → Int) (s : ZVerts) (v : Handle) : Outcome (ZVerts × Bool) := do
  let l ← vidx v
  let lids ← s.lids.store l (l : Int)
  let gid ← g.globalID v
  let gids ← s.gids.store l (zid gid)
  let w ← g.weight v
  let wgts ← s.wgts.store l w
  return (⟨lids, gids, wgts⟩, false)

/-- what Zoltan reads of the vertices -/
structure ZVertList where
  lids : List Int
  gids : List Int
  wgts : List Wgt
deriving DecidableEq

/-- `numVertices` and `getVertices`, engpar_zoltan.cpp:99-121 -/
def zVertices (g : Graph) (zid : Gid → Int) : Outcome ZVertList := do
  let s ← iterLoop g.iterVertex (zVertex g zid) g.bound vertexBegin
    ⟨Mem.alloc g.numLocal, Mem.alloc g.numLocal, Mem.alloc g.numLocal⟩
  let lids ← readArr s.lids
  let gids ← readArr s.gids
  let wgts ← readArr s.wgts
  return ⟨lids, gids, wgts⟩

/-- `edge_gids` and `index` -/
structure ZRow where
  edges : Mem Int
  index : Nat

/-- one edge of a vertex, engpar_zoltan.cpp:148-150 -/
def zRowEdge (g : Graph) (zid : Gid → Int) (s : ZRow) (e : Handle) : Outcome (ZRow × Bool) := do
  let gid ← g.globalIDE e
  let edges ← s.edges.store s.index (zid gid)
  return (⟨edges, s.index + 1⟩, false)

/-- the arrays of `getHyperedges` -/
structure ZCsr where
  vtx : Mem Int
  offsets : Mem Int
  row : ZRow

/-- `if (lid < g->numLocalVtxs()-1) offsets[lid+1] = offsets[lid] + g->degree(v);`, engpar_zoltan.cpp:144-145 -/
def zOffset (g : Graph) (offsets : Mem Int) (lid : Nat) (v : Handle) : Outcome (Mem Int) :=
  if (lid : Int) < (g.numLocal : Int) - 1 then do
    let o ← offsets.load lid
    let d ← g.degreeV v 0
    offsets.store (lid + 1) (o + d)
  else .ok offsets

/-- one vertex of `getHyperedges`, engpar_zoltan.cpp:141-152 -/
def zHyperVertex (g : Graph) (zid : Gid → Int) (s : ZCsr) (v : Handle) : Outcome (ZCsr × Bool) := do
  let lid ← vidx v
  let gid ← g.globalID v
  let vtx ← s.vtx.store lid (zid gid)
  let offsets ← zOffset g s.offsets lid v
  let it ← g.edges v 0
  let row ← iterLoop g.iterEdge (zRowEdge g zid) g.bound it s.row
  return (⟨vtx, offsets, row⟩, false)

/-- `numHyperedges` and `getHyperedges`, engpar_zoltan.cpp:124-154: arrays of `numLocalVtxs()` vertices and offsets, and
of `numLocalPins()` edge ids -/
def zHyperFill (g : Graph) (zid : Gid → Int) : Outcome ZCsr := do
  let np ← g.numLocalPins 0
  let offsets ← (Mem.alloc g.numLocal).store 0 0
  iterLoop g.iterVertex (zHyperVertex g zid) g.bound vertexBegin ⟨Mem.alloc g.numLocal, offsets, ⟨Mem.alloc np, 0⟩⟩

/-- row `i` of a `ZOLTAN_COMPRESSED_VERTEX` list: from its offset to the next offset, the last one to the number of pins -/
def zRow (s : ZCsr) (i : Nat) : Outcome (List Int) := do
  let a ← s.offsets.load i
  let b ← if i + 1 < s.offsets.length then s.offsets.load (i + 1) else .ok (s.row.edges.length : Int)
  (List.range' a.toNat (b - a).toNat).mapM s.row.edges.load

/-- what Zoltan reads: the vertices, each with the ids of its hyperedges -/
def zHyper (g : Graph) (zid : Gid → Int) : Outcome (List (Int × List Int)) := do
  let s ← zHyperFill g zid
  let vs ← readArr s.vtx
  let rows ← (List.range s.vtx.length).mapM (zRow s)
  return vs.zip rows

/-- the arrays of `getHyperedgeWeights` -/
structure ZEdges where
  lids : Mem Int
  gids : Mem Int
  wgts : Mem Wgt

/-- one hyperedge, engpar_zoltan.cpp:170-175; `localID(e)` is agi/agiEdge.cpp:45-49 -/
def zEdgeWeight (g : Graph) (zid : Gid → Int) (s : ZEdges) (e : Handle) : Outcome (ZEdges × Bool) := do
  let (_, lid) ← g.decodeEdge e
  let lids ← s.lids.store lid (lid : Int)
  let gid ← g.globalIDE e
  let gids ← s.gids.store lid (zid gid)
  let w ← g.weightE e
  let wgts ← s.wgts.store lid w
  return (⟨lids, gids, wgts⟩, false)

/-- `numHyperedgeWeights` and `getHyperedgeWeights`, engpar_zoltan.cpp:157-178 -/
def zEdgeWeights (g : Graph) (zid : Gid → Int) : Outcome ZVertList := do
  let n ← g.numLocalEdges 0
  let it ← g.edgeBegin 0
  let s ← iterLoop g.iterEdge (zEdgeWeight g zid) g.bound it ⟨Mem.alloc n, Mem.alloc n, Mem.alloc n⟩
  let lids ← readArr s.lids
  let gids ← readArr s.gids
  let wgts ← readArr s.wgts
  return ⟨lids, gids, wgts⟩

/-- the arrays of `getEdges` -/
structure ZNbrs where
  nbrs : Mem Int
  owners : Mem Int
  wgts : Mem Wgt
  index : Nat

/-- one edge of `getEdges`, engpar_zoltan.cpp:203-208 -/
def zNbr (g : Graph) (zid : Gid → Int) (s : ZNbrs) (e : Handle) : Outcome (ZNbrs × Bool) := do
  let v ← g.vOf e
  let gid ← g.globalID v
  let nbrs ← s.nbrs.store s.index (zid gid)
  let o ← g.owner v
  let owners ← s.owners.store s.index o
  let w ← g.weightE e
  let wgts ← s.wgts.store s.index w
  return (⟨nbrs, owners, wgts, s.index + 1⟩, false)

/-- `numEdges` and `getEdges`, engpar_zoltan.cpp:183-212: the neighbours of the vertex with local id `lid`, their owners
and the weights -/
def zEdges (g : Graph) (zid : Gid → Int) (lid : Nat) : Outcome (List (Int × Int × Wgt)) := do
  let u := getVertex lid
  let d ← g.degreeV u 0
  let it ← g.edges u 0
  let s ← iterLoop g.iterEdge (zNbr g zid) g.bound it
    ⟨Mem.alloc d.toNat, Mem.alloc d.toNat, Mem.alloc d.toNat, 0⟩
  let nbrs ← readArr s.nbrs
  let owners ← readArr s.owners
  let wgts ← readArr s.wgts
  return nbrs.zip (owners.zip wgts)

/-- the plan made from the lists Zoltan returns, engpar_zoltan.cpp:67-73 -/
def zoltanPlan (g : Graph) (exports : List (Nat × Part)) : Outcome Plan := do
  let p ← g.newPlan
  exports.foldlM (fun p x => do
    let (p, _) ← g.planInsert p (getVertex x.1) x.2
    return p) p

end Verif.Part
