import Verif.Part.ZoltanModel
import Verif.Io.BinModel
/-!
# Model of the edge partitioner: zoltan/ZoltanCallbacks.cpp, zoltan/ZoltanCutVertex.cpp

`ZoltanCutVertex` partitions the edges (type 0) of the graph of one process.  The objects are the edges, the hyperedges
given to Zoltan are the vertices.  Zoltan's documented contract: the size callbacks tell how large the arrays are, Zoltan
allocates them, the list callbacks fill them, and Zoltan reads all of them.  Zoltan's documentation gives `vtxedge_ptr`
`num_lists` entries; its implementation allocates one more: the number of spare entries is a parameter.
`ZOLTAN_ID_TYPE` of a global id is `zid`, as in `ZoltanModel`.  The partitioner itself is outside the model.
-/
namespace Verif.Part
open Verif.Agi Verif.Io

/-- the loop body of `obj_list`, ZoltanCallbacks.cpp:18-21 -/
def cutObj (s : Mem Int × Mem Int) (i : Nat) : Outcome (Mem Int × Mem Int) := do
  let lids ← s.2.store i (i : Int)
  let gids ← s.1.store i (i : Int)
  return (gids, lids)

/-- `num_obj` and `obj_list`, ZoltanCallbacks.cpp:6-23: the global and the local ids of the objects -/
def cutObjects (g : Graph) : Outcome (List Int × List Int) := do
  let n ← g.numLocalEdges 0
  let s ← (List.range n).foldlM cutObj (Mem.alloc n, Mem.alloc n)
  let gids ← readArr s.1
  let lids ← readArr s.2
  return (gids, lids)

/-- one pin, ZoltanCallbacks.cpp:47-49: the store comes before the assertions -/
def cutPin (numPins : Nat) (ptr : Mem Int) (i : Nat) (pins : Mem Int) (j : Nat) : Outcome (Mem Int) := do
  let o ← ptr.load i
  let x := o + (j : Int)
  let k ← toIdx x
  let pins ← pins.store k x
  if ¬ x < (numPins : Int) then .fail
  else do
    let q ← ptr.load (i + 1)
    if ¬ x < q then .fail else return pins

/-- the arrays of `hg_data` and `i` -/
structure CutCsr where
  vtx : Mem Int
  ptr : Mem Int
  pins : Mem Int
  i : Nat

/-- `if (i<g->numLocalVtxs()) vtxedge_ptr[i+1] = vtxedge_ptr[i]+deg;`, ZoltanCallbacks.cpp:44-45 -/
def cutPtr (g : Graph) (ptr : Mem Int) (i : Nat) (d : Int) : Outcome (Mem Int) :=
  if i < g.numLocal then do
    let o ← ptr.load i
    ptr.store (i + 1) (o + d)
  else .ok ptr

/-- one vertex, ZoltanCallbacks.cpp:42-52 -/
def hgVertex (g : Graph) (zid : Gid → Int) (numPins : Nat) (s : CutCsr) (v : Handle) : Outcome (CutCsr × Bool) := do
  let gid ← g.globalID v
  let vtx ← s.vtx.store s.i (zid gid)
  let d ← g.degreeV v 0
  let ptr ← cutPtr g s.ptr s.i d
  let pins ← (List.range d.toNat).foldlM (cutPin numPins ptr s.i) s.pins
  return (⟨vtx, ptr, pins, s.i + 1⟩, false)

/-- `hg_size` and `hg_data`, ZoltanCallbacks.cpp:25-55: `numLocalVtxs()` lists and `numLocalEdges()` pins -/
def cutFill (g : Graph) (zid : Gid → Int) (spare : Nat) : Outcome CutCsr := do
  let np ← g.numLocalEdges 0
  let ptr ← (Mem.alloc (g.numLocal + spare)).store 0 0
  iterLoop g.iterVertex (hgVertex g zid np) g.bound vertexBegin ⟨Mem.alloc g.numLocal, ptr, Mem.alloc np, 0⟩

/-- list `i` of a `ZOLTAN_COMPRESSED_EDGE` hypergraph: from its start to the next start, the last one to the number of pins -/
def cutRow (s : CutCsr) (i : Nat) : Outcome (List Int) := do
  let a ← s.ptr.load i
  let b ← if i + 1 < s.vtx.length then s.ptr.load (i + 1) else .ok (s.pins.length : Int)
  (List.range' a.toNat (b - a).toNat).mapM s.pins.load

/-- what Zoltan reads: the hyperedges, each with its objects -/
def cutLists (g : Graph) (zid : Gid → Int) (spare : Nat) : Outcome (List (Int × List Int)) := do
  let s ← cutFill g zid spare
  let vs ← readArr s.vtx
  let rows ← (List.range s.vtx.length).mapM (cutRow s)
  return vs.zip rows

/-- the arrays of `hg_ew` and `i`; a weight is `none` for the infinity that `1.0/0` gives -/
structure CutWgts where
  gids : Mem Int
  lids : Mem Int
  wgts : Mem (Option Wgt)
  i : Nat

/-- `1.0/g->degree(vtx)`, ZoltanCallbacks.cpp:72 -/
def invWeight (d : Int) : Option Wgt := if d = 0 then none else some (1 / (d : Rat))

/-- one vertex of `hg_ew`, ZoltanCallbacks.cpp:70-72; `i` is not advanced -/
def cutEw (g : Graph) (zid : Gid → Int) (s : CutWgts) (v : Handle) : Outcome (CutWgts × Bool) := do
  let gid ← g.globalID v
  let gids ← s.gids.store s.i (zid gid)
  let lids ← s.lids.store s.i (s.i : Int)
  let d ← g.degreeV v 0
  let wgts ← s.wgts.store s.i (invWeight d)
  return (⟨gids, lids, wgts, s.i⟩, false)

/-- `hg_ew_size` and `hg_ew`, ZoltanCallbacks.cpp:57-75 -/
def cutWeights (g : Graph) (zid : Gid → Int) : Outcome (List (Int × Int × Option Wgt)) := do
  let s ← iterLoop g.iterVertex (cutEw g zid) g.bound vertexBegin
    ⟨Mem.alloc g.numLocal, Mem.alloc g.numLocal, Mem.alloc g.numLocal, 0⟩
  let gids ← readArr s.gids
  let lids ← readArr s.lids
  let wgts ← readArr s.wgts
  return gids.zip (lids.zip wgts)

/-- what `Zoltan_LB_Partition` asks for in `ZoltanCutVertex::run`, ZoltanCutVertex.cpp:44-49,58-63 -/
def cutRun (g : Graph) (zid : Gid → Int) (spare : Nat) :
    Outcome ((List Int × List Int) × List (Int × List Int) × List (Int × Int × Option Wgt)) := do
  let objs ← cutObjects g
  let lists ← cutLists g zid spare
  let wgts ← cutWeights g zid
  return (objs, lists, wgts)

/-- `createPtn`, ZoltanCutVertex.cpp:70-75: `ptn[export_lids[i]] = export_to_part[i]` -/
def cutPtn (exports : List (Nat × Int)) (ptn : Nat → Option Int) : Nat → Option Int :=
  exports.foldl (fun m x => fun l => if l = x.1 then some x.2 else m l) ptn

end Verif.Part
