import Verif.Agi.GraphModel
/-!
# Model of iteration and of the queries that iterate

`agi/agiIterate.cpp`, `agi/Iterators/*.h`, and the iterating queries of `agi/agiEdge.cpp`,
`agi/agiVertex.cpp`.  An `iterate` call takes the iterator and returns the handle and the advanced
iterator.  A loop that never ends (and has no effect) is undefined behaviour in C++; loops are therefore
given `fuel` larger than the number of elements there are, and running out of it gives `.ub`.
-/
namespace Verif.Agi

/-- the number of edges and pins stored for a type -/
def slotSize : Option EType → Nat
  | some e => e.numEdges + e.numPins + e.edgeList.length
  | none => 0

/-- more than the number of vertices, ghosts, edges or pins of any type -/
def Graph.bound (g : Graph) : Nat := 3 + g.numLocal + g.numGhost + (g.types.map slotSize).sum

/-- `while ((x = g->iterate(itr))) body`; the body tells whether to leave the loop (`break`, `return`) -/
def iterLoop {σ β : Type} (step : σ → Outcome (Handle × σ)) (body : β → Handle → Outcome (β × Bool)) :
    Nat → σ → β → Outcome β
  | 0, _, _ => .ub
  | fuel + 1, s, b => do
    let (h, s') ← step s
    if h = 0 then return b
    else do
      let (b', stop) ← body b h
      if stop then return b' else iterLoop step body fuel s' b'

/-! ## vertices and ghosts -/

/-- `begin()`, agi/agiIterate.cpp:8-10 -/
def vertexBegin : Nat := 1

/-- `iterate(VertexIterator*&)`, agi/agiIterate.cpp:25-34 -/
def Graph.iterVertex (g : Graph) (itr : Nat) : Outcome (Handle × Nat) :=
  if itr = g.numLocal + 1 then .ok (0, 0) else .ok (itr, itr + 1)

/-- `beginGhosts()`, agi/agiIterate.cpp:11-13 -/
def Graph.ghostBegin (g : Graph) : Nat := g.numLocal + 1

/-- `iterate(GhostIterator*&)`, agi/agiIterate.cpp:35-44 -/
def Graph.iterGhost (g : Graph) (itr : Nat) : Outcome (Handle × Nat) :=
  if itr = g.numLocal + g.numGhost + 1 then .ok (0, 0) else .ok (itr, itr + 1)

/-! ## edges -/

/-- `EdgeIterator`, agi/Iterators/EdgeIterator.h:10-24; `hyper` tells the subclass
`HyperEdgeIterator` (agi/Iterators/HyperEdgeIterator.h) -/
structure EdgeIt where
  loc : Nat
  stop : Nat
  step : Nat
  hyper : Bool
deriving DecidableEq

/-- `EdgeIterator(t,nt,l,deg)`, agi/Iterators/EdgeIterator.h:18-21 -/
def mkEdgeIt (t nt l : Nat) (deg : Int) (hyper : Bool) : EdgeIt :=
  { loc := 1 + t + nt * l, stop := 1 + t + nt * ((l : Int) + deg).toNat, step := nt, hyper := hyper }

/-- `begin(t)`, agi/agiIterate.cpp:19-23; `num_local_edges[t]` is 0 for a type not constructed -/
def Graph.edgeBegin (g : Graph) (t : Nat) : Outcome EdgeIt :=
  match g.types[t]? with
  | some (some e) => .ok (mkEdgeIt t g.numTypes 0 e.numEdges g.isHyper)
  | some none => .ok (mkEdgeIt t g.numTypes 0 0 g.isHyper)
  | none => .ub

/-- `edges(vtx,t)`, agi/agiVertex.cpp:146-151 -/
def Graph.edges (g : Graph) (h : Handle) (t : Nat) : Outcome EdgeIt := do
  let e ← g.slot t
  let l ← vidx h
  let a ← e.degreeList.load l
  let d ← g.degreeV h t
  return mkEdgeIt t g.numTypes a d false

/-- `iterate(EdgeIterator*&)`, agi/agiIterate.cpp:60-72 -/
def Graph.iterEdge (g : Graph) (it : EdgeIt) : Outcome (Handle × EdgeIt) :=
  if it.stop ≤ it.loc then .ok (0, it)
  else if g.isHyper ∧ it.hyper = false then do
    let (t, l) ← g.decodeEdge it.loc
    let e ← g.slot t
    let x ← e.edgeList.load l
    return (g.numTypes * x + t + 1, { it with loc := it.loc + it.step })
  else .ok (it.loc, { it with loc := it.loc + it.step })

/-! ## pins -/

/-- `u(edge)`: the search loop is given `numLocal + 1` rounds; a search not ended by then never ends
(theorem `uLoop_stuck`) -/
def Graph.uEdge (g : Graph) (h : Handle) : Outcome Handle := do
  let r ← g.uOf (g.numLocal + 1) h
  deref r

/-- `PinIterator`, agi/Iterators/PinIterator.h: in a hypergraph two positions in `pin_list[t]`, in a
traditional graph two vertex handles -/
structure PinIt where
  t : Nat
  loc : Nat
  stop : Nat
deriving DecidableEq

/-- `pins(edge)`, agi/agiEdge.cpp:126-136 -/
def Graph.pins (g : Graph) (h : Handle) : Outcome PinIt := do
  let (t, l) ← g.decodeEdge h
  let e ← g.slot t
  if g.isHyper = false then do
    let u ← g.uEdge h
    let v ← e.edgeList.load l
    return ⟨t, u, v + 1⟩
  else do
    let a ← e.pinDegree.load l
    let b ← e.pinDegree.load (l + 1)
    return ⟨t, a, b⟩

/-- `iterate(PinIterator*&)`, agi/agiIterate.cpp:73-90 -/
def Graph.iterPin (g : Graph) (it : PinIt) : Outcome (Handle × PinIt) :=
  if g.isHyper then
    if it.loc = it.stop then .ok (0, it)
    else do
      let e ← g.slot it.t
      let x ← e.pinList.load it.loc
      return (x + 1, { it with loc := it.loc + 1 })
  else
    if it.loc = it.stop then .ok (it.loc, { it with loc := 0, stop := 0 })
    else .ok (it.loc, { it with loc := it.stop })

/-! ## vertices adjacent to a vertex -/

/-- `GraphIterator`, agi/Iterators/GraphIterator.h (`pitr = NULL` is `none`) -/
structure AdjIt where
  isH : Bool
  count : Nat
  eitr : EdgeIt
  pitr : Option PinIt
  edge : Handle

/-- `adjacent(vtx,t)`, agi/agiVertex.cpp:153-158 -/
def Graph.adjacent (g : Graph) (h : Handle) (t : Nat) : Outcome AdjIt := do
  let eitr ← g.edges h t
  return ⟨g.isHyper, 0, eitr, none, 0⟩

/-- the hypergraph branch after the current edge is set, agi/agiIterate.cpp:102-103 -/
def Graph.iterAdjPin (g : Graph) (it : AdjIt) : Outcome (Handle × AdjIt) := do
  let p ← deref it.pitr
  let (v, p') ← g.iterPin p
  return (v, { it with pitr := some p', count := it.count + 1 })

/-- `iterate(GraphIterator*&)`, agi/agiIterate.cpp:91-110 -/
def Graph.iterAdj (g : Graph) (it : AdjIt) : Outcome (Handle × AdjIt) :=
  if it.isH then do
    let d ← g.degreeE it.edge
    if d ≤ it.count then do
      let (edge, eitr) ← g.iterEdge it.eitr
      if edge = 0 then return (0, { it with pitr := none, eitr := eitr })
      else do
        let p ← g.pins edge
        g.iterAdjPin ⟨it.isH, 0, eitr, some p, edge⟩
    else g.iterAdjPin it
  else do
    let (edge, eitr) ← g.iterEdge it.eitr
    let v ← g.vOf edge
    return (v, { it with eitr := eitr, edge := edge })

/-! ## residence -/

/-- `std::set<part_t>` (`Peers`, agi/agi.h:20): the elements in increasing order -/
abbrev Peers := List Part

/-- `std::set::insert` -/
def Peers.insert (p : Part) : Peers → Peers
  | [] => [p]
  | q :: r => if p < q then p :: q :: r else if p = q then q :: r else q :: Peers.insert p r

/-- one round of the loops of `getResidence` / `isResidentOn`: the next pin and its owner -/
def Graph.nextOwner (g : Graph) (it : PinIt) : Outcome (Part × PinIt) := do
  let (v, it') ← g.iterPin it
  let o ← g.owner v
  return (o, it')

/-- `getResidence(e, residence)`, agi/agiEdge.cpp:16-26: `degree(e)` rounds -/
def Graph.getResidence (g : Graph) (h : Handle) (res : Peers) : Outcome Peers := do
  let it ← g.pins h
  let d ← g.degreeE h
  let (res, _) ← (List.range d.toNat).foldlM (fun (s : Peers × PinIt) _ => do
    let (o, it') ← g.nextOwner s.2
    return (Peers.insert o s.1, it')) (res, it)
  return res

/-- the loop of `isResidentOn`, agi/agiEdge.cpp:31-37 -/
def Graph.residentLoop (g : Graph) (peer : Part) : Nat → PinIt → Outcome Bool
  | 0, _ => .ok false
  | n + 1, it => do
    let (o, it') ← g.nextOwner it
    if o = peer then return true else g.residentLoop peer n it'

/-- `isResidentOn(e, peer)`, agi/agiEdge.cpp:27-40 -/
def Graph.isResidentOn (g : Graph) (h : Handle) (peer : Part) : Outcome Bool := do
  let it ← g.pins h
  let d ← g.degreeE h
  g.residentLoop peer d.toNat it

/-- the body of the loop of `isCut`, agi/agiEdge.cpp:45-51 -/
def Graph.cutBody (g : Graph) (s : Part × Bool) (v : Handle) : Outcome ((Part × Bool) × Bool) := do
  let o ← g.owner v
  if s.1 = -1 then return ((o, false), false)
  else if s.1 ≠ o then return ((s.1, true), true)
  else return (s, false)

/-- `isCut(e)`, agi/agiEdge.cpp:41-54 -/
def Graph.isCut (g : Graph) (h : Handle) : Outcome Bool := do
  let it ← g.pins h
  let (_, cut) ← iterLoop g.iterPin g.cutBody g.bound it (-1, false)
  return cut

/-! ## ghost owners and global counts -/

/-- `constructGhosts`: does a part below `self` hold this edge? (lines 397-405: the loop over the
residence with `break`) -/
def lowerPart (self : Part) (res : Peers) : Bool := res.any (fun p => decide (p < self))

/-- one edge in the counting loop, agi/agiConstruct.cpp:394-406 (447-457) -/
def Graph.countOwned (g : Graph) (s : Int × Int) (h : Handle) : Outcome ((Int × Int) × Bool) := do
  let res ← g.getResidence h []
  if lowerPart g.self res then do
    let d ← g.degreeE h
    return ((s.1 - 1, s.2 - d), false)
  else return (s, false)

/-- the local contributions to `num_global_edges[t]`, `num_global_pins[t]`,
agi/agiConstruct.cpp:388-415 (440-466).  In a traditional graph the second number is not summed
(`num_global_pins = 2 * num_global_edges`). -/
def Graph.ownedCounts (g : Graph) (t : Nat) : Outcome (Int × Int) := do
  let e ← g.slot t
  if g.isHyper then do
    let it ← g.edgeBegin t
    iterLoop g.iterEdge g.countOwned g.bound it (e.numEdges, e.numPins)
  else return (e.numEdges, 2 * e.numEdges)

/-- the owner table, map version, agi/agiConstruct.cpp:380-385: `owns[gid]` inserts 0 for a missing gid -/
def Graph.fillOwners (g : Graph) (owns : GMap Part) : Outcome Graph :=
  if g.numGhost = 0 then .ok { g with owners := none }
  else do
    let gu ← deref g.ghostUnmap
    let o ← (List.range' 0 g.numGhost).foldlM (fun (m : Mem Part) v => do
      let gid ← gu.load v
      m.store v ((owns gid).getD 0)) (Mem.alloc g.numGhost)
    return { g with owners := some o }

/-- one entry of the array version, agi/agiConstruct.cpp:433-439: `vtx_mapping[v]` inserts index 0 for an
unknown gid -/
def Graph.setGhostOwner (g : Graph) (v : Gid) (p : Part) : Outcome Graph :=
  match g.vtxMap v with
  | none =>
    if 0 < g.numLocal then .ok { g with vtxMap := g.vtxMap.put v 0 }
    else do
      let o ← deref g.owners
      let o ← o.store 0 p
      return { g with vtxMap := g.vtxMap.put v 0, owners := some o }
  | some l =>
    if l < g.numLocal then .ok g
    else do
      let o ← deref g.owners
      let o ← o.store (l - g.numLocal) p
      return { g with owners := some o }

/-- the owner table, array version, agi/agiConstruct.cpp:430-439 -/
def Graph.fillOwnersA (g : Graph) (gs : List (Gid × Part)) : Outcome Graph :=
  gs.foldlM (fun g p => g.setGhostOwner p.1 p.2)
    { g with owners := if 0 < g.numGhost then some (Mem.alloc g.numGhost) else none }

/-- setting the global counts of one type; `sumE`, `sumP` are the results of `PCU_Add_Long` -/
def Graph.setGlobalCounts (g : Graph) (t : Nat) (sumE sumP : Int) : Outcome Graph := do
  let e ← g.slot t
  return { g with types := g.types.set t (some { e with
    globalEdges := sumE, globalPins := if g.isHyper then sumP else 2 * sumE }) }

end Verif.Agi
