import Verif.Agi.MigrateModel
import Verif.Part.TrimModel
/-!
# Model of the second adjacencies: create_vev_adjacency, create_eve_adjacency and their iterators

agi/agiConstruct.cpp:618-737, agi/agiVertex.cpp:169-178, agi/agiEdge.cpp:170-183, agi/agiIterate.cpp:45-58, 115-128.
Simplifications: a type must have been constructed (`vev_offsets[t]` of other types is not modelled); local
ids do not overflow; an `unordered_set` is a list in order of insertion, its iteration order is a parameter.
-/
namespace Verif.Part
open Verif.Agi

/-- one of the two nested loops that enumerate the handles around a handle, with a loop body -/
abbrev Gather := ∀ (β : Type), Handle → (β → Handle → Outcome β) → β → Outcome β

/-- a loop body that never leaves the loop -/
def plain {β : Type} (f : β → Handle → Outcome β) (b : β) (h : Handle) : Outcome (β × Bool) := do
  let b ← f b h
  return (b, false)

/-- `gitr = adjacent(v); while ((other = iterate(gitr))) …`, agi/agiConstruct.cpp:633-638 and 657-664; the call leaves the
edge type at its default 0 -/
def vevGather (g : Graph) : Gather := fun _ v f b => do
  let it ← g.adjacent v 0
  iterLoop g.iterAdj (plain f) g.adjFuel it b

/-- the inner loop over the edges of a pin, agi/agiConstruct.cpp:688-697 and 720-731; `edges(v)` leaves the edge type at
its default 0 -/
def evePin (g : Graph) {β : Type} (f : β → Handle → Outcome β) (b : β) (v : Handle) : Outcome β := do
  let o ← g.owner v
  if o ≠ g.self then return b
  else do
    let it ← g.edges v 0
    iterLoop g.iterEdge (plain f) g.bound it b

/-- the loop over the pins of an edge, agi/agiConstruct.cpp:685-699 and 717-733 -/
def eveGather (g : Graph) : Gather := fun _ e f b => do
  let it ← g.pins e
  iterLoop g.iterPin (plain (evePin g f)) g.bound it b

/-- the number of entries of one vertex or edge, agi/agiConstruct.cpp:631-643 and 681-705: `count` or the size of the set
without the entity itself -/
def rowSize (G : Gather) (compress : Bool) (x : Handle) : Outcome Nat := do
  let c ← G (Nat × List Handle) x (fun c h => .ok (c.1 + 1, insertSet c.2 h)) (0, [])
  return if compress then (c.2.erase x).length else c.1

/-- one round of the counting loop: offset `id` from offset `id-1` -/
def countStep (G : Gather) (compress : Bool) (s : Mem Nat × Nat) (x : Handle) : Outcome (Mem Nat × Nat) := do
  let n ← rowSize G compress x
  let prev ← s.1.load (s.2 - 1)
  let o ← s.1.store s.2 (prev + n)
  return (o, s.2 + 1)

/-- the list of adjacencies being filled, the position, the set -/
structure RowSt where
  lists : Mem Nat
  id : Nat
  uniq : List Handle

/-- `lists[id++] = localID(h)` -/
def RowSt.put (lid : Handle → Outcome Nat) (c : RowSt) (h : Handle) : Outcome RowSt := do
  let l ← lid h
  let m ← c.lists.store c.id l
  return ⟨m, c.id + 1, c.uniq⟩

/-- the body of the inner filling loop -/
def fillBody (lid : Handle → Outcome Nat) (compress : Bool) (c : RowSt) (h : Handle) : Outcome RowSt :=
  if compress then .ok ⟨c.lists, c.id, insertSet c.uniq h⟩ else c.put lid h

/-- one round of the filling loop, agi/agiConstruct.cpp:653-667 and 714-734; `ord` is the iteration order of the set -/
def fillStep (G : Gather) (lid : Handle → Outcome Nat) (compress : Bool) (ord : Handle → List Handle → List Handle)
    (s : Mem Nat × Nat) (x : Handle) : Outcome (Mem Nat × Nat) := do
  let c ← G RowSt x (fillBody lid compress) ⟨s.1, s.2, []⟩
  let c ← (ord x (c.uniq.erase x)).foldlM (RowSt.put lid) c
  return (c.lists, c.id)

/-- `create_vev_adjacency(t, compress)`, agi/agiConstruct.cpp:618-669 -/
def createVev (g : Graph) (t : Nat) (compress : Bool) (ord : Handle → List Handle → List Handle) : Outcome Graph := do
  let e ← g.slot t
  let o ← (Mem.alloc (g.numLocal + 1)).store 0 0
  let c ← iterLoop g.iterVertex (plain (countStep (vevGather g) compress)) g.bound vertexBegin (o, 1)
  let n ← c.1.load g.numLocal
  let l ← iterLoop g.iterVertex (plain (fillStep (vevGather g) vidx compress ord)) g.bound vertexBegin (Mem.alloc n, 0)
  return { g with types := g.types.set t (some { e with vevOffsets := some c.1, vevLists := l.1 }) }

/-- `localID(edge)`, agi/agiEdge.cpp -/
def edgeLid (g : Graph) (h : Handle) : Outcome Nat := do
  let x ← g.decodeEdge h
  return x.2

/-- `create_eve_adjacency(t, compress)`, agi/agiConstruct.cpp:671-737 -/
def createEve (g : Graph) (t : Nat) (compress : Bool) (ord : Handle → List Handle → List Handle) : Outcome Graph := do
  let e ← g.slot t
  let o ← (Mem.alloc (e.numEdges + 1)).store 0 0
  let it ← g.edgeBegin t
  let c ← iterLoop g.iterEdge (plain (countStep (eveGather g) compress)) g.bound it (o, 1)
  let n ← c.1.load e.numEdges
  let l ← iterLoop g.iterEdge (plain (fillStep (eveGather g) (edgeLid g) compress ord)) g.bound it (Mem.alloc n, 0)
  return { g with types := g.types.set t (some { e with eveOffsets := some c.1, eveLists := l.1 }) }

/-- `vev_begin(vtx, t)`, agi/agiVertex.cpp:169-173 -/
def vevBegin (g : Graph) (h : Handle) (t : Nat) : Outcome Nat := do
  let e ← g.slot t
  let o ← deref e.vevOffsets
  let i ← vidx h
  let a ← o.load i
  return a * g.numTypes + t + 1

/-- `vev_end(vtx, t)`, agi/agiVertex.cpp:174-178 -/
def vevEnd (g : Graph) (h : Handle) (t : Nat) : Outcome Nat := do
  let e ← g.slot t
  let o ← deref e.vevOffsets
  let i ← vidx h
  let a ← o.load (i + 1)
  return a * g.numTypes + g.numTypes + t + 1

/-- `iterate(VEVIterator*&)`, agi/agiIterate.cpp:45-58: the type of the advanced iterator is 0 -/
def iterVev (g : Graph) (itr : Nat) : Outcome (Handle × Nat) := do
  let (t, id) ← g.decodeEdge itr
  let e ← g.slot t
  let o ← deref e.vevOffsets
  let n ← o.load g.numLocal
  if n ≤ id then return (0, id * g.numTypes + g.numTypes + 1)
  else do
    let i ← e.vevLists.load id
    return (i + 1, id * g.numTypes + g.numTypes + 1)

/-- `eve_begin(edge)`, agi/agiEdge.cpp:170-176 -/
def eveBegin (g : Graph) (h : Handle) : Outcome Nat := do
  let (t, id) ← g.decodeEdge h
  let e ← g.slot t
  let o ← deref e.eveOffsets
  let a ← o.load id
  return a * g.numTypes + t + 1

/-- `eve_end(edge)`, agi/agiEdge.cpp:177-183 -/
def eveEnd (g : Graph) (h : Handle) : Outcome Nat := do
  let (t, id) ← g.decodeEdge h
  let e ← g.slot t
  let o ← deref e.eveOffsets
  let a ← o.load (id + 1)
  return a * g.numTypes + g.numTypes + t + 1

/-- `iterate(EVEIterator*&)`, agi/agiIterate.cpp:115-128 -/
def iterEve (g : Graph) (itr : Nat) : Outcome (Handle × Nat) := do
  let (t, id) ← g.decodeEdge itr
  let e ← g.slot t
  let o ← deref e.eveOffsets
  let n ← o.load e.numEdges
  if n ≤ id then return (0, id * g.numTypes + g.numTypes + 1)
  else do
    let i ← e.eveLists.load id
    return (i * g.numTypes + t + 1, id * g.numTypes + g.numTypes + 1)

/-- the loop of the callers (test/NgraphTestSuite.cpp:435 and 493): `for (x = iterate(itr); itr != end; x = iterate(itr))`;
what the body gets -/
def visit (step : Nat → Outcome (Handle × Nat)) (stop : Nat) : Nat → Nat → Outcome (List Handle)
  | 0, _ => .ub
  | fuel + 1, it => do
    let (h, it') ← step it
    if it' = stop then return []
    else do
      let r ← visit step stop fuel it'
      return h :: r

/-- the loop over the second adjacency of a vertex -/
def visitVev (g : Graph) (h : Handle) (t fuel : Nat) : Outcome (List Handle) := do
  let a ← vevBegin g h t
  let b ← vevEnd g h t
  visit (iterVev g) b fuel a

/-- the loop over the second adjacency of an edge -/
def visitEve (g : Graph) (h : Handle) (fuel : Nat) : Outcome (List Handle) := do
  let a ← eveBegin g h
  let b ← eveEnd g h
  visit (iterEve g) b fuel a

end Verif.Part
