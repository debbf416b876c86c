import Verif.Color.Interleave
import Verif.Part.SecondModel
/-!
# Model of the Kokkos colouring, partition/Coloring/engpar_kokkosColoring.cpp

A `parallel_for` is modelled by its threads' atomic actions, performed in the order of an interleaving (`Interleave`).  Reads of
views no thread writes are done when the thread starts.  `parallel_reduce` and `parallel_scan` are their sequential meaning.
`Kokkos::UnorderedMap<pair,void>` is a bounded set: `insert` is atomic, fails silently when the map is full, and the keys are
in some slots in some order.  Integers do not overflow.
-/
namespace Verif.Color
open Verif.Agi Verif.Part

/-- what Kokkos decides -/
structure Env where
  /-- capacity of the map for a hint -/
  cap : Nat → Nat
  /-- the slots the keys end up in -/
  slots : List (Nat × Nat) → List (Option (Nat × Nat))
  /-- which thread goes next in the three kernels -/
  s2 : List Nat
  s3 : List Nat
  s4 : List Nat
  /-- iteration order of the set in `create_vev_adjacency` -/
  ord : Handle → List Handle → List Handle
  /-- `KokkosGraph::Experimental::graph_color` on the rows of a graph with so many vertices -/
  color : Nat → List (List Nat) → List Nat

/-- `hostToDevice`, partition/Coloring/engpar_kokkosColoring.cpp:10-15: the host array is read up to the size of the view -/
def hostToDevice (n : Nat) (h : Mem Nat) : Outcome (List Nat) := (List.range n).mapM (fun i => h.load i)

/-- the pairs vertex `v` adds, in the order of the loops, partition/Coloring/engpar_kokkosColoring.cpp:55-61 (the same loops
count at 43-49); each entry of the row is read once instead of twice per pair -/
def pairsOf (deg ed : Mem Nat) (v : Nat) : Outcome (List (Nat × Nat)) := do
  let a ← deg.load v
  let b ← deg.load (v + 1)
  let xs ← (List.range' a (b - a)).mapM (fun i => ed.load i)
  return xs.flatMap (fun x => (xs.filter (fun y => decide (x ≠ y))).map (fun y => (x, y)))

/-- `m.insert(key)` with capacity `cap` -/
def mapInsert (cap : Nat) (m : List (Nat × Nat)) (p : Nat × Nat) : List (Nat × Nat) :=
  if p ∈ m then m else if m.length < cap then m ++ [p] else m

/-- the hint, partition/Coloring/engpar_kokkosColoring.cpp:41-50 -/
def numAdj (ps : List (List (Nat × Nat))) : Nat := (ps.map List.length).sum

/-- filling the map, partition/Coloring/engpar_kokkosColoring.cpp:52-62 -/
def fillMap (E : Env) (ps : List (List (Nat × Nat))) : List (Nat × Nat) :=
  (interleave ps E.s2).foldl (mapInsert (E.cap (numAdj ps))) []

/-- `atomic_fetch_add(&deg(p.first+1), 1)`, partition/Coloring/engpar_kokkosColoring.cpp:65-70 -/
def degAdd (d : Mem Nat) (p : Nat × Nat) : Outcome (Mem Nat) := do
  let x ← d.load (p.1 + 1)
  d.store (p.1 + 1) (x + 1)

/-- counting, partition/Coloring/engpar_kokkosColoring.cpp:64-70; a view starts with zeros -/
def countDeg (E : Env) (N : Nat) (slots : List (Option (Nat × Nat))) : Outcome (Mem Nat) :=
  (interleave (slots.map (fun o => o.toList)) E.s3).foldlM degAdd (Mem.ofList (List.replicate (N + 1) 0))

/-- the scan, partition/Coloring/engpar_kokkosColoring.cpp:71-76 -/
def scanStep (s : Mem Nat × Nat) (i : Nat) : Outcome (Mem Nat × Nat) := do
  let x ← s.1.load (i + 1)
  let d ← s.1.store (i + 1) (s.2 + x)
  return (d, s.2 + x)

/-- the atomic actions of the thread of slot `k` in the last kernel, partition/Coloring/engpar_kokkosColoring.cpp:82-89 -/
inductive Act where
  | base (k : Nat)
  | add (k : Nat)
  | put (k : Nat)
deriving DecidableEq

/-- the memory of the last kernel; `base`, `idx`: the local variables `e`, `idx` of the threads -/
structure St where
  cnt : Mem Nat
  out : Mem Nat
  base : Nat → Option Nat
  idx : Nat → Option Nat

/-- one action: `e = deg(p.first)`, `idx = atomic_fetch_add(&adjCount(p.first),1)`, `edgeList(e+idx) = p.second` -/
def act (deg : Mem Nat) (key : Nat → Nat × Nat) (s : St) : Act → Outcome St
  | .base k => do
    let e ← deg.load (key k).1
    return { s with base := fun j => if j = k then some e else s.base j }
  | .add k => do
    let c ← s.cnt.load (key k).1
    let cnt ← s.cnt.store (key k).1 (c + 1)
    return { s with cnt := cnt, idx := fun j => if j = k then some c else s.idx j }
  | .put k => do
    let e ← deref (s.base k)
    let i ← deref (s.idx k)
    let out ← s.out.store (e + i) (key k).2
    return { s with out := out }

/-- the threads of the last kernel: a slot without key does nothing -/
def putThreads (slots : List (Option (Nat × Nat))) : List (List Act) :=
  slots.zipIdx.map (fun x => if x.1.isSome then [.base x.2, .add x.2, .put x.2] else [])

/-- filling the lists, partition/Coloring/engpar_kokkosColoring.cpp:79-89 -/
def putAll (E : Env) (N total : Nat) (deg : Mem Nat) (slots : List (Option (Nat × Nat))) : Outcome (Mem Nat) := do
  let s ← (interleave (putThreads slots) E.s4).foldlM (act deg (fun k => (slots.getD k none).getD (0, 0)))
    ⟨Mem.ofList (List.replicate N 0), Mem.ofList (List.replicate total 0), fun _ => none, fun _ => none⟩
  return s.out

/-- `parallel_create_eve(g, t)`, partition/Coloring/engpar_kokkosColoring.cpp:26-92 -/
def parallelEve (E : Env) (g : Graph) (t : Nat) : Outcome Graph := do
  if g.isHyper = false then .fail
  else do
    let e ← g.slot t
    let dv ← hostToDevice (g.numLocal + 1) e.degreeList
    let ev ← hostToDevice e.numPins e.edgeList
    let ps ← (List.range g.numLocal).mapM (pairsOf (Mem.ofList dv) (Mem.ofList ev))
    let slots := E.slots (fillMap E ps)
    let d ← countDeg E e.numEdges slots
    let (d, _) ← (List.range e.numEdges).foldlM scanStep (d, 0)
    let total ← d.load e.numEdges
    let out ← putAll E e.numEdges total d slots
    return { g with types := g.types.set t (some { e with eveOffsets := some d, eveLists := out }) }

/-- the rows of an adjacency in two arrays -/
def rowsFrom (n : Nat) (offs lists : List Nat) : List (List Nat) :=
  (List.range n).map (fun k => (lists.drop (offs.getD k 0)).take (offs.getD (k + 1) 0 - offs.getD k 0))

/-- colouring the rows, partition/Coloring/engpar_kokkosColoring.cpp:124-150: the arrays go to the device; a neighbour
outside the graph is undefined behaviour of `graph_color`; the colours come back as an array -/
def colorRows (E : Env) (n : Nat) (offs : Option (Mem Nat)) (lists : Mem Nat) : Outcome (List Nat) := do
  let o ← deref offs
  let ov ← hostToDevice (n + 1) o
  let m ← o.load n
  let lv ← hostToDevice m lists
  if (∀ row ∈ rowsFrom n ov lv, ∀ j ∈ row, j < n) then return E.color n (rowsFrom n ov lv) else .ub

/-- what is coloured: vertices (`primaryType == VTX_TYPE`) or edges, both with the edge type `edgeType`,
partition/Coloring/engpar_coloring_input.h:11-20 (the type must exist) -/
structure CInput where
  vtx : Bool
  edgeType : Nat

/-- `ColoringInput(g, t, vtx)` -/
def mkInput (g : Graph) (t : Nat) (vtx : Bool) : Outcome CInput := if t < g.numTypes then .ok ⟨vtx, t⟩ else .fail

/-- `EnGPar_KokkosColoring(in, &colors)`, partition/Coloring/engpar_kokkosColoring.cpp:95-153: the returned number and the
colours; the adjacency stays in the graph -/
def kokkosColoring (E : Env) (g : Graph) (i : CInput) : Outcome (Int × List Nat) := do
  if i.vtx then do
    let g' ← createVev g i.edgeType true E.ord
    let e ← g'.slot i.edgeType
    let c ← colorRows E g.numLocal e.vevOffsets e.vevLists
    return (0, c)
  else if g.isHyper = false then .fail
  else do
    let g' ← parallelEve E g i.edgeType
    let e ← g'.slot i.edgeType
    let c ← colorRows E e.numEdges e.eveOffsets e.eveLists
    return (0, c)

end Verif.Color
