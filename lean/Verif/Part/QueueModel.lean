import Verif.Agi.IterModel
/-!
# Model of the iteration queue, partition/Diffusive/src/engpar_queue.h and engpar_queue.cpp:5-38
-/
namespace Verif.Part
open Verif.Agi

/-- `ShrinkingArray`, engpar_queue.h:8-43: two arrays, the elements of the current sweep and those kept for the
next one -/
structure Queue where
  cur : Mem Handle
  size : Nat
  next : Mem Handle
  nextSize : Nat

/-- the constructor, engpar_queue.h:10-15 -/
def Queue.new (n : Nat) : Queue := ⟨Mem.alloc n, 0, Mem.alloc n, 0⟩

/-- `addElement`, engpar_queue.h:23-25 -/
def Queue.add (q : Queue) (e : Handle) : Outcome Queue := do
  let m ← q.next.store q.nextSize e
  return ⟨q.cur, q.size, m, q.nextSize + 1⟩

/-- `startIteration`, engpar_queue.h:26-32 -/
def Queue.start (q : Queue) : Queue := ⟨q.next, q.nextSize, q.cur, 0⟩

/-- `get`, `operator[]`, engpar_queue.h:36-37 -/
def Queue.get (q : Queue) (i : Nat) : Outcome Handle := q.cur.load i

/-- the loop over the pins of an edge, engpar_queue.cpp:12-18 (27-33): is one of them owned by another part? -/
def boundaryLoop (g : Graph) : Nat → PinIt → Outcome Bool
  | 0, _ => .ok false
  | n + 1, it => do
    let (o, it') ← g.nextOwner it
    if o ≠ g.self then return true else boundaryLoop g n it'

/-- lines 10-19 (25-34) without the action taken -/
def onBoundary (g : Graph) (e : Handle) : Outcome Bool := do
  let it ← g.pins e
  let d ← g.degreeE e
  boundaryLoop g d.toNat it

/-- the body of the counting loop, lines 9-20 -/
def countBoundary (g : Graph) (n : Nat) (e : Handle) : Outcome (Nat × Bool) := do
  let b ← onBoundary g e
  if b then return (n + 1, false) else return (n, false)

/-- the body of the filling loop, lines 24-35 -/
def fillBoundary (g : Graph) (q : Queue) (e : Handle) : Outcome (Queue × Bool) := do
  let b ← onBoundary g e
  if b then do
    let q ← q.add e
    return (q, false)
  else return (q, false)

/-- `createIterationQueue`, engpar_queue.cpp:5-38 -/
def iterationQueue (g : Graph) : Outcome Queue := do
  let it ← g.edgeBegin 0
  let n ← iterLoop g.iterEdge (countBoundary g) g.bound it 0
  let it ← g.edgeBegin 0
  iterLoop g.iterEdge (fillBoundary g) g.bound it (Queue.new n)

/-- a sweep: `for (itr = q->begin(); itr != q->end(); itr++)` whose body may add the element again (`keep`) or leave
the loop (`none`); this is how engpar_selector.cpp:193-221 and 35-41 use the queue -/
def sweepFrom (keep : Handle → Option Bool) : Nat → Nat → Queue → Outcome Queue
  | 0, _, q => .ok q
  | n + 1, i, q => do
    let e ← q.get i
    match keep e with
    | none => return q
    | some true => do
      let q ← q.add e
      sweepFrom keep n (i + 1) q
    | some false => sweepFrom keep n (i + 1) q

/-- `startIteration` and a sweep -/
def Queue.sweep (q : Queue) (keep : Handle → Option Bool) : Outcome Queue :=
  sweepFrom keep q.start.size 0 q.start

end Verif.Part
