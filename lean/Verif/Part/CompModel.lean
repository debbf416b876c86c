import Verif.Agi.TagModel
import Verif.Agi.MigrateModel
/-!
# Model of the count of disconnected components: partition/engpar.cpp:9-52
-/
namespace Verif.Part
open Verif.Agi

/-- the state of `bfs`: the array of vertices, how many there are, the tag -/
structure BfsSt where
  queue : Mem Handle
  size : Nat
  visited : Mem Nat

/-- the body of the loop over the adjacent vertices, partition/engpar.cpp:19-26 -/
def bfsVisit (g : Graph) (little : Bool) (s : BfsSt) (other : Handle) : Outcome (BfsSt × Bool) := do
  let o ← g.owner other
  if o ≠ g.self then return (s, false)
  else do
    let x ← g.getTagV little 4 s.visited other
    if x = 0 then do
      let q ← s.queue.store s.size other
      let d ← g.setTagV little 4 s.visited other 1
      return (⟨q, s.size + 1, d⟩, false)
    else return (s, false)

/-- the loop of `bfs`, partition/engpar.cpp:15-28 (`fuel` rounds; not ended by then is `.ub`) -/
def bfsLoop (g : Graph) (little : Bool) : Nat → Nat → BfsSt → Outcome BfsSt
  | 0, _, _ => .ub
  | fuel + 1, i, s =>
    if i < s.size then do
      let u ← s.queue.load i
      let it ← g.adjacent u 0
      let s ← iterLoop g.iterAdj (bfsVisit g little) g.adjFuel it s
      bfsLoop g little fuel (i + 1) s
    else .ok s

/-- `bfs`, partition/engpar.cpp:9-30; returns the tag -/
def bfs (g : Graph) (little : Bool) (v : Handle) (visited : Mem Nat) : Outcome (Mem Nat) := do
  let q ← (Mem.alloc g.numLocal).store 0 v
  let d ← g.setTagV little 4 visited v 1
  let s ← bfsLoop g little (g.numLocal + 1) 0 ⟨q, 1, d⟩
  return s.visited

/-- the first loop of `countDisconnected`, partition/engpar.cpp:38-40 -/
def clearVisit (g : Graph) (little : Bool) (d : Mem Nat) (v : Handle) : Outcome (Mem Nat × Bool) := do
  let d ← g.setTagV little 4 d v 0
  return (d, false)

/-- the second loop, partition/engpar.cpp:43-48 -/
def countVisit (g : Graph) (little : Bool) (s : Mem Nat × Int) (v : Handle) : Outcome ((Mem Nat × Int) × Bool) := do
  let x ← g.getTagV little 4 s.1 v
  if x = 0 then do
    let d ← bfs g little v s.1
    return ((d, s.2 + 1), false)
  else return (s, false)

/-- `countDisconnected`, partition/engpar.cpp:32-52 -/
def countDisconnected (g : Graph) (little : Bool) : Outcome Int := do
  let d ← g.createTag 4 none
  let d ← iterLoop g.iterVertex (clearVisit g little) g.bound vertexBegin d
  let s ← iterLoop g.iterVertex (countVisit g little) g.bound vertexBegin (d, 0)
  return s.2 - 1

end Verif.Part
