import Verif.Mem
/-!
# Model of `MigrationTimers`: `agi/agiMigrationTimers.cpp`

A `std::vector` has a size and a capacity (`reserve(16)`, line 8-12); `operator[]` at or beyond the size is
undefined behaviour.  To say what happens in practice there is also the reading `strict = false`: an access
below the capacity goes to the reserved memory, whose cells are unwritten until `push_back` or an
assignment writes them.  Times are exact (`Rat`), counts are integers.
-/
namespace Verif.Agi

/-- a `std::vector` with reserved memory: the cells of the whole capacity, and the size -/
structure Vec (α : Type) where
  cells : Mem α
  size : Nat

/-- `reserve(n)` on an empty vector -/
def Vec.reserve {α : Type} (n : Nat) : Vec α := ⟨Mem.alloc n, 0⟩

/-- `operator[]` reading -/
def Vec.load {α : Type} (strict : Bool) (v : Vec α) (i : Nat) : Outcome α :=
  if strict = true ∧ v.size ≤ i then .ub else v.cells.load i

/-- `operator[]` writing -/
def Vec.store {α : Type} (strict : Bool) (v : Vec α) (i : Nat) (a : α) : Outcome (Vec α) :=
  if strict = true ∧ v.size ≤ i then .ub
  else do
    let c ← v.cells.store i a
    return { v with cells := c }

/-- `push_back`: beyond the capacity the elements move to a larger block (one more cell here) -/
def Vec.push {α : Type} (v : Vec α) (a : α) : Vec α :=
  if v.size < v.cells.length then ⟨v.cells.set v.size (some a), v.size + 1⟩
  else ⟨v.cells.take v.size ++ [some a], v.size + 1⟩

/-- agi/agiMigrationTimers.h:31-36; `names` is never read and left out; `nameToIdx` is its entries -/
structure Timers where
  times : Vec Rat
  counts : Vec Int
  index : List (String × Nat)

/-- constructor, lines 7-12 -/
def timersNew : Timers := ⟨Vec.reserve 16, Vec.reserve 16, []⟩

/-- `nameToIdx[name] = idx` -/
def putIndex (m : List (String × Nat)) (name : String) (i : Nat) : List (String × Nat) :=
  (name, i) :: m.filter (fun p => p.1 ≠ name)

/-- `addTimer`, lines 17-24: `idx = nameToIdx.size()+1` -/
def Timers.addTimer (strict : Bool) (T : Timers) (name : String) : Outcome Timers := do
  let idx := T.index.length + 1
  let t ← (T.times.push 0).store strict idx 0
  return ⟨t, T.counts.push 0, putIndex T.index name idx⟩

/-- `getTimerIdx`, lines 68-75: an unknown name ends the program -/
def Timers.idx (T : Timers) (name : String) : Outcome Nat :=
  match T.index.lookup name with
  | some i => .ok i
  | none => .fail

/-- `update`, lines 26-30 -/
def Timers.update (strict : Bool) (T : Timers) (name : String) (val : Rat) : Outcome Timers := do
  let i ← T.idx name
  let x ← T.times.load strict i
  let t ← T.times.store strict i (x + val)
  let c ← T.counts.load strict i
  let cs ← T.counts.store strict i (c + 1)
  return { T with times := t, counts := cs }

/-- `getTime`, lines 32-35 -/
def Timers.getTime (strict : Bool) (T : Timers) (name : String) : Outcome Rat := do
  let i ← T.idx name
  T.times.load strict i

/-- `getCount`, lines 37-40 -/
def Timers.getCount (strict : Bool) (T : Timers) (name : String) : Outcome Int := do
  let i ← T.idx name
  T.counts.load strict i

end Verif.Agi
