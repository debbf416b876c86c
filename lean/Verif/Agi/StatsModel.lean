import Verif.Agi.TimersModel
/-!
# Model of what the balancer reports about its migrations

`MigrationTimers::processMax`, `perCallProcessMax`, `processAvg`, `perCallProcessAvg` (agi/agiMigrationTimers.cpp:42-66), the four timers of
`Balancer::balance` (partition/Diffusive/src/engpar_balancer.cpp:228-231), the updates of them in `Ngraph::migrate`
(agi/agiMigrate.cpp:323-385) and `printMigrationStats` (engpar_balancer.cpp:8-43).  Seconds are exact; a division by zero gives `none`, and a
maximum or minimum with such a term is `none` (in the code it depends on the order of the reduction).  Reductions are over the list of
processes (C30).  `TimersModel` has the two readings of an access past the end of a vector; here the second one is taken a step further:
memory that was reserved and never written holds some number.
-/
namespace Verif.Agi

/-- constructor, agi/agiMigrationTimers.cpp:7-12; `g` is what the reserved memory of the counts holds -/
def timersFound (g : Nat → Int) : Timers := ⟨Vec.reserve 16, ⟨(List.range 16).map (fun k => some (g k)), 0⟩, []⟩

/-- `a/b` in doubles -/
def ratio (a b : Rat) : Option Rat := if b = 0 then none else some (a / b)

/-- `PCU_Max_Double`, pcu/pcu.c:290-303, pcu_coll.c:46-53 -/
def maxAll : List Rat → Rat
  | [] => 0
  | [x] => x
  | x :: l => if maxAll l < x then x else maxAll l

/-- `PCU_Min_Double` -/
def minAll : List Rat → Rat
  | [] => 0
  | [x] => x
  | x :: l => if x < minAll l then x else minAll l

/-- the terms of a reduction, when all are numbers -/
def allSome {α : Type} : List (Option α) → Option (List α)
  | [] => some []
  | none :: _ => none
  | some x :: l => match allSome l with
    | some r => some (x :: r)
    | none => none

/-- `processMax`, agi/agiMigrationTimers.cpp:42-45 -/
def processMax (Ts : List Timers) (name : String) : Outcome Rat := do
  let xs ← Ts.mapM (Timers.getTime false · name)
  return maxAll xs

/-- `processAvg`, lines 53-57 -/
def processAvg (Ts : List Timers) (name : String) : Outcome (Option Rat) := do
  let xs ← Ts.mapM (Timers.getTime false · name)
  return ratio xs.sum Ts.length

/-- `times[idx]/counts[idx]`, lines 49 and 61 -/
def perCall (name : String) (T : Timers) : Outcome (Option Rat) := do
  let x ← T.getTime false name
  let c ← T.getCount false name
  return ratio x c

/-- `perCallProcessMax`, lines 47-51 -/
def perCallProcessMax (Ts : List Timers) (name : String) : Outcome (Option Rat) := do
  let xs ← Ts.mapM (perCall name)
  return (allSome xs).map maxAll

/-- `perCallProcessAvg`, lines 59-64 -/
def perCallProcessAvg (Ts : List Timers) (name : String) : Outcome (Option Rat) := do
  let xs ← Ts.mapM (perCall name)
  return (allSome xs).bind fun l => ratio l.sum Ts.length

/-- engpar_balancer.cpp:228-231 -/
def timerNames : List String := ["setup", "comm", "build", "total"]

/-- the seconds of one migration on one process -/
structure Mig where
  setup : Rat
  comm : Rat
  build : Rat
  total : Rat
deriving DecidableEq, Repr

/-- agi/agiMigrate.cpp:323, 363, 376, 385 -/
def migUpdates (m : Mig) : List (String × Rat) := [("setup", m.setup), ("comm", m.comm), ("build", m.build), ("total", m.total)]

/-- the timers of a process after the migrations `ms`; `g` as in `timersFound` -/
def timeMigrations (g : Nat → Int) (ms : List Mig) : Outcome Timers := do
  let T ← timerNames.foldlM (Timers.addTimer false) (timersFound g)
  (ms.flatMap migUpdates).foldlM (fun (T : Timers) (u : String × Rat) => T.update false u.1 u.2) T

/-- what is printed by process 0 -/
structure MigReport where
  maxTimes : List Rat
  maxRatios : List (Option Rat)
  minRatios : List (Option Rat)
deriving DecidableEq, Repr

/-- engpar_balancer.cpp:13-22 -/
def migRatios (T : Timers) : Outcome (List (Option Rat)) := do
  let s ← T.getTime false "setup"
  let c ← T.getTime false "comm"
  let b ← T.getTime false "build"
  let t ← T.getTime false "total"
  return [ratio s t, ratio c t, ratio b t, ratio (s + c + b) t]

/-- `printMigrationStats`, engpar_balancer.cpp:8-43, on all processes; `none`: nothing is printed -/
def migStats (Ts : List Timers) : Outcome (Option MigReport) := do
  let s ← processMax Ts "setup"
  let c ← processMax Ts "comm"
  let b ← processMax Ts "build"
  let t ← processMax Ts "total"
  let rs ← Ts.mapM migRatios
  let T0 ← rd Ts 0
  let count ← T0.getCount false "comm"
  let col := fun (i : Nat) => allSome (rs.map (fun r => (r[i]?).getD none))
  return if count = 0 then none
    else some ⟨[t, s, c, b], (List.range 4).map (fun i => (col i).map maxAll), (List.range 4).map (fun i => (col i).map minAll)⟩

end Verif.Agi
