import Verif.Part.BalancerModel
import Verif.Part.SelectModel
/-!
# Model of a whole step of the diffusive balancer: `runStep`, partition/Diffusive/src/engpar_balancer.cpp:83-194

The pieces (sides, weights, targets, queue, selector, trim, cancel, migration) are put together in the order of the
code.  All line numbers are of that file.  Not modelled here: the part weight balancer (see `PwModel`; `runPartWeightBalancer`, default
false), output and timing.
-/
namespace Verif.Part
open Verif.Agi

/-- the fields of `DiffusiveInput` that the planning reads, engpar_diffusive_input.h:43-99 -/
structure PlanPar where
  sidesType : Nat
  stepFactor : Rat
  countGhosts : Bool
  connType : Nat
  minCon : Int
  limit : Rat
  queue : QKind

/-- what is not determined by the program in one step: the delivery orders of the messages and the iteration orders of
the hash tables -/
structure StepEnv where
  weights : Nat → List Nat
  done : Nat → Nat → List Nat
  sides : Nat → List (Int × Int) → List (Int × Int)
  hash : Nat → HashOrd
  trim1 : Nat → List Nat
  trim2 : Nat → List Nat
  mig : MigrateEnv

/-- `averageSides` (lines 55-59) and the assignment to the `int` `sideTol` (line 254) -/
def sideTolOf (ss : List (Cont Int)) : Int :=
  truncD (((ss.map (fun s => s.total)).sum : Int) / (ss.length : Rat))

/-- lines 253-254, on all parts -/
def startSides (par : PlanPar) (gs : List Graph) : Outcome Int := do
  let ss ← gs.mapM (fun g => sides g par.sidesType)
  return sideTolOf ss

/-- the cavity sizes of the sweeps, line 140 -/
def sweepSizes : List Nat := [2, 4, 6, 8, 10, 12]

/-- lines 101-107: the weights of the neighbours in the completed dimensions (per dimension, per part) -/
def doneWeights (par : PlanPar) (env : StepEnv) (gs : List Graph) (ss : List (Cont Int)) (completed : List (Int × Rat)) :
    Outcome (List (List Weights)) :=
  (List.range completed.length).mapM (fun i => do
    let c ← rd completed i
    makeWeights gs ss c.1 par.countGhosts (env.done i))

/-- the completed dimensions as part `p` sees them: its neighbours' weights and the weight not to be exceeded -/
def doneOf (dws : List (List Weights)) (completed : List (Int × Rat)) (p : Nat) : Outcome (List (Cont Rat × Rat)) :=
  (List.range completed.length).mapM (fun i => do
    let c ← rd completed i
    let ws ← rd dws i
    let w ← rd ws p
    return (w.c, c.2))

/-- lines 108-116 and 127-143 on part `p`: targets, queue, selector, sweeps -/
def partPlan (par : PlanPar) (env : StepEnv) (sideTol : Int) (gs : List Graph) (dim : Int) (ss : List (Cont Int))
    (tws : List Weights) (dws : List (List Weights)) (completed : List (Int × Rat)) (p : Nat) : Outcome Plan := do
  let g ← rd gs p
  let s ← rd ss p
  let tw ← rd tws p
  let done ← doneOf dws completed p
  let t ← targets g.isHyper gs.length par.stepFactor s tw sideTol done (env.sides p s.d)
  let sel ← selectAll par.queue (env.hash p) g par.limit t dim sweepSizes
  let sel ← selectDisconnected (env.hash p) g par.connType par.minCon dim sel
  return sel.plan

/-- lines 94-157: the plans of all parts -/
def planAll (par : PlanPar) (env : StepEnv) (sideTol : Int) (gs : List Graph) (dim : Int) (completed : List (Int × Rat)) :
    Outcome (List Plan) := do
  let ss ← gs.mapM (fun g => sides g par.sidesType)
  let tws ← makeWeights gs ss dim par.countGhosts env.weights
  let dws ← doneWeights par env gs ss completed
  let plans ← (List.range gs.length).mapM (partPlan par env sideTol gs dim ss tws dws completed)
  if completed = [] then return plans
  else trimCancel gs plans (completed.map Prod.fst) (completed.map Prod.snd) par.countGhosts env.trim1 env.trim2

/-- the diffusive balancer: at time `k` the environment `env k` decides what is not determined -/
def diffMoves (par : PlanPar) (env : Nat → StepEnv) : Moves :=
  ⟨fun _ gs => startSides par gs, fun k st gs dim co => planAll par (env k) st gs dim co,
    fun k gs plans => migrate gs plans (env k).mig⟩

end Verif.Part
