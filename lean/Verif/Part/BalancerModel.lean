import Verif.Part.MetricsModel
import Verif.Part.SlopeModel
import Verif.Agi.MigrateModel
/-!
# Model of the diffusive balancer's control: `partition/Diffusive/src/engpar_balancer.cpp`

All ranks together: `gs` are the graphs of the parts.  The values deciding the control flow (imbalance, number
of migrated vertices) come out of collectives, so every rank takes the same branches.  How the side tolerance is
computed (`start`), how a plan is made out of the current graphs (`plan`: sides, weights, targets, queue, selector,
trim/cancel - see the other modules, and `DiffuseModel` for the composition) and how it is carried out (`mig`:
`Ngraph::migrate`) are parameters, so that what is proved holds for every plan and every migration; they may depend on
the time (`clock`, a counter that is not in the code), so that a schedule can do something different at every step.  The
optional part weight balancer (lines 109-112, 159-161, 256-260) is in `PwModel`.  Logging, output and timing (whose
`addTimer` calls are the subject of C46) are left out.
-/
namespace Verif.Part
open Verif.Agi

/-- the fields of `DiffusiveInput` that steer the loops, engpar_diffusive_input.h:20-65 -/
structure DiffIn where
  priorities : List Int
  tolerances : List Rat
  maxIterations : Int
  maxPer : Int
  countGhosts : Bool

/-- how the side tolerance is computed, and how plans are made and carried out, at some time: `plan` is given the side
tolerance, the graphs, the dimension and the completed dimensions with their weights -/
structure Moves where
  start : Nat → List Graph → Outcome Int
  plan : Nat → Int → List Graph → Int → List (Int × Rat) → Outcome (List Plan)
  mig : Nat → List Graph → List Plan → Outcome (List Graph)

/-- the members of `Balancer` that change: the graphs, the stagnation detector, `completed_dimensions` with
`completed_weights`, `sideTol`; and the time -/
structure Bal where
  gs : List Graph
  sd : SDSlope
  completed : List (Int × Rat)
  sideTol : Int
  clock : Nat

/-- what one `runStep` did -/
structure StepRec where
  imb : Dbl
  rc : Nat
  moved : Nat
deriving DecidableEq

/-- the weights of all parts in a dimension -/
def partWeights (gs : List Graph) (dim : Int) (cg : Bool) : Outcome (List Rat) :=
  gs.mapM (fun g => getWeight g dim cg)

/-- lines 92-93: `sd->isFull() && sd->slope() > 0` -/
def stagnant (sd : SDSlope) : Outcome Bool :=
  if sd.isFull then do
    let s ← sd.slope
    return Dbl.lt (some 0) s
  else .ok false

/-- the part of `runStep` that plans and migrates, lines 94-193 -/
def planStep (M : Moves) (dim : Int) (b : Bal) (imb : Dbl) : Outcome (Bal × StepRec) := do
  let plans ← M.plan b.clock b.sideTol b.gs dim b.completed
  let num := (plans.map (fun p => p.sending.length)).sum
  if 0 < num then do
    let gs ← M.mig b.clock b.gs plans
    return ({ b with gs := gs, clock := b.clock + 1 }, ⟨imb, 0, num⟩)
  else return (b, ⟨imb, 3, 0⟩)

/-- `runStep(tolerance)`, lines 83-194 -/
def runStep (M : Moves) (cg : Bool) (dim : Int) (tol : Rat) (b : Bal) : Outcome (Bal × StepRec) := do
  let ws ← partWeights b.gs dim cg
  let imb := imbalance ws
  if Dbl.lt imb (some tol) then return (b, ⟨imb, 1, 0⟩)
  else do
    let sd ← b.sd.push imb
    let st ← stagnant sd
    if st then return ({ b with sd := sd }, ⟨imb, 2, 0⟩)
    else planStep M dim { b with sd := sd } imb

/-- lines 280-281: `while ((rc = runStep(tol)) == 0 && inner_steps++ < maxIterationsPerType && step++ <
maxIterations);` gives the state, the steps taken, `inner_steps` and `step` -/
def runSteps (M : Moves) (I : DiffIn) (dim : Int) (tol : Rat) :
    Nat → Bal → Int → Int → Outcome (Bal × List StepRec × Int × Int)
  | 0, _, _, _ => .ub
  | fuel + 1, b, inner, step => do
    let (b', r) ← runStep M I.countGhosts dim tol b
    if r.rc = 0 then
      if inner < I.maxPer then
        if step < I.maxIterations then do
          let (b'', rs, i', s') ← runSteps M I dim tol fuel b' (inner + 1) (step + 1)
          return (b'', r :: rs, i', s')
        else return (b', [r], inner + 1, step + 1)
      else return (b', [r], inner + 1, step)
    else return (b', [r], inner, step)

/-- what was done for one criterion; `ends` are the weights of the parts in its dimension when it was finished -/
structure CritRec where
  dim : Int
  tol : Rat
  steps : List StepRec
  ends : List Rat

/-- lines 284-288: the weight that later criteria must not exceed -/
def completedWeight (ws : List Rat) (tol : Rat) : Rat :=
  let maxW := mpiMax ws
  let tgt := ws.sum / ws.length * tol
  if maxW < tgt then tgt else maxW

/-- lines 249-251 -/
def tolAt (I : DiffIn) (index : Nat) : Rat := I.tolerances.getD index (11 / 10)

/-- one round of the outer loop, lines 243-321; `while` is given more rounds than it can take -/
def criterion (M : Moves) (I : DiffIn) (dim : Int) (index : Nat) (b : Bal) (step : Int) :
    Outcome (Bal × CritRec × Int) := do
  let tol := tolAt I index
  let st ← M.start b.clock b.gs
  let b := { b with sd := SDSlope.new, sideTol := st, clock := b.clock + 1 }
  let (b, rs, _, step) ← runSteps M I dim tol (I.maxPer.toNat + 2) b 0 step
  let ws ← partWeights b.gs dim I.countGhosts
  return ({ b with completed := b.completed ++ [(dim, completedWeight ws tol)] }, ⟨dim, tol, rs, ws⟩, step)

/-- the outer `do … while`, lines 242-323; the list holds the priorities from `index` on -/
def critLoop (M : Moves) (I : DiffIn) : List Int → Nat → Bal → Int → Outcome (Bal × List CritRec × Int)
  | [], _, _, _ => .ub
  | dim :: rest, index, b, step => do
    let (b, c, step) ← criterion M I dim index b step
    if rest ≠ [] ∧ step < I.maxIterations then do
      let (b, cs, step) ← critLoop M I rest (index + 1) b step
      return (b, c :: cs, step)
    else return (b, [c], step)

/-- `Balancer::balance()`, lines 195-350: nothing is done in serial -/
def balance (M : Moves) (I : DiffIn) (gs : List Graph) : Outcome (Bal × List CritRec × Int) :=
  if gs.length = 1 then .ok (⟨gs, SDSlope.new, [], 0, 0⟩, [], 0)
  else critLoop M I I.priorities 0 ⟨gs.map Graph.setOriginalOwners, SDSlope.new, [], 0, 0⟩ 0

end Verif.Part
