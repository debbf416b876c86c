import Verif.Part.WSelModel
import Verif.Part.DiffuseModel
/-!
# Model of the weight balancer as a whole: `partition/Diffusive/src/engpar_weightBalancer.cpp:33-195`

All ranks together.  All line numbers are of that file.  Not modelled: the computation of the side tolerance out of the
number of edges (lines 168-169, a narrowing conversion): the tolerance is a parameter; output, logging and timing.
-/
namespace Verif.Part
open Verif.Agi

/-- the fields of `WeightInput`, partition/Diffusive/engpar_weight_input.h -/
structure WPar where
  type : Nat
  stepFactor : Rat
  tol : Rat
  maxIterations : Int

/-- what is not determined by the program in one step: the delivery orders of the messages of `makeWeights` and of
`migrate`, and the iteration orders of the hash tables -/
structure WStepEnv where
  weights : Nat → List Nat
  sides : Nat → List (Int × Int) → List (Int × Int)
  hash : Nat → HashOrd
  mig : Nat → List Nat

/-- the state: the graphs, their `wp_map`s, the stagnation detector -/
structure WBal where
  gs : List Graph
  wps : List WpMap
  sd : SDSlope

/-- lines 47-48 and 65-92 on part `p`: targets (no completed dimensions), queue, selector, ten sweeps -/
def wPartPlan (par : WPar) (env : WStepEnv) (sideTol : Int) (gs : List Graph) (ss : List (Cont Int))
    (tws : List Weights) (p : Nat) : Outcome WSel := do
  let g ← rd gs p
  let s ← rd ss p
  let tw ← rd tws p
  let t ← targets g.isHyper gs.length par.stepFactor s tw sideTol [] (env.sides p s.d)
  weightPlan (env.hash p) g t 10

/-- lines 43-92: the plans of all parts, for the vertex weights (dimension -1, ghosts not counted) -/
def wPlanAll (par : WPar) (env : WStepEnv) (sideTol : Int) (gs : List Graph) : Outcome (List WSel) := do
  let ss ← gs.mapM (fun g => sides g par.type)
  let tws ← makeWeights gs ss (-1) false env.weights
  (List.range gs.length).mapM (wPartPlan par env sideTol gs ss tws)

/-- lines 98-99: `plan->size()` is the `int` sum of the inserted amounts (agi/agiWeightMigration.cpp:27-30), which
are those that `planW` adds up; `PCU_Add_Int` adds the sizes of all parts in `int` -/
def numMigrate (sels : List WSel) : Outcome Int := do
  let sizes ← sels.mapM (fun s => toInt32 s.planW)
  toInt32 ((sizes.sum : Int) : Rat)

/-- lines 101-105: the migration on all parts -/
def wMigrate (env : WStepEnv) (b : WBal) (sels : List WSel) : Outcome WBal := do
  let rs ← migrateW ((b.gs.zip (sels.zip b.wps)).map (fun x => ⟨x.1, x.2.1.plan, x.2.2⟩)) env.mig
  return { b with gs := rs.map Prod.fst, wps := rs.map Prod.snd }

/-- the part of `runStep` that plans and migrates, lines 43-124 -/
def wPlanStep (par : WPar) (env : WStepEnv) (sideTol : Int) (b : WBal) (imb : Dbl) : Outcome (WBal × StepRec) := do
  let sels ← wPlanAll par env sideTol b.gs
  let num ← numMigrate sels
  if 0 < num then do
    let b ← wMigrate env b sels
    return (b, ⟨imb, 0, num.toNat⟩)
  else if num = 0 then return (b, ⟨imb, 3, 0⟩)
  else return (b, ⟨imb, 0, 0⟩)

/-- `WeightBalancer::runStep(tolerance)`, lines 33-125 -/
def wRunStep (par : WPar) (env : WStepEnv) (sideTol : Int) (b : WBal) : Outcome (WBal × StepRec) := do
  let ws ← partWeights b.gs (-1) false
  let imb := imbalance ws
  if Dbl.lt imb (some par.tol) then return (b, ⟨imb, 1, 0⟩)
  else do
    let sd ← b.sd.push imb
    let st ← stagnant sd
    if st then return ({ b with sd := sd }, ⟨imb, 2, 0⟩)
    else wPlanStep par env sideTol { b with sd := sd } imb

/-- line 180: `while (step++<inp->maxIterations && !runStep(inp->tol));` with `n` steps left, at time `k` -/
def wRunSteps (par : WPar) (env : Nat → WStepEnv) (sideTol : Int) : Nat → Nat → WBal → Outcome (WBal × List StepRec)
  | 0, _, b => .ok (b, [])
  | n + 1, k, b => do
    let (b, r) ← wRunStep par (env k) sideTol b
    if r.rc = 0 then do
      let (b, rs) ← wRunSteps par env sideTol n (k + 1) b
      return (b, r :: rs)
    else return (b, [r])

/-- `simplifyPlan`, lines 19-31, on a `wp_map` read as a function: an erased entry reads 0 (the version on the table
itself is `simplifyPlan` in WSelModel) -/
def simplifyW (m : WpMap) : WpMap := fun a b => if m a b ≤ 0 then 0 else m a b

/-- `WeightBalancer::balance()`, lines 126-195: nothing is done in serial -/
def weightBalance (par : WPar) (env : Nat → WStepEnv) (sideTol : Int) (gs : List Graph) (wps : List WpMap) :
    Outcome (WBal × List StepRec) :=
  if gs.length = 1 then .ok (⟨gs, wps, SDSlope.new⟩, [])
  else do
    let (b, rs) ← wRunSteps par env sideTol par.maxIterations.toNat 0 ⟨gs, wps.map (fun _ => fun _ _ => 0), SDSlope.new⟩
    return ({ b with wps := b.wps.map simplifyW }, rs)

end Verif.Part
