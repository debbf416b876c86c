import Verif.Part.WBalModel
import Verif.Agi.DistSpec
/-!
# Model of the diffusive balancer with the part weight balancer (`runPartWeightBalancer`)

`partition/Diffusive/src/engpar_balancer.cpp:83-404`, `engpar_targets.h:40-66`, `engpar_selector.cpp:491-525`.
All ranks together.  At the start of every criterion a graph with one vertex per part and an edge per side is made, the
weight balancer is run on it, and the movements it recorded steer the steps of the criterion.  Output, logging and timing
are left out, as in `BalancerModel`.
-/
namespace Verif.Part
open Verif.Agi

/-- the movements that a part still plans: `weightGraph->getWeightPartition()`.  On part `p` it is keyed by the vertices of
the part in the weight graph, that is by `p` alone: no table if there is no entry for `p`, otherwise the entries
(part, weight), in some order -/
abbrev PwTable := Option (List (Int × Rat))

/-! ## the graph of the parts -/

/-- what part `p` passes to `constructVerts` and `constructEdges`, engpar_balancer.cpp:358-384; `l` are its sides in
iteration order -/
def partInput (p : Nat) (w : Rat) (l : List (Int × Int)) : Input :=
  { hyper := false, verts := [(p : Int)], wgts := [w],
    types := [⟨(List.range l.length).map (fun i : Nat => (i : Int)), l.map (fun e => [(p : Int), e.1]), []⟩] }

/-- engpar_balancer.cpp:355-386 on all parts: the graph of the parts; `ws` are the weights of the parts -/
def partGraphs (ws : List Rat) (ls : List (List (Int × Int))) : Outcome (List Graph) := do
  let gs ← buildAll ((List.range ls.length).map (fun p => partInput p (ws.getD p 0) (ls.getD p [])))
  constructGhostsA gs (ls.map (fun l => l.map (fun e => (e.1, e.1))))

/-- what is not determined by the program in the part weight balancer; `sideTol` is computed by the weight balancer out of
the number of edges (engpar_weightBalancer.cpp:168-169) -/
structure PwStart where
  sides : Nat → List (Int × Int) → List (Int × Int)
  steps : Nat → WStepEnv
  sideTol : Int
  /-- an order of the parts: in which the table is listed -/
  order : Nat → List Nat
  /-- whether a part that plans nothing has an (empty) entry for itself -/
  entry : Nat → Bool

/-- `partWeightBalancer(sides, tol)`, engpar_balancer.cpp:352-404, on all parts, with `createWeightInput(weightGraph,
tol*.75, step_factor)` (engpar_weight_input.cpp: 100 iterations, edge type 0): the movements recorded -/
def partWeightBalance (stepFactor : Rat) (cg : Bool) (env : PwStart) (gs : List Graph) (ss : List (Cont Int)) (dim : Int)
    (tol : Rat) : Outcome (List WpMap) := do
  let ws ← partWeights gs dim cg
  let pg ← partGraphs ws ((List.range ss.length).map (fun p => env.sides p (ss.getD p Cont.new).d))
  let (b, _) ← weightBalance ⟨0, stepFactor, tol * (3 / 4), 100⟩ env.steps env.sideTol pg (ss.map (fun _ => fun _ _ => 0))
  return b.wps

/-- the table of part `p`: `simplifyPlan` has erased what is not positive -/
def tableOf (env : PwStart) (p : Nat) (wp : WpMap) : PwTable :=
  let es := (env.order p).filterMap (fun q : Nat => if 0 < wp p q then some ((q : Int), wp p q) else none)
  if es = [] then (if env.entry p then some [] else none) else some es

/-! ## targets -/

/-- `canSend` of the second constructor of `Targets`, engpar_targets.h:46-51: two parts are no exception -/
def pwCanSend (isHyper : Bool) (s : Cont Int) (sideTol : Int) (done : List (Cont Rat × Rat)) (q : Part) : Bool :=
  (!isHyper || decide (s.get q ≤ sideTol)) && done.all (fun x => decide (x.1.get q < x.2))

/-- the innermost loop, engpar_targets.h:57-64.  `s->get(neighbor)` inserts a missing key into the table that the outermost
loop iterates: undefined if that rehashes (`rehash`), otherwise the share is 0.  (The keys inserted may be visited by the
outermost loop later, which sets the same targets again: left out.) -/
def pwEntry (s : Cont Int) (rehash : Bool) (T : Cont Rat) (e : Int × Rat) : Outcome (Cont Rat) :=
  if s.has e.1 = false ∧ rehash = true then .ub
  else if s.total = 0 then .ub
  else .ok (T.set e.1 (e.2 * ((s.get e.1 : Rat) / (s.total : Rat))))

/-- one side, engpar_targets.h:44-65: `itr` and `neighbor` are declared again inside, so nothing in the inner loops depends
on the side -/
def pwTargetStep (isHyper : Bool) (s : Cont Int) (rehash : Bool) (sideTol : Int) (done : List (Cont Rat × Rat))
    (table : List (Int × Rat)) (T : Cont Rat) (e : Int × Int) : Outcome (Cont Rat) :=
  if pwCanSend isHyper s sideTol done e.1 then table.foldlM (pwEntry s rehash) T else .ok T

/-- `Targets(isHyper, step_factor, s, wp_map, sideTol, completedWs, completedTolerances)`, engpar_targets.h:40-66 -/
def pwTargets (isHyper : Bool) (s : Cont Int) (rehash : Bool) (sideTol : Int) (done : List (Cont Rat × Rat))
    (table : List (Int × Rat)) (order : List (Int × Int)) : Outcome (Cont Rat) :=
  order.foldlM (pwTargetStep isHyper s rehash sideTol done table) Cont.new

/-! ## the step -/

/-- `calculatePlanWeight`, engpar_selector.cpp:491-512: the loop and the sets are those of `calculatePlanWeights` for the one
dimension; the weight planned for every destination -/
def planWeight (g : Graph) (dim : Int) (plan : Plan) : Outcome (List (Int × Rat)) := do
  let (st, dests) ← planWeights g [dim] plan
  dests.mapM (fun d => do
    let w ← offerDim g [dim] st d 0
    return (d, w))

/-- `itr->second[dest] -= weight`, engpar_selector.cpp:521-522 -/
def subEntry (l : List (Int × Rat)) (x : Int × Rat) : List (Int × Rat) := putA x.1 ((l.lookup x.1).getD 0 - x.2) l

/-- `updatePartWeight`, engpar_selector.cpp:514-525: nothing happens without an entry -/
def updateTable (g : Graph) (dim : Int) (plan : Plan) (t : PwTable) : Outcome PwTable := do
  let ws ← planWeight g dim plan
  return t.map (fun l => ws.foldl subEntry l)

/-- what is not determined by the program in one step, in addition to `StepEnv`: the order of the entries of the tables and
whether a table of sides rehashes when a key is added -/
structure PwStep where
  base : StepEnv
  inner : Nat → List (Int × Rat) → List (Int × Rat)
  rehash : Nat → Bool

/-- engpar_balancer.cpp:108-112 and 127-143 on part `p`: as `partPlan`, with the other targets -/
def pwPartPlan (par : PlanPar) (env : PwStep) (sideTol : Int) (gs : List Graph) (dim : Int) (ss : List (Cont Int))
    (tabs : List PwTable) (dws : List (List Weights)) (completed : List (Int × Rat)) (p : Nat) : Outcome Plan := do
  let g ← rd gs p
  let s ← rd ss p
  let tab ← rd tabs p
  let done ← doneOf dws completed p
  let t ← pwTargets g.isHyper s (env.rehash p) sideTol done (env.inner p (tab.getD [])) (env.base.sides p s.d)
  let sel ← selectAll par.queue (env.base.hash p) g par.limit t dim sweepSizes
  let sel ← selectDisconnected (env.base.hash p) g par.connType par.minCon dim sel
  return sel.plan

/-- engpar_balancer.cpp:94-161: the plans of all parts, and the tables after `updatePartWeight` -/
def pwPlanAll (par : PlanPar) (env : PwStep) (sideTol : Int) (gs : List Graph) (dim : Int) (completed : List (Int × Rat))
    (tabs : List PwTable) : Outcome (List Plan × List PwTable) := do
  let ss ← gs.mapM (fun g => sides g par.sidesType)
  let _ ← makeWeights gs ss dim par.countGhosts env.base.weights
  let dws ← doneWeights par env.base gs ss completed
  let plans ← (List.range gs.length).mapM (pwPartPlan par env sideTol gs dim ss tabs dws completed)
  let plans ← (if completed = [] then .ok plans
    else trimCancel gs plans (completed.map Prod.fst) (completed.map Prod.snd) par.countGhosts env.base.trim1 env.base.trim2)
  let tabs ← (List.range gs.length).mapM (fun p => do
    let g ← rd gs p
    let plan ← rd plans p
    let tab ← rd tabs p
    updateTable g dim plan tab)
  return (plans, tabs)

/-! ## the balancer -/

/-- the environment of a run: per step and per criterion -/
structure PwEnv where
  step : Nat → PwStep
  start : Nat → PwStart

/-- the part of `runStep` that plans and migrates, engpar_balancer.cpp:94-193 -/
def pwPlanStep (par : PlanPar) (env : PwEnv) (dim : Int) (b : Bal) (tabs : List PwTable) (imb : Dbl) :
    Outcome (Bal × List PwTable × StepRec) := do
  let (plans, tabs) ← pwPlanAll par (env.step b.clock) b.sideTol b.gs dim b.completed tabs
  let num := (plans.map (fun p => p.sending.length)).sum
  if 0 < num then do
    let gs ← migrate b.gs plans (env.step b.clock).base.mig
    return ({ b with gs := gs, clock := b.clock + 1 }, tabs, ⟨imb, 0, num⟩)
  else return (b, tabs, ⟨imb, 3, 0⟩)

/-- `runStep(tolerance)`, engpar_balancer.cpp:83-194 -/
def pwRunStep (par : PlanPar) (env : PwEnv) (dim : Int) (tol : Rat) (b : Bal) (tabs : List PwTable) :
    Outcome (Bal × List PwTable × StepRec) := do
  let ws ← partWeights b.gs dim par.countGhosts
  let imb := imbalance ws
  if Dbl.lt imb (some tol) then return (b, tabs, ⟨imb, 1, 0⟩)
  else do
    let sd ← b.sd.push imb
    let st ← stagnant sd
    if st then return ({ b with sd := sd }, tabs, ⟨imb, 2, 0⟩)
    else pwPlanStep par env dim { b with sd := sd } tabs imb

/-- engpar_balancer.cpp:280-281, as `runSteps` -/
def pwRunSteps (par : PlanPar) (env : PwEnv) (I : DiffIn) (dim : Int) (tol : Rat) :
    Nat → Bal → List PwTable → Int → Int → Outcome (Bal × List PwTable × List StepRec × Int × Int)
  | 0, _, _, _, _ => .ub
  | fuel + 1, b, tabs, inner, step => do
    let (b, tabs, r) ← pwRunStep par env dim tol b tabs
    if r.rc = 0 then
      if inner < I.maxPer then
        if step < I.maxIterations then do
          let (b, tabs, rs, i', s') ← pwRunSteps par env I dim tol fuel b tabs (inner + 1) (step + 1)
          return (b, tabs, r :: rs, i', s')
        else return (b, tabs, [r], inner + 1, step + 1)
      else return (b, tabs, [r], inner + 1, step)
    else return (b, tabs, [r], inner, step)

/-- engpar_balancer.cpp:253-261 on all parts: the side tolerance and the tables -/
def pwStartAll (par : PlanPar) (env : PwStart) (gs : List Graph) (dim : Int) (tol : Rat) :
    Outcome (Int × List PwTable) := do
  let ss ← gs.mapM (fun g => sides g par.sidesType)
  let wps ← partWeightBalance par.stepFactor par.countGhosts env gs ss dim tol
  return (sideTolOf ss, (List.range wps.length).map (fun p => tableOf env p (wps.getD p (fun _ _ => 0))))

/-- one round of the outer loop, engpar_balancer.cpp:243-321 -/
def pwCriterion (par : PlanPar) (env : PwEnv) (I : DiffIn) (dim : Int) (index : Nat) (b : Bal) (step : Int) :
    Outcome (Bal × CritRec × Int) := do
  let tol := tolAt I index
  let (st, tabs) ← pwStartAll par (env.start index) b.gs dim tol
  let b := { b with sd := SDSlope.new, sideTol := st, clock := b.clock + 1 }
  let (b, _, rs, _, step) ← pwRunSteps par env I dim tol (I.maxPer.toNat + 2) b tabs 0 step
  let ws ← partWeights b.gs dim I.countGhosts
  return ({ b with completed := b.completed ++ [(dim, completedWeight ws tol)] }, ⟨dim, tol, rs, ws⟩, step)

/-- the outer `do … while`, engpar_balancer.cpp:242-323 -/
def pwCritLoop (par : PlanPar) (env : PwEnv) (I : DiffIn) : List Int → Nat → Bal → Int →
    Outcome (Bal × List CritRec × Int)
  | [], _, _, _ => .ub
  | dim :: rest, index, b, step => do
    let (b, c, step) ← pwCriterion par env I dim index b step
    if rest ≠ [] ∧ step < I.maxIterations then do
      let (b, cs, step) ← pwCritLoop par env I rest (index + 1) b step
      return (b, c :: cs, step)
    else return (b, [c], step)

/-- `Balancer::balance()` with `runPartWeightBalancer` set, engpar_balancer.cpp:195-350 -/
def pwBalance (par : PlanPar) (env : PwEnv) (I : DiffIn) (gs : List Graph) : Outcome (Bal × List CritRec × Int) :=
  if gs.length = 1 then .ok (⟨gs, SDSlope.new, [], 0, 0⟩, [], 0)
  else pwCritLoop par env I I.priorities 0 ⟨gs.map Graph.setOriginalOwners, SDSlope.new, [], 0, 0⟩ 0

end Verif.Part
