import Verif.Part.PwProps
import Verif.Part.DiffuseWitness
/-!
# C67: the targets exactly, concrete cases, and where the part weight balancer does not do what one expects
-/
namespace Verif.Part
open Verif.Agi

/-! ## the targets -/

/-- **C67, the targets.**  For all sides, side tolerances, finished dimensions and tables: the targets steered by a table
are, if at least one side may be sent to, exactly the entries of the table, each with its amount times the share of the
part in the sides; if no side may be sent to, there are none.  Which side may be sent to makes no other difference
(`c67_refused`). -/
theorem c67_targets (isHyper : Bool) (s : Cont Int) (rehash : Bool) (sideTol : Int) (done : List (Cont Rat × Rat))
    (table : List (Int × Rat)) (order : List (Int × Int)) (htot : s.total ≠ 0)
    (hre : rehash = false ∨ ∀ e ∈ table, s.has e.1 = true) (hn : (table.map Prod.fst).Nodup) :
    ∃ T, pwTargets isHyper s rehash sideTol done table order = .ok T ∧ ∀ q x, T.find q = some x ↔
      (∃ e ∈ order, (isHyper = false ∨ s.get e.1 ≤ sideTol) ∧ ∀ c ∈ done, c.1.get e.1 < c.2) ∧
        ∃ a, (q, a) ∈ table ∧ x = a * ((s.get q : Rat) / (s.total : Rat)) := by
  obtain ⟨T, e, -, h⟩ := pwTargets_spec isHyper (s := s) (rehash := rehash) sideTol done (table := table) (order := order)
    (fun _ => htot) hre hn
  refine ⟨T, e, fun q x => ?_⟩
  rw [h]
  unfold shareTo pwCanSend
  simp only [Bool.and_eq_true, Bool.or_eq_true, Bool.not_eq_true', decide_eq_true_eq, List.all_eq_true]

/-- hypotheses of `c67_targets`: two sides, of which one is within the side tolerance -/
example : (⟨[((1 : Int), (4 : Int)), (2, 1)], 5⟩ : Cont Int).total ≠ 0 ∧
    (∀ e ∈ [((1 : Int), (64 : Rat)), (2, 64)], (⟨[((1 : Int), (4 : Int)), (2, 1)], 5⟩ : Cont Int).has e.1 = true) ∧
    (([((1 : Int), (64 : Rat)), (2, 64)]).map Prod.fst).Nodup := by decide

/-! ## the hypotheses of C67 are met -/

/-- the part weight balancer: messages and tables in different orders -/
def samplePwStart : PwStart :=
  ⟨fun _ l => l.reverse, fun _ => ⟨twoOrder, fun _ l => l.reverse, fun _ => backOrd, flipOrder⟩, 50, flipOrder, fun p => p == 0⟩
def samplePwEnv : PwEnv := ⟨fun _ => ⟨sampleStepEnv, fun _ l => l.reverse, fun _ => false⟩, fun _ => samplePwStart⟩

theorem samplePwStart_ok : samplePwStart.Ok 2 :=
  ⟨fun _ l => List.reverse_perm l, fun _ => ⟨orders_two.1, fun _ l => List.reverse_perm l, fun _ => backOrd_ok, orders_two.2⟩,
    fun p => by
      show (flipOrder p).Perm (List.range 2)
      unfold flipOrder
      split <;> decide⟩

theorem samplePwEnv_ok (b : Bool) (k : Nat) : (samplePwEnv.step k).Ok 2 b :=
  ⟨sampleStepEnv_ok b, fun _ l => List.reverse_perm l, fun _ => rfl⟩

/-- the chain of C52 with vertices of weight 100 -/
def heavyChain : List Input :=
  [{ hyper := true, verts := [0], wgts := [100], types := [⟨[0], [[0, 1]], []⟩] },
   { hyper := true, verts := [1, 2, 3, 4, 5], wgts := [100, 100, 100, 100, 100],
     types := [⟨[0, 1, 2, 3, 4], [[0, 1], [1, 2], [2, 3], [3, 4], [4, 5]], []⟩] }]

/-- the hypotheses of `c67_plan_partial`, `c67_step_partial` (without rounds) and `c67_balance_partial` are met -/
example : Start chainEdges chain chainOwn chainOwns twoOrder flipOrder ∧
    Weighable (startG chainEdges chain chainOwn none) ∧ 1 < chain.length ∧ ParOk defaultPar (defaultIn [-1, 0]) ∧
    (defaultPar.queue.dist = true ∧ NoSmallIsland (startG chainEdges chain chainOwn none)) ∧
    (∀ k : Nat, (samplePwEnv.step k).Ok chain.length false) ∧ (∀ k : Nat, (samplePwEnv.start k).Ok chain.length) ∧
    (∀ d ∈ (defaultIn [-1, 0]).priorities, (chain.length : Rat) * gTotal (startG chainEdges chain chainOwn none) d < 2147483648) ∧
    RoundsOk (allVerts chain) chain.length false chainOwn [] :=
  ⟨chain_start, chain_weighable, by decide, defaultPar_ok, ⟨rfl, chain_noIsland⟩, fun k => samplePwEnv_ok _ k,
    fun _ => samplePwStart_ok, by decide +kernel, trivial⟩

/-- a run on two parts: the vertices of the parts afterwards, and for each criterion the weights at its end and the steps -/
def runPw (ins : List Input) (own : Gid → Nat) (ps : List Int) :
    Outcome (List (List Gid) × List (List Rat × List StepRec)) := do
  let gs ← setupAll ins none (ins.map (fun _ => fun v => some (own v : Int))) twoOrder flipOrder
  let r ← pwBalance defaultPar samplePwEnv (defaultIn ps) gs
  let l ← r.1.gs.mapM Graph.localGids
  return (l, r.2.1.map (fun c => (c.ends, c.steps)))

/-- the tables at the start of a criterion -/
def startPw (ins : List Input) (own : Gid → Nat) (dim : Int) : Outcome (Int × List PwTable) := do
  let gs ← setupAll ins none (ins.map (fun _ => fun v => some (own v : Int))) twoOrder flipOrder
  pwStartAll defaultPar samplePwStart gs dim (11 / 10)

/-- the heavy chain (100 : 500): 196 is to go from part 1 to part 0; two steps move a vertex each -/
example : startPw heavyChain chainOwn (-1) = .ok (1, [some [], some [(0, 196)]]) ∧
    runPw heavyChain chainOwn [-1, 0] = .ok ([[0, 1, 2], [3, 4, 5]],
      [([300, 300], [⟨some (5 / 3), 0, 1⟩, ⟨some (4 / 3), 0, 1⟩, ⟨some 1, 1, 0⟩]), ([3, 3], [⟨some 1, 1, 0⟩])]) := by
  constructor <;> decide +kernel

/-- **C67 fails: with light vertices nothing is balanced.**  The chain with vertices of weight 1 (1 : 5): the plain balancer
ends with 3 : 3 (see above), but the part weight balancer plans in whole numbers, and a step factor of 0.1 makes every
movement less than 1: nothing is planned, and the balancer stops in its first step with an imbalance of 5/3. -/
theorem c67_nothing_planned : startPw chain chainOwn (-1) = .ok (1, [some [], none]) ∧
    runPw chain chainOwn [-1, 0] = .ok ([[0], [1, 2, 3, 4, 5]],
      [([1, 5], [⟨some (5 / 3), 3, 0⟩]), ([1, 5], [⟨some (5 / 3), 3, 0⟩])]) ∧
    runBalance chain chainOwn [-1, 0] = .ok ([[0, 1, 2], [3, 4, 5]],
      [([3, 3], [⟨some (5 / 3), 0, 1⟩, ⟨some (4 / 3), 0, 1⟩, ⟨some 1, 1, 0⟩]), ([3, 3], [⟨some 1, 1, 0⟩])]) := by
  refine ⟨?_, ?_, ?_⟩ <;> decide +kernel

/-! ## three parts -/

def plainThree : Nat → List Nat := fun _ => [0, 1, 2]
def threeStart : PwStart :=
  ⟨fun _ l => l, fun _ => ⟨plainThree, fun _ l => l, fun _ => plainOrd, plainThree⟩, 50, plainThree, fun p => p == 0⟩
def threeEnv (rehash : Bool) : PwStep :=
  ⟨⟨plainThree, fun _ => plainThree, fun _ l => l, fun _ => plainOrd, plainThree, plainThree,
    ⟨plainThree, plainThree, plainThree, fun _ => plainThree, plainThree, plainThree, fun _ _ l => l⟩⟩, fun _ l => l, fun _ => rehash⟩

/-- the side tolerance and the tables, the vertices after one step steered by the tables and the tables then, and the
vertices after one step of the plain balancer -/
structure FirstStep where
  sideTol : Int
  tables : List PwTable
  verts : List (List Int)
  tablesAfter : List PwTable
  plain : List (List Int)
deriving DecidableEq

/-- the first step, with and without the part weight balancer -/
def firstStep (ins : List Input) (own : Gid → Nat) (par : PlanPar) :
    Outcome FirstStep := do
  let gs ← setupAll ins none (ins.map (fun _ => fun v => some (own v : Int))) plainThree plainThree
  let (st, tabs) ← pwStartAll par threeStart gs (-1) (11 / 10)
  let (pl, tabs') ← pwPlanAll par (threeEnv false) st gs (-1) [] tabs
  let gs' ← migrate gs pl (threeEnv false).base.mig
  let l ← gs'.mapM Graph.localGids
  let pl ← planAll par (threeEnv false).base st gs (-1) []
  let gs' ← migrate gs pl (threeEnv false).base.mig
  let l2 ← gs'.mapM Graph.localGids
  return ⟨st, tabs, l, tabs', l2⟩

def runThree (ins : List Input) (own : Gid → Nat) (par : PlanPar) (rehash : Bool) :
    Outcome (List (List Gid) × List (List Rat × List StepRec)) := do
  let gs ← setupAll ins none (ins.map (fun _ => fun v => some (own v : Int))) plainThree plainThree
  let r ← pwBalance par ⟨fun _ => threeEnv rehash, fun _ => threeStart⟩ (defaultIn [-1]) gs
  let l ← r.1.gs.mapM Graph.localGids
  return (l, r.2.1.map (fun c => (c.ends, c.steps)))

def forkOwn : Gid → Nat := fun v => if v = 10 then 1 else if v = 20 then 2 else 0
/-- four vertices on part 0; vertex 1 shares four hyperedges with part 1, vertex 3 one with part 2 -/
def fork : List Input :=
  [{ hyper := true, verts := [1, 2, 3, 4], wgts := [60, 60, 60, 60],
     types := [⟨[100, 101, 102, 103, 104, 105], [[1, 10], [1, 10], [1, 10], [1, 10], [3, 20], [1, 2, 3, 4]], []⟩] },
   { hyper := true, verts := [10], wgts := [30], types := [⟨[100, 101, 102, 103], [[1, 10], [1, 10], [1, 10], [1, 10]], []⟩] },
   { hyper := true, verts := [20], wgts := [30], types := [⟨[104], [[3, 20]], []⟩] }]

/-- **C67 fails: the side tolerance does not exclude.**  The side tolerance is 3 and the side to part 1 is 4, so the plain
balancer sends nothing to part 1.  In the targets steered by the table the loop variables are declared again inside
(engpar_targets.h:55-59), so the allowed side to part 2 lets vertex 1 go to part 1. -/
theorem c67_refused : firstStep fork forkOwn defaultPar = .ok ⟨3, [some [(1, 64), (2, 64)], none, none],
    [[2, 4], [10, 1], [20, 3]], [some [(1, 4), (2, 4)], none, none], [[1, 2, 4], [10], [20, 3]]⟩ := by
  decide +kernel

/-- **C67 fails: far more is sent than was planned**: 64 is planned for each of the parts 1 and 2; part 0 ends up empty
and part 1 with 180 more (the imbalance is 12/5 first, 6/5 after one step and 21/10 at the end). -/
theorem c67_too_much : runThree fork forkOwn defaultPar false = .ok ([[], [10, 1, 2, 4], [20, 3]],
    [([0, 210, 90], [⟨some (12 / 5), 0, 2⟩, ⟨some (6 / 5), 0, 2⟩, ⟨some (21 / 10), 3, 0⟩])]) := by
  decide +kernel

/-- vertex 1 has no hyperedge but the one it shares with part 1 -/
def prong : List Input :=
  [{ hyper := true, verts := [1, 2, 3, 4, 5], wgts := [50, 50, 50, 50, 50],
     types := [⟨[100, 102, 103], [[1, 10], [3, 20], [2, 3, 4, 5]], []⟩] },
   { hyper := true, verts := [10], wgts := [30], types := [⟨[100], [[1, 10]], []⟩] },
   { hyper := true, verts := [20], wgts := [30], types := [⟨[102], [[3, 20]], []⟩] }]

/-- **C67 fails: a table changes while it is iterated.**  When vertex 1 has gone, part 1 is no side of part 0 any more, but
17 of what was planned is left.  In the next step `s->get(1)` (engpar_targets.h:61) inserts a key into the table of sides
that the outer loop is iterating: if that rehashes, the behaviour is undefined; otherwise the run ends. -/
theorem c67_rehash_ub : runThree prong forkOwn { defaultPar with queue := iterQ } true = .ub ∧
    runThree prong forkOwn { defaultPar with queue := iterQ } false = .ok ([[], [10, 1], [20, 3, 2, 4, 5]],
      [([0, 80, 230], [⟨some (75 / 31), 0, 2⟩, ⟨some (45 / 31), 0, 3⟩, ⟨some (69 / 31), 2, 0⟩])]) := by
  constructor <;> decide +kernel

/-! ## the tolerance of the part weight balancer -/

/-- **C67: the tolerance of the part weight balancer cannot be met.**  `partWeightBalancer` asks the weight balancer for
`.75*tol` (engpar_balancer.cpp:390).  For every tolerance up to 4/3 (the default is 1.1) that is at most 1, and as long as
no weight is negative no step of the weight balancer ever finds its tolerance met, not even when all parts weigh the same. -/
theorem c67_tolerance_never (tol : Rat) (htol : tol ≤ 4 / 3) (sf : Rat) (env : WStepEnv) (sideTol : Int) (b b' : WBal)
    (r : StepRec) (ws : List Rat) (hw : partWeights b.gs (-1) false = .ok ws) (hnn : ∀ w ∈ ws, 0 ≤ w)
    (h : wRunStep ⟨0, sf, tol * (3 / 4), 100⟩ env sideTol b = .ok (b', r)) : r.rc ≠ 1 := by
  unfold wRunStep at h
  rw [hw, Outcome.bind_ok] at h
  dsimp only at h
  split at h
  · rename_i hlt
    rw [dblLt_iff] at hlt
    obtain ⟨x, hx, hlt⟩ := hlt
    exfalso
    rcases lt_or_eq_of_le (List.sum_nonneg hnn) with hp | hz
    · obtain ⟨-, y, hy, -, -, -, h1, -⟩ := c39_imbalance ws hp
      rw [hx] at hy
      injection hy with hy
      subst hy
      linarith
    · rw [c39_zero_total ws hz.symm] at hx
      cases hx
  · rw [bind_ok_iff] at h
    obtain ⟨sd, -, h⟩ := h
    rw [bind_ok_iff] at h
    obtain ⟨st, -, h⟩ := h
    split at h
    · simp only [Outcome.pure_eq, Outcome.ok.injEq, Prod.mk.injEq] at h
      rw [← h.2]; simp
    · unfold wPlanStep at h
      rw [bind_ok_iff] at h
      obtain ⟨sels, -, h⟩ := h
      rw [bind_ok_iff] at h
      obtain ⟨num, -, h⟩ := h
      split at h
      · rw [bind_ok_iff] at h
        obtain ⟨b2, -, h⟩ := h
        simp only [Outcome.pure_eq, Outcome.ok.injEq, Prod.mk.injEq] at h
        rw [← h.2]; simp
      · split at h
        · simp only [Outcome.pure_eq, Outcome.ok.injEq, Prod.mk.injEq] at h
          rw [← h.2]; simp
        · simp only [Outcome.pure_eq, Outcome.ok.injEq, Prod.mk.injEq] at h
          rw [← h.2]; simp

/-- a step on two parts that weigh the same: the tolerance is not met (the reason given is that nothing was planned) -/
example : ((do
    let gs ← partGraphs [300, 300] [[(1, 1)], [(0, 1)]]
    let (_, r) ← wRunStep ⟨0, 1 / 10, 11 / 10 * (3 / 4), 100⟩ (samplePwStart.steps 0) 50 ⟨gs, [fun _ _ => 0, fun _ _ => 0], SDSlope.new⟩
    return r) : Outcome StepRec) = .ok ⟨some 1, 3, 0⟩ := by decide +kernel

end Verif.Part
