import Verif.Part.DiffuseProps
import Verif.Part.DistQueueProps
/-!
# C52: a concrete case.  C53: what balancing does to the imbalance, and where it makes it worse
-/
namespace Verif.Part
open Verif.Agi

/-! ## the hypotheses of C52 are met -/

/-- messages in different orders in different phases, hash tables backwards -/
def sampleStepEnv : StepEnv :=
  ⟨twoOrder, fun _ => flipOrder, fun _ l => l.reverse, fun _ => backOrd, flipOrder, twoOrder, sampleEnv⟩

/-- the defaults of `DiffusiveInput`, engpar_diffusive_input.cpp:4-20 -/
def defaultPar : PlanPar := ⟨0, 1 / 10, false, 0, 1, 0, distQ⟩
def defaultIn (ps : List Int) : DiffIn := ⟨ps, ps.map (fun _ => 11 / 10), 1000, 100, false⟩

theorem sampleStepEnv_ok (b : Bool) : sampleStepEnv.Ok 2 b :=
  ⟨orders_two.1, fun _ => orders_two.2, fun _ l => List.reverse_perm l, fun _ => backOrd_ok, orders_two.2, orders_two.1,
    sampleEnv_ok b⟩

theorem defaultPar_ok : ParOk defaultPar (defaultIn [-1, 0]) :=
  ⟨rfl, by decide +kernel, by decide, rfl, by decide, by decide, by decide⟩

/-- vertex 0 on part 0 and 1 … 5 on part 1, in a chain -/
def chain : List Input :=
  [{ hyper := true, verts := [0], wgts := [], types := [⟨[0], [[0, 1]], []⟩] },
   { hyper := true, verts := [1, 2, 3, 4, 5], wgts := [],
     types := [⟨[0, 1, 2, 3, 4], [[0, 1], [1, 2], [2, 3], [3, 4], [4, 5]], []⟩] }]
def chainOwn : Gid → Nat := fun v => if v = 0 then 0 else 1
def chainEdges : List HEdge := [⟨0, [0, 1], 1⟩, ⟨1, [1, 2], 1⟩, ⟨2, [2, 3], 1⟩, ⟨3, [3, 4], 1⟩, ⟨4, [4, 5], 1⟩]
def chainOwns : List (GMap Part) := chain.map (fun _ => fun v => some (chainOwn v : Int))

theorem chain_start : Start chainEdges chain chainOwn chainOwns twoOrder flipOrder := by
  refine ⟨⟨?_, by decide, ?_, ?_, by decide, ?_, ?_⟩, by decide, ⟨chain[0], List.getElem_mem _, by decide⟩, ⟨rfl, ?_⟩,
    orders_two.1, orders_two.2⟩
  · intro i hi
    simp only [chain, List.mem_cons, List.not_mem_nil, or_false] at hi
    rcases hi with rfl | rfl
    · exact ⟨by decide, by decide, by
        intro e he
        simp only [List.mem_singleton] at he
        subst he
        exact ⟨by decide, by decide, by decide⟩⟩
    · exact ⟨by decide, by decide, by
        intro e he
        simp only [List.mem_singleton] at he
        subst he
        exact ⟨by decide, by decide, by decide⟩⟩
  · intro p hp
    have h1 : p = 0 ∨ p = 1 := by simp [chain] at hp; omega
    rcases h1 with rfl | rfl
    · exact (by decide : ∀ v ∈ (chain[0]'(by decide)).verts, chainOwn v = 0)
    · exact (by decide : ∀ v ∈ (chain[1]'(by decide)).verts, chainOwn v = 1)
  · intro es hes
    simp only [List.mem_singleton] at hes
    subst hes
    decide
  · intro p hp
    have h1 : p = 0 ∨ p = 1 := by simp [chain] at hp; omega
    rcases h1 with rfl | rfl <;> rfl
  · intro p hp t ht ht'
    have h0 : t = 0 := by simpa using ht'
    subst h0
    have h1 : p = 0 ∨ p = 1 := by simp [chain] at hp; omega
    rcases h1 with rfl | rfl
    · exact (by decide +kernel : (((chain[0]'(by decide)).types[0]'(by decide)).edges).Perm
        (chainEdges.filter (fun e => decide (∃ v ∈ e.pins, chainOwn v = 0))))
    · exact (by decide +kernel : (((chain[1]'(by decide)).types[0]'(by decide)).edges).Perm
        (chainEdges.filter (fun e => decide (∃ v ∈ e.pins, chainOwn v = 1))))
  · intro p hp h' v _ _
    have h1 : p = 0 ∨ p = 1 := by simp [chain] at hp; omega
    rcases h1 with rfl | rfl <;> rfl

theorem chain_weighable : Weighable (startG chainEdges chain chainOwn none) :=
  ⟨by decide +kernel, by
    intro e he
    simp only [startG, chainEdges, List.mem_cons, List.not_mem_nil, or_false] at he
    rcases he with rfl | rfl | rfl | rfl | rfl <;> exact ⟨1, by decide +kernel, by decide⟩, by decide⟩

/-- the chain is connected -/
theorem chain_noIsland : NoSmallIsland (startG chainEdges chain chainOwn none) := by
  intro S hS
  have hpair : ∀ e ∈ chainEdges, ∀ u ∈ e.pins, ∀ v ∈ e.pins, S u = S v := by
    intro e he u hu v hv
    rcases hS e he with h | h
    · rw [h u hu, h v hv]
    · rw [h u hu, h v hv]
  simp only [chainEdges, List.forall_mem_cons, List.not_mem_nil, IsEmpty.forall_iff, implies_true, and_true] at hpair
  obtain ⟨⟨⟨-, h0⟩, -⟩, ⟨⟨-, h1⟩, -⟩, ⟨⟨-, h2⟩, -⟩, ⟨⟨-, h3⟩, -⟩, ⟨-, h4⟩, -⟩ := hpair
  simp only [startG, chainEdges]
  cases hs : S 0 with
  | true => right; simp [← h0, ← h1, ← h2, ← h3, ← h4, hs]
  | false => left; simp [← h0, ← h1, ← h2, ← h3, ← h4, hs]

/-- the hypotheses of `c52_balance_partial` (and of `c52_step_partial`, without rounds) are met -/
example : Start chainEdges chain chainOwn chainOwns twoOrder flipOrder ∧
    Weighable (startG chainEdges chain chainOwn none) ∧ 1 < chain.length ∧ ParOk defaultPar (defaultIn [-1, 0]) ∧
    (defaultPar.queue.dist = true ∧ NoSmallIsland (startG chainEdges chain chainOwn none)) ∧
    (∀ k : Nat, ((fun _ => sampleStepEnv) k).Ok chain.length false) ∧
    RoundsOk (allVerts chain) chain.length false chainOwn [] :=
  ⟨chain_start, chain_weighable, by decide, defaultPar_ok, ⟨rfl, chain_noIsland⟩, fun _ => sampleStepEnv_ok _, trivial⟩

/-- a run of the balancer: the vertices of the parts afterwards, and for each criterion the weights at its end and the
steps -/
def runBalance (ins : List Input) (own : Gid → Nat) (ps : List Int) :
    Outcome (List (List Gid) × List (List Rat × List StepRec)) := do
  let gs ← setupAll ins none (ins.map (fun _ => fun v => some (own v : Int))) twoOrder flipOrder
  let r ← balance (diffMoves defaultPar (fun _ => sampleStepEnv)) (defaultIn ps) gs
  let l ← r.1.gs.mapM Graph.localGids
  return (l, r.2.1.map (fun c => (c.ends, c.steps)))

/-- the chain is balanced in two steps: 1:5, 2:4, 3:3 -/
example : runBalance chain chainOwn [-1, 0] = .ok ([[0, 1, 2], [3, 4, 5]],
    [([3, 3], [⟨some (5 / 3), 0, 1⟩, ⟨some (4 / 3), 0, 1⟩, ⟨some 1, 1, 0⟩]), ([3, 3], [⟨some 1, 1, 0⟩])]) := by
  decide +kernel

/-- **C52 fails for the default queue on an isolated part**: part 0 holds the vertices 1 and 2 with one edge, part 1 the
vertex 11 with one edge, nothing joins them; the weights are 2 and 1.  The first step of `balance()` with the default
parameters starts the distance search of part 0 from "edge 2" of its single edge (`c56_small_part_ub`); with the
iteration queue the run ends normally. -/
theorem c52_isolated_ub : runBalance asunderWorld coreOwn [-1] = .ub ∧
    (do
      let gs ← setupAll asunderWorld none (asunderWorld.map (fun _ => fun v => some (coreOwn v : Int))) twoOrder flipOrder
      let r ← balance (diffMoves { defaultPar with queue := iterQ } (fun _ => sampleStepEnv)) (defaultIn [-1]) gs
      r.1.gs.mapM Graph.localGids) = .ok [[1, 2], [11]] := by
  constructor <;> decide +kernel

/-! ## C53 -/

/-- a step that does not migrate leaves the graphs, and reports their imbalance -/
theorem runStep_still {M : Moves} {cg : Bool} {dim : Int} {tol : Rat} {b b' : Bal} {r : StepRec}
    (h : runStep M cg dim tol b = .ok (b', r)) (hr : r.rc ≠ 0) :
    b'.gs = b.gs ∧ ∃ ws, partWeights b.gs dim cg = .ok ws ∧ r.imb = imbalance ws := by
  unfold runStep at h
  rw [bind_ok_iff] at h
  obtain ⟨ws, e, h⟩ := h
  dsimp only at h
  split at h
  · simp only [Outcome.pure_eq, Outcome.ok.injEq, Prod.mk.injEq] at h
    obtain ⟨rfl, rfl⟩ := h
    exact ⟨rfl, ws, e, rfl⟩
  · rw [bind_ok_iff] at h
    obtain ⟨sd, -, h⟩ := h
    rw [bind_ok_iff] at h
    obtain ⟨st, -, h⟩ := h
    split at h
    · simp only [Outcome.pure_eq, Outcome.ok.injEq, Prod.mk.injEq] at h
      obtain ⟨rfl, rfl⟩ := h
      exact ⟨rfl, ws, e, rfl⟩
    · unfold planStep at h
      rw [bind_ok_iff] at h
      obtain ⟨plans, -, h⟩ := h
      dsimp only at h
      split at h
      · rw [bind_ok_iff] at h
        obtain ⟨gs, -, h⟩ := h
        simp only [Outcome.pure_eq, Outcome.ok.injEq, Prod.mk.injEq] at h
        obtain ⟨rfl, rfl⟩ := h
        exact absurd rfl hr
      · simp only [Outcome.pure_eq, Outcome.ok.injEq, Prod.mk.injEq] at h
        obtain ⟨rfl, rfl⟩ := h
        exact ⟨rfl, ws, e, rfl⟩

theorem runSteps_last {M : Moves} {I : DiffIn} {dim : Int} {tol : Rat} : ∀ (fuel : Nat) (b b' : Bal)
    (inner step i' s' : Int) (rs : List StepRec) (r : StepRec),
    runSteps M I dim tol fuel b inner step = .ok (b', rs, i', s') → rs.getLast? = some r → r.rc ≠ 0 →
    ∃ ws, partWeights b'.gs dim I.countGhosts = .ok ws ∧ r.imb = imbalance ws := by
  intro fuel
  induction fuel with
  | zero => intro b b' inner step i' s' rs r h; simp [runSteps] at h
  | succ fuel ih =>
    intro b b' inner step i' s' rs r h hl hr
    rw [runSteps, bind_ok_iff] at h
    obtain ⟨⟨b1, r1⟩, e1, h⟩ := h
    dsimp only at h
    have hone : rs = [r1] → b' = b1 → ∃ ws, partWeights b'.gs dim I.countGhosts = .ok ws ∧ r.imb = imbalance ws := by
      rintro rfl rfl
      simp only [List.getLast?_singleton, Option.some.injEq] at hl
      subst hl
      obtain ⟨h1, ws, h2, h3⟩ := runStep_still e1 hr
      exact ⟨ws, by rw [h1]; exact h2, h3⟩
    split at h
    · rename_i hrc
      split at h
      · split at h
        · rw [bind_ok_iff] at h
          obtain ⟨⟨b2, rs2, i2, s2⟩, e2, h⟩ := h
          simp only [Outcome.pure_eq, Outcome.ok.injEq, Prod.mk.injEq] at h
          obtain ⟨rfl, rfl, rfl, rfl⟩ := h
          cases rs2 with
          | nil =>
            simp only [List.getLast?_singleton, Option.some.injEq] at hl
            subst hl
            exact absurd hrc hr
          | cons a rs2 =>
            rw [List.getLast?_cons_cons] at hl
            exact ih _ _ _ _ _ _ _ _ e2 hl hr
        · simp only [Outcome.pure_eq, Outcome.ok.injEq, Prod.mk.injEq] at h
          exact hone h.2.1.symm h.1.symm
      · simp only [Outcome.pure_eq, Outcome.ok.injEq, Prod.mk.injEq] at h
        exact hone h.2.1.symm h.1.symm
    · simp only [Outcome.pure_eq, Outcome.ok.injEq, Prod.mk.injEq] at h
      exact hone h.2.1.symm h.1.symm

theorem critLoop_last {M : Moves} {I : DiffIn} : ∀ (ps : List Int) (index : Nat) (b b' : Bal) (cs : List CritRec)
    (step step' : Int), critLoop M I ps index b step = .ok (b', cs, step') →
    ∀ c ∈ cs, ∀ r, c.steps.getLast? = some r → r.rc ≠ 0 → r.imb = imbalance c.ends := by
  intro ps
  induction ps with
  | nil => intro index b b' cs step step' h; simp [critLoop] at h
  | cons dim rest ih =>
    intro index b b' cs step step' h
    rw [critLoop, bind_ok_iff] at h
    obtain ⟨⟨b1, c, s1⟩, e1, h⟩ := h
    have hc : ∀ r, c.steps.getLast? = some r → r.rc ≠ 0 → r.imb = imbalance c.ends := by
      unfold criterion at e1
      dsimp only at e1
      rw [bind_ok_iff] at e1
      obtain ⟨st, -, e1⟩ := e1
      rw [bind_ok_iff] at e1
      obtain ⟨⟨b2, rs, i1, s2⟩, e2, e1⟩ := e1
      dsimp only at e1
      rw [bind_ok_iff] at e1
      obtain ⟨ws, e3, e1⟩ := e1
      simp only [Outcome.pure_eq, Outcome.ok.injEq, Prod.mk.injEq] at e1
      obtain ⟨rfl, rfl, rfl⟩ := e1
      intro r hl hr
      obtain ⟨ws', e4, h4⟩ := runSteps_last _ _ _ _ _ _ _ _ r e2 hl hr
      rw [e3] at e4
      injection e4 with e4
      rw [h4, e4]
    dsimp only at h
    split at h
    · rw [bind_ok_iff] at h
      obtain ⟨⟨b2, cs2, s2⟩, e2, h⟩ := h
      simp only [Outcome.pure_eq, Outcome.ok.injEq, Prod.mk.injEq] at h
      obtain ⟨rfl, rfl, rfl⟩ := h
      intro c' hc'
      rcases List.mem_cons.mp hc' with rfl | hc'
      · exact hc
      · exact ih _ _ _ _ _ _ e2 c' hc'
    · simp only [Outcome.pure_eq, Outcome.ok.injEq, Prod.mk.injEq] at h
      obtain ⟨rfl, rfl, rfl⟩ := h
      intro c' hc'
      rw [List.mem_singleton.mp hc']
      exact hc

/-- **C53**, the reason given is true: for all graphs, inputs, ways of planning and migrating, and every completed run
of `balance()`: the imbalance a criterion reports with its last step is the one the parts have when the criterion
ends, unless the step migrated; in particular, if it says that the tolerance is met, the heaviest part then weighs less
than the tolerance times the average. -/
theorem c53_reports (M : Moves) (I : DiffIn) (gs : List Graph) (b : Bal) (cs : List CritRec) (step : Int)
    (h : balance M I gs = .ok (b, cs, step)) : ∀ c ∈ cs, ∀ r, c.steps.getLast? = some r → r.rc ≠ 0 →
      r.imb = imbalance c.ends ∧ (r.rc = 1 → ∃ x, imbalance c.ends = some x ∧ x < c.tol) := by
  unfold balance at h
  split at h
  · simp only [Outcome.ok.injEq, Prod.mk.injEq] at h
    obtain ⟨-, rfl, -⟩ := h
    simp
  · intro c hc r hl hr
    have h1 := critLoop_last _ _ _ _ _ _ _ h c hc r hl hr
    refine ⟨h1, fun hr1 => ?_⟩
    obtain ⟨-, -, -, -, d5, -⟩ := critLoop_means _ _ _ _ _ _ _ h
    obtain ⟨k, hk, rfl⟩ := List.mem_iff_getElem.mp hc
    obtain ⟨-, -, hm, -⟩ := d5 k hk
    have hne : cs[k].steps ≠ [] := by rintro h0; rw [h0] at hl; simp at hl
    have hlt : cs[k].steps.length - 1 < cs[k].steps.length := by
      have := List.length_pos_of_ne_nil hne; omega
    have hr' : cs[k].steps[cs[k].steps.length - 1] = r := by
      rw [List.getLast?_eq_getElem?, List.getElem?_eq_getElem hlt] at hl
      simpa using hl
    have := (hm _ hlt).1.met
    rw [hr'] at this
    obtain ⟨x, hx, hlt⟩ := this.mp hr1
    exact ⟨x, by rw [← h1, hx], hlt⟩

theorem critLoop_met {M : Moves} {I : DiffIn} {gs : List Graph} (hs : ∀ k, ∃ st, M.start k gs = .ok st) :
    ∀ (ps : List Int) (index : Nat) (b : Bal) (step : Int), ps ≠ [] → b.gs = gs →
    (∀ k (hk : k < ps.length), ∃ ws x, partWeights gs ps[k] I.countGhosts = .ok ws ∧ imbalance ws = some x ∧
      x < tolAt I (index + k)) →
    ∃ b' cs s', critLoop M I ps index b step = .ok (b', cs, s') ∧ b'.gs = gs ∧
      ∀ c ∈ cs, c.steps.map StepRec.rc = [1] := by
  intro ps
  induction ps with
  | nil => intro _ _ _ h; exact absurd rfl h
  | cons d rest ih =>
    rintro index ⟨bgs, bsd, bco, bst, bcl⟩ step _ rfl hw
    dsimp only at hs hw
    obtain ⟨ws, x, e1, e2, hx⟩ := hw 0 (by simp)
    simp only [List.getElem_cons_zero, Nat.add_zero] at e1 hx
    obtain ⟨st, e0⟩ := hs bcl
    have hrun : ∀ fuel (b : Bal) inner, b.gs = bgs → runSteps M I d (tolAt I index) (fuel + 1) b inner step =
        .ok (b, [⟨imbalance ws, 1, 0⟩], inner, step) := by
      rintro fuel b inner rfl
      rw [runSteps]
      unfold runStep
      rw [e1, Outcome.bind_ok]
      dsimp only
      rw [if_pos ((dblLt_iff _ _).mpr ⟨x, e2, hx⟩)]
      rfl
    have hcrit : ∃ b' c, criterion M I d index ⟨bgs, bsd, bco, bst, bcl⟩ step = .ok (b', c, step) ∧ b'.gs = bgs ∧
        c.steps.map StepRec.rc = [1] := by
      unfold criterion
      dsimp only
      rw [e0, Outcome.bind_ok, hrun (I.maxPer.toNat + 1) _ _ rfl, Outcome.bind_ok]
      dsimp only
      rw [e1, Outcome.bind_ok]
      exact ⟨_, _, rfl, rfl, rfl⟩
    obtain ⟨b', c, e3, hb, hc⟩ := hcrit
    rw [critLoop, e3, Outcome.bind_ok]
    dsimp only
    split
    · rename_i hcond
      obtain ⟨b2, cs, s2, e4, hb2, hcs⟩ := ih (index + 1) b' step hcond.1 hb (by
        intro k hk
        obtain ⟨ws, x, h1, h2, h3⟩ := hw (k + 1) (by simpa using hk)
        refine ⟨ws, x, by simpa using h1, h2, ?_⟩
        have : index + 1 + k = index + (k + 1) := by omega
        rw [this]; exact h3)
      rw [e4, Outcome.bind_ok]
      refine ⟨_, _, _, rfl, hb2, ?_⟩
      intro c' hc'
      rcases List.mem_cons.mp hc' with rfl | hc'
      · exact hc
      · exact hcs c' hc'
    · refine ⟨_, _, _, rfl, hb, ?_⟩
      intro c' hc'
      rw [List.mem_singleton.mp hc']
      exact hc

/-- **C53**, restricted: if the parts meet every tolerance to begin with, `balance()` changes nothing (it only notes
the original owners).  Missing compared to C53: a run that does begin to move vertices can end with a worse
imbalance than it began with (`c53_imbalance_worse`). -/
theorem c53_untouched_partial (M : Moves) (I : DiffIn) (gs : List Graph) (hn : gs.length ≠ 1) (hne : I.priorities ≠ [])
    (hs : ∀ k, ∃ st, M.start k (gs.map Graph.setOriginalOwners) = .ok st)
    (hw : ∀ k (hk : k < I.priorities.length), ∃ ws x,
      partWeights (gs.map Graph.setOriginalOwners) I.priorities[k] I.countGhosts = .ok ws ∧ imbalance ws = some x ∧
      x < I.tolerances.getD k (11 / 10)) :
    ∃ b cs step, balance M I gs = .ok (b, cs, step) ∧ b.gs = gs.map Graph.setOriginalOwners ∧
      ∀ c ∈ cs, c.steps.map StepRec.rc = [1] := by
  unfold balance
  rw [if_neg hn]
  exact critLoop_met hs I.priorities 0 _ 0 hne rfl (by simpa [tolAt] using hw)

/-- hypotheses of `c53_untouched_partial`: two parts weighing 3 and 9 and a tolerance of 2; `c53_reports` applies to the
run -/
example : ∃ b cs step, balance exMoves ⟨[-1], [2], 1000, 100, false⟩ exParts = .ok (b, cs, step) ∧
    b.gs = exParts.map Graph.setOriginalOwners ∧ ∀ c ∈ cs, c.steps.map StepRec.rc = [1] :=
  c53_untouched_partial exMoves ⟨[-1], [2], 1000, 100, false⟩ exParts (by decide) (by decide) (fun _ => ⟨0, rfl⟩) (by
    intro k hk
    have h0 : k = 0 := by simpa using hk
    subst h0
    exact ⟨[3, 9], 3 / 2, (by decide +kernel :
      partWeights (exParts.map Graph.setOriginalOwners) (-1) false = .ok [3, 9]), by decide +kernel, by decide +kernel⟩)

/-- vertices 1 and 2 (weights 3 and 4) on part 0, vertex 3 (weight 5) on part 1 -/
def seesaw : List Input :=
  [{ hyper := true, verts := [1, 2], wgts := [3, 4], types := [⟨[100, 101, 102], [[1, 2], [1], [2, 3]], []⟩] },
   { hyper := true, verts := [3], wgts := [5], types := [⟨[102], [[2, 3]], []⟩] }]
def seesawOwn : Gid → Nat := fun v => if v = 3 then 1 else 0

/-- **C53 fails: balancing makes the imbalance worse.**  The parts weigh 7 and 5 (imbalance 7/6).  With the default
parameters the balancer moves vertex 2 to part 1 (3 and 9, imbalance 3/2), back and forth again, then sees the imbalance
rise and stops - with 3 and 9.  The best partition seen is not kept (engpar_balancer.cpp:92-93, 280). -/
theorem c53_imbalance_worse : runBalance seesaw seesawOwn [-1] = .ok ([[1], [3, 2]],
    [([3, 9], [⟨some (7 / 6), 0, 1⟩, ⟨some (3 / 2), 0, 1⟩, ⟨some (7 / 6), 0, 1⟩, ⟨some (3 / 2), 2, 0⟩])]) := by
  decide +kernel

end Verif.Part
