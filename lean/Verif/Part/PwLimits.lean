import Verif.Part.PwWitness
/-!
# C67: the iteration limits

The same statements as for plain balancing (C37, BalancerProps); `StepsMean` and `EndReason` are defined there.
-/
namespace Verif.Part
open Verif.Agi

theorem pwRunStep_means {par : PlanPar} {env : PwEnv} {dim : Int} {tol : Rat} {b b' : Bal} {tabs tabs' : List PwTable} {r : StepRec}
    {hist : List Dbl} (hsd : SdIs b.sd hist) (h : pwRunStep par env dim tol b tabs = .ok (b', tabs', r)) :
    StepMeans tol (hist ++ [r.imb]) r ∧ b'.completed = b.completed ∧
      (r.rc = 0 → SdIs b'.sd (hist ++ [r.imb])) := by
  unfold pwRunStep at h
  rw [bind_ok_iff] at h
  obtain ⟨ws, -, h⟩ := h
  dsimp only at h
  split at h
  · rename_i hlt
    simp only [Outcome.pure_eq, Outcome.ok.injEq, Prod.mk.injEq] at h
    obtain ⟨rfl, rfl, rfl⟩ := h
    rw [dblLt_iff] at hlt
    exact ⟨⟨by simpa using hlt, by simp [hlt], by simp [hlt], by simp⟩, rfl, by simp⟩
  · rename_i hlt
    rw [dblLt_iff] at hlt
    rw [bind_ok_iff] at h
    obtain ⟨sd, e1, h⟩ := h
    obtain ⟨sd', e1', hsd'⟩ := hsd.push (imbalance ws)
    rw [e1] at e1'
    cases e1'
    obtain ⟨st, e2, hst⟩ := stagnant_iff hsd'
    rw [e2, Outcome.bind_ok] at h
    split at h
    · rename_i hs
      simp only [Outcome.pure_eq, Outcome.ok.injEq, Prod.mk.injEq] at h
      obtain ⟨rfl, rfl, rfl⟩ := h
      rw [hst] at hs
      exact ⟨⟨by simpa using hlt, by simp [hlt, hs], by simp [hs], by simp⟩, rfl, by simp⟩
    · rename_i hs
      rw [hst] at hs
      unfold pwPlanStep at h
      rw [bind_ok_iff] at h
      obtain ⟨⟨plans, tabs1⟩, -, h⟩ := h
      dsimp only at h
      split at h
      · rename_i hnum
        rw [bind_ok_iff] at h
        obtain ⟨gs, -, h⟩ := h
        simp only [Outcome.pure_eq, Outcome.ok.injEq, Prod.mk.injEq] at h
        obtain ⟨rfl, rfl, rfl⟩ := h
        exact ⟨⟨by simpa using hlt, by simp [hs], by simp [hlt, hs]; omega, by simp [hnum]⟩, rfl, fun _ => hsd'⟩
      · simp only [Outcome.pure_eq, Outcome.ok.injEq, Prod.mk.injEq] at h
        obtain ⟨rfl, rfl, rfl⟩ := h
        exact ⟨⟨by simpa using hlt, by simp [hs], by simp [hlt, hs], by simp⟩, rfl, by simp⟩

theorem pwRunSteps_means {par : PlanPar} {env : PwEnv} {I : DiffIn} {dim : Int} {tol : Rat} : ∀ (fuel : Nat) (b b' : Bal) (tabs tabs' : List PwTable)
    (inner step i' s' : Int) (rs : List StepRec) (hist : List Dbl), SdIs b.sd hist → 0 ≤ inner →
    inner ≤ I.maxPer.toNat →
    pwRunSteps par env I dim tol fuel b tabs inner step = .ok (b', tabs', rs, i', s') →
    rs ≠ [] ∧ b'.completed = b.completed ∧
    (∀ k (h : k < rs.length), StepMeans tol (hist ++ (rs.take (k + 1)).map StepRec.imb) rs[k] ∧
      (k + 1 < rs.length → rs[k].rc = 0)) ∧
    rs.length + inner ≤ I.maxPer.toNat + 1 ∧
    step + (rs.length - 1 : Int) ≤ s' ∧ step + (rs.length - 1 : Int) ≤ max step I.maxIterations ∧
    ((∃ r, rs.getLast? = some r ∧ r.rc ≠ 0) ∨ rs.length + inner = I.maxPer.toNat + 1 ∨
      I.maxIterations < s') := by
  intro fuel
  induction fuel with
  | zero => intro b b' tabs tabs' inner step i' s' rs hist _ _ _ h; simp [pwRunSteps] at h
  | succ fuel ih =>
    intro b b' tabs tabs' inner step i' s' rs hist hsd hin hmx h
    rw [pwRunSteps, bind_ok_iff] at h
    obtain ⟨⟨b1, tabs1, r⟩, e1, h⟩ := h
    obtain ⟨hm, hco, hnext⟩ := pwRunStep_means hsd e1
    dsimp only at h
    -- the four ways to leave with this step as the only one
    have hone : ∀ (hrs : rs = [r]), (∀ k (h : k < rs.length),
        StepMeans tol (hist ++ (rs.take (k + 1)).map StepRec.imb) rs[k] ∧ (k + 1 < rs.length → rs[k].rc = 0)) := by
      rintro rfl k hk
      have : k = 0 := by simpa using hk
      subst this
      exact ⟨by simpa using hm, by simp⟩
    split at h
    · rename_i hrc
      split at h
      · rename_i hi
        split at h
        · rename_i hs
          rw [bind_ok_iff] at h
          obtain ⟨⟨b2, tabs2, rs2, i2, s2⟩, e2, h⟩ := h
          simp only [Outcome.pure_eq, Outcome.ok.injEq, Prod.mk.injEq] at h
          obtain ⟨rfl, rfl, rfl, rfl, rfl⟩ := h
          obtain ⟨h1, h2, h3, h4, h5, h6, h7⟩ := ih b1 b2 tabs1 tabs2 (inner + 1) (step + 1) i2 s2 rs2 (hist ++ [r.imb])
            (hnext hrc) (by omega) (by omega) e2
          have hlen : 0 < rs2.length := List.length_pos_of_ne_nil h1
          refine ⟨by simp, h2.trans hco, ?_, by simp only [List.length_cons]; push_cast; omega,
            by simp only [List.length_cons]; push_cast; omega,
            by simp only [List.length_cons]; push_cast; omega, ?_⟩
          · intro k hk
            match k with
            | 0 => exact ⟨by simpa using hm, fun _ => hrc⟩
            | k + 1 =>
              have hk' : k < rs2.length := by simpa using hk
              obtain ⟨a, b⟩ := h3 k hk'
              refine ⟨by simpa using a, fun hlt => b (by simpa using hlt)⟩
          · rcases h7 with ⟨r', hr', hne⟩ | h7 | h7
            · left
              refine ⟨r', ?_, hne⟩
              rw [List.getLast?_cons, hr']; rfl
            · right; left; simp only [List.length_cons]; push_cast; omega
            · right; right; exact h7
        · rename_i hs
          simp only [Outcome.pure_eq, Outcome.ok.injEq, Prod.mk.injEq] at h
          obtain ⟨rfl, rfl, rfl, rfl, rfl⟩ := h
          refine ⟨by simp, hco, hone rfl, ?_, ?_, ?_, .inr (.inr ?_)⟩ <;>
            (try simp only [List.length_singleton]) <;> omega
      · rename_i hi
        simp only [Outcome.pure_eq, Outcome.ok.injEq, Prod.mk.injEq] at h
        obtain ⟨rfl, rfl, rfl, rfl, rfl⟩ := h
        refine ⟨by simp, hco, hone rfl, ?_, ?_, ?_, .inr (.inl ?_)⟩ <;> simp <;> omega
    · rename_i hrc
      simp only [Outcome.pure_eq, Outcome.ok.injEq, Prod.mk.injEq] at h
      obtain ⟨rfl, rfl, rfl, rfl, rfl⟩ := h
      refine ⟨by simp, hco, hone rfl, ?_, ?_, ?_, .inl ⟨r, by simp, hrc⟩⟩ <;> simp <;> omega

theorem pwCriterion_means {par : PlanPar} {env : PwEnv} {I : DiffIn} {dim : Int} {index : Nat} {b b' : Bal} {c : CritRec}
    {step step' : Int} (h : pwCriterion par env I dim index b step = .ok (b', c, step')) :
    c.dim = dim ∧ c.tol = tolAt I index ∧ b'.completed.map Prod.fst = b.completed.map Prod.fst ++ [dim] ∧
    c.steps ≠ [] ∧ StepsMean c.tol c.steps ∧ c.steps.length ≤ I.maxPer.toNat + 1 ∧
    EndReason I c.steps step' ∧
    step + (c.steps.length - 1 : Int) ≤ step' ∧
    step + (c.steps.length - 1 : Int) ≤ max step I.maxIterations := by
  unfold pwCriterion at h
  dsimp only at h
  rw [bind_ok_iff] at h
  obtain ⟨⟨st, tabs⟩, -, h⟩ := h
  rw [bind_ok_iff] at h
  obtain ⟨⟨b1, tabs1, rs, i1, s1⟩, e1, h⟩ := h
  dsimp only at h
  rw [bind_ok_iff] at h
  obtain ⟨ws, -, h⟩ := h
  simp only [Outcome.pure_eq, Outcome.ok.injEq, Prod.mk.injEq] at h
  obtain ⟨rfl, rfl, rfl⟩ := h
  obtain ⟨h1, h2, h3, h4, h5, h6, h7⟩ := pwRunSteps_means _ _ _ _ _ _ _ _ _ _ []
    (show SdIs SDSlope.new [] from rfl) (by omega) (by omega) e1
  refine ⟨rfl, rfl, by simp [h2], h1, ?_, by dsimp only; omega, ?_, h5, h6⟩
  · intro k hk
    simpa using h3 k hk
  · rcases h7 with h | h | h
    · exact .inl h
    · right; left; dsimp only; omega
    · exact .inr (.inr h)

theorem pwCritLoop_means {par : PlanPar} {env : PwEnv} {I : DiffIn} : ∀ (ps : List Int) (index : Nat) (b b' : Bal)
    (cs : List CritRec) (step step' : Int), pwCritLoop par env I ps index b step = .ok (b', cs, step') →
    cs ≠ [] ∧ cs.length ≤ ps.length ∧ cs.map CritRec.dim = ps.take cs.length ∧
    b'.completed.map Prod.fst = b.completed.map Prod.fst ++ cs.map CritRec.dim ∧
    (∀ k (h : k < cs.length), cs[k].tol = tolAt I (index + k) ∧ cs[k].steps ≠ [] ∧
      StepsMean cs[k].tol cs[k].steps ∧ cs[k].steps.length ≤ I.maxPer.toNat + 1 ∧
      ∃ s, EndReason I cs[k].steps s ∧ s ≤ step') ∧
    step + extraSteps cs ≤ step' ∧ step + extraSteps cs ≤ max step I.maxIterations ∧
    (cs.length < ps.length → I.maxIterations ≤ step') := by
  intro ps
  induction ps with
  | nil => intro index b b' cs step step' h; simp [pwCritLoop] at h
  | cons dim rest ih =>
    intro index b b' cs step step' h
    rw [pwCritLoop, bind_ok_iff] at h
    obtain ⟨⟨b1, c, s1⟩, e1, h⟩ := h
    obtain ⟨c1, c2, c3, c4, c5, c6, c7, c8, c9⟩ := pwCriterion_means e1
    have hlc : 0 < c.steps.length := List.length_pos_of_ne_nil c4
    dsimp only at h
    split at h
    · rename_i hcond
      rw [bind_ok_iff] at h
      obtain ⟨⟨b2, cs2, s2⟩, e2, h⟩ := h
      simp only [Outcome.pure_eq, Outcome.ok.injEq, Prod.mk.injEq] at h
      obtain ⟨rfl, rfl, rfl⟩ := h
      obtain ⟨d1, d2, d3, d4, d5, d6, d7, d8⟩ := ih _ _ _ _ _ _ e2
      have hex : extraSteps (c :: cs2) = (c.steps.length - 1) + extraSteps cs2 := by simp [extraSteps]
      refine ⟨by simp, by simpa using d2, by simp [c1, d3], by simp [d4, c3, c1], ?_, ?_, ?_, ?_⟩
      · intro k hk
        match k with
        | 0 => exact ⟨c2, c4, c5, c6, s1, c7, by omega⟩
        | k + 1 =>
          obtain ⟨f1, f2⟩ := d5 k (by simpa using hk)
          refine ⟨?_, f2⟩
          simp only [List.getElem_cons_succ]
          rw [f1]; congr 1; omega
      · rw [hex]; push_cast; omega
      · rw [hex]; push_cast; omega
      · intro hlt; exact d8 (by simpa using hlt)
    · rename_i hcond
      simp only [Outcome.pure_eq, Outcome.ok.injEq, Prod.mk.injEq] at h
      obtain ⟨rfl, rfl, rfl⟩ := h
      have hex : extraSteps [c] = c.steps.length - 1 := by simp [extraSteps]
      refine ⟨by simp, by simp, by simp [c1], by simp [c1, c3], ?_, ?_, ?_, ?_⟩
      · intro k hk
        have : k = 0 := by simpa using hk
        subst this
        exact ⟨c2, c4, c5, c6, s1, c7, by omega⟩
      · rw [hex]; omega
      · rw [hex]; omega
      · intro hlt
        have : rest ≠ [] := by rintro rfl; simp at hlt
        by_contra hc
        exact hcond ⟨this, by omega⟩

/-- **C67, the iteration limits.**  For all graphs, inputs and orders, and every completed run of `balance()` with
`runPartWeightBalancer` on several parts: the criteria are worked off in the order of the priorities; for each at least one
and at most `maxIterationsPerType + 1` steps are made; every step but the last of a criterion migrated vertices, and the
last one met the tolerance, saw the imbalance rise or found nothing to migrate - or it is the
`maxIterationsPerType + 1`-st, or the overall counter passed `maxIterations`.  The number of all steps is at most
`maxIterations` plus the number of criteria, and criteria are left out only when the overall limit is reached.
Partial: as in C37 the overall limit itself can be exceeded by one step per criterion (`c67_overall_limit_exceeded`). -/
theorem c67_limits_partial (par : PlanPar) (env : PwEnv) (I : DiffIn) (gs : List Graph) (hn : gs.length ≠ 1) (b : Bal)
    (cs : List CritRec) (step : Int) (h : pwBalance par env I gs = .ok (b, cs, step)) :
    cs.map CritRec.dim = I.priorities.take cs.length ∧ 1 ≤ cs.length ∧ cs.length ≤ I.priorities.length ∧
    b.completed.map Prod.fst = cs.map CritRec.dim ∧
    (∀ k (hk : k < cs.length), cs[k].tol = I.tolerances.getD k (11 / 10) ∧
      1 ≤ cs[k].steps.length ∧ cs[k].steps.length ≤ I.maxPer.toNat + 1 ∧
      StepsMean cs[k].tol cs[k].steps ∧ ∃ s, EndReason I cs[k].steps s ∧ s ≤ step) ∧
    (((cs.map (fun c => c.steps.length)).sum : Nat) : Int) ≤ max 0 I.maxIterations + cs.length ∧
    (cs.length < I.priorities.length → I.maxIterations ≤ step) := by
  unfold pwBalance at h
  rw [if_neg hn] at h
  obtain ⟨d1, d2, d3, d4, d5, d6, d7, d8⟩ := pwCritLoop_means _ _ _ _ _ _ _ h
  refine ⟨d3, List.length_pos_of_ne_nil d1, d2, by simpa using d4, ?_, ?_, d8⟩
  · intro k hk
    obtain ⟨e1, e2, e3, e4, e5⟩ := d5 k hk
    exact ⟨by rw [e1]; simp [tolAt], List.length_pos_of_ne_nil e2, e4, e3, e5⟩
  · have : ∀ (l : List CritRec), (∀ k (h : k < l.length), l[k].steps ≠ []) →
        (l.map (fun c => c.steps.length)).sum = extraSteps l + l.length := by
      intro l
      induction l with
      | nil => simp [extraSteps]
      | cons c l ih =>
        intro hl
        have h0 := hl 0 (by simp)
        simp only [List.getElem_cons_zero] at h0
        have := List.length_pos_of_ne_nil h0
        have ih' := ih (fun k hk => by have := hl (k + 1) (by simpa using hk); simpa using this)
        simp only [extraSteps, List.map_cons, List.sum_cons, List.length_cons] at ih' ⊢
        omega
    rw [this cs (fun k hk => (d5 k hk).2.1)]
    push_cast
    omega


/-- a run on the heavy chain with a given overall limit: for each criterion the steps -/
def pwLimited (maxIt : Int) (ps : List Int) : Outcome (List (List StepRec)) := do
  let gs ← setupAll heavyChain none (heavyChain.map (fun _ => fun v => some (chainOwn v : Int))) twoOrder flipOrder
  let r ← pwBalance defaultPar samplePwEnv { defaultIn ps with maxIterations := maxIt } gs
  return r.2.1.map CritRec.steps

/-- runs as in `c67_limits_partial`: with a limit of 5 both criteria are worked off, with a limit of 0 only the first -/
example : pwLimited 5 [-1, 0] = .ok [[⟨some (5 / 3), 0, 1⟩, ⟨some (4 / 3), 0, 1⟩, ⟨some 1, 1, 0⟩], [⟨some 1, 1, 0⟩]] ∧
    pwLimited 0 [-1, 0] = .ok [[⟨some (5 / 3), 0, 1⟩]] := by
  constructor <;> decide +kernel

/-- the overall limit is exceeded, as in `c37_overall_limit_exceeded`: with `maxIterations = 1` vertices are migrated twice -/
theorem c67_overall_limit_exceeded : pwLimited 1 [-1] = .ok [[⟨some (5 / 3), 0, 1⟩, ⟨some (4 / 3), 0, 1⟩]] := by
  decide +kernel

end Verif.Part
