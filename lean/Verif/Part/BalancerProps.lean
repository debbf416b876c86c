import Verif.Part.BalancerModel
import Verif.Part.SlopeProps
import Verif.Part.MetricsProps
/-!
# C37: the balancer stops, and why
-/
namespace Verif.Part
open Verif.Agi

/-! ## specification -/

/-- the last three imbalances `a, b, c` rise: `2c - b/2 - 3a/2 > 0` -/
def Rising (hist : List Dbl) : Prop :=
  ∃ pre a b c, hist = pre ++ [some a, some b, some c] ∧ 0 < 2 * c - b / 2 - 3 * a / 2

/-- what a step with result code `r.rc` means, `hist` being the imbalances seen for this criterion so far
(the last one being this step's): 1 = the tolerance is met, 2 = the imbalance rises, 3 = nothing to migrate,
0 = vertices were migrated -/
structure StepMeans (tol : Rat) (hist : List Dbl) (r : StepRec) : Prop where
  met : r.rc = 1 ↔ ∃ x, r.imb = some x ∧ x < tol
  rising : r.rc = 2 ↔ (¬ ∃ x, r.imb = some x ∧ x < tol) ∧ Rising hist
  nothing : r.rc = 3 ↔ (¬ ∃ x, r.imb = some x ∧ x < tol) ∧ ¬ Rising hist ∧ r.moved = 0
  migrated : r.rc = 0 ↔ 0 < r.moved

/-- the steps of one criterion: every step but the last migrates, and each means what its code says -/
def StepsMean (tol : Rat) (rs : List StepRec) : Prop :=
  ∀ k (h : k < rs.length), StepMeans tol ((rs.take (k + 1)).map StepRec.imb) rs[k] ∧
    (k + 1 < rs.length → rs[k].rc = 0)

/-! ## one step -/

theorem dblLt_iff (a : Dbl) (y : Rat) : Dbl.lt a (some y) = true ↔ ∃ x, a = some x ∧ x < y := by
  cases a with
  | none => simp [Dbl.lt]
  | some x => simp [Dbl.lt]

/-- the detector after the history `hist` -/
def SdIs (sd : SDSlope) (hist : List Dbl) : Prop := SDSlope.new.pushAll hist = .ok sd

theorem SdIs.push {sd : SDSlope} {hist : List Dbl} (h : SdIs sd hist) (x : Dbl) :
    ∃ sd', sd.push x = .ok sd' ∧ SdIs sd' (hist ++ [x]) := by
  obtain ⟨y, hy, -⟩ := pushAll_shape (hist ++ [x])
  have := hy
  rw [pushAll_append, h, Outcome.bind_ok] at this
  unfold SDSlope.pushAll at this
  rw [List.foldlM_cons, bind_ok_iff] at this
  obtain ⟨a, e, e2⟩ := this
  simp only [List.foldlM_nil, Outcome.pure_eq, Outcome.ok.injEq] at e2
  subst e2
  exact ⟨a, e, hy⟩

theorem slope_nan {l : List Dbl} {a b c : Dbl} {y : SDSlope} (h : SdIs y (l ++ [a, b, c]))
    (hn : a = none ∨ b = none ∨ c = none) : y.slope = .ok none := by
  obtain ⟨y', hy, hf, hm, h0, h1, h2⟩ := pushAll_last l a b c
  have : y' = y := by unfold SdIs at h; rw [hy] at h; injection h
  subst this
  unfold SDSlope.slope
  rw [if_pos hf, hm]
  simp only [List.range', List.foldlM_cons, List.foldlM_nil, SDSlope.slopeStep, h0, h1, h2,
    Outcome.bind_ok, rd, sdWs, List.getElem?_cons_zero, List.getElem?_cons_succ, Nat.zero_add,
    Nat.reduceAdd, Outcome.ofOption_some, Outcome.pure_eq]
  clear hy hf hm h0 h1 h2 h
  congr 1
  match a, b, c, hn with
  | none, _, _, _ => rfl
  | some _, none, none, _ => rfl
  | some _, none, some _, _ => rfl
  | some _, some _, none, _ => rfl
  | some _, some _, some _, hn => simp at hn

theorem stagnant_iff {sd : SDSlope} {hist : List Dbl} (h : SdIs sd hist) :
    ∃ b, stagnant sd = .ok b ∧ (b = true ↔ Rising hist) := by
  unfold stagnant
  by_cases hl : hist.length < 3
  · obtain ⟨y, hy, hf, -⟩ := (c38_exact hist).1 hl
    have : y = sd := by unfold SdIs at h; rw [hy] at h; injection h
    subst this
    rw [hf]
    refine ⟨false, rfl, ?_⟩
    simp only [Bool.false_eq_true, false_iff]
    rintro ⟨pre, a, b, c, rfl, -⟩
    simp at hl
  · obtain ⟨pre, a, b, c, rfl⟩ : ∃ pre a b c, hist = pre ++ [a, b, c] := by
      refine ⟨hist.take (hist.length - 3), hist[hist.length - 3], hist[hist.length - 2],
        hist[hist.length - 1], ?_⟩
      apply List.ext_getElem
      · simp; omega
      · intro k h1 h2
        rw [List.getElem_append]
        split
        · simp
        · rename_i hk
          simp only [List.length_take] at hk
          have : k = hist.length - 3 ∨ k = hist.length - 2 ∨ k = hist.length - 1 := by omega
          simp only [List.length_take]
          rcases this with rfl | rfl | rfl
          · simp only [show hist.length - 3 - min (hist.length - 3) hist.length = 0 by omega]; rfl
          · simp only [show hist.length - 2 - min (hist.length - 3) hist.length = 1 by omega]; rfl
          · simp only [show hist.length - 1 - min (hist.length - 3) hist.length = 2 by omega]; rfl
    obtain ⟨y, hy, hf, -⟩ := pushAll_last pre a b c
    have : y = sd := by unfold SdIs at h; rw [hy] at h; injection h
    subst this
    rw [if_pos hf]
    by_cases hn : a = none ∨ b = none ∨ c = none
    · rw [slope_nan hy hn]
      refine ⟨false, rfl, ?_⟩
      simp only [Bool.false_eq_true, false_iff]
      rintro ⟨pre', a', b', c', e, -⟩
      have := List.append_inj_right' e rfl
      simp at this
      rcases hn with h | h | h <;> simp_all
    · obtain ⟨a, rfl⟩ : ∃ x, a = some x := Option.ne_none_iff_exists'.mp (fun h => hn (.inl h))
      obtain ⟨b, rfl⟩ : ∃ x, b = some x := Option.ne_none_iff_exists'.mp (fun h => hn (.inr (.inl h)))
      obtain ⟨c, rfl⟩ : ∃ x, c = some x := Option.ne_none_iff_exists'.mp (fun h => hn (.inr (.inr h)))
      obtain ⟨y', hy', -, hs, -⟩ := (c38_exact _).2 pre a b c rfl
      have : y' = y := by rw [hy] at hy'; injection hy' with h; exact h.symm
      subst this
      rw [hs]
      refine ⟨_, rfl, ?_⟩
      rw [dblLt_iff']
      constructor
      · intro h; exact ⟨pre, a, b, c, rfl, h⟩
      · rintro ⟨pre', a', b', c', e, h⟩
        have := List.append_inj_right' e rfl
        simp at this
        obtain ⟨rfl, rfl, rfl⟩ := this
        exact h
where
  dblLt_iff' {y : Rat} : Dbl.lt (some 0) (some y) = true ↔ 0 < y := by simp [Dbl.lt]

theorem runStep_means {M : Moves} {cg : Bool} {dim : Int} {tol : Rat} {b b' : Bal} {r : StepRec}
    {hist : List Dbl} (hsd : SdIs b.sd hist) (h : runStep M cg dim tol b = .ok (b', r)) :
    StepMeans tol (hist ++ [r.imb]) r ∧ b'.completed = b.completed ∧
      (r.rc = 0 → SdIs b'.sd (hist ++ [r.imb])) := by
  unfold runStep at h
  rw [bind_ok_iff] at h
  obtain ⟨ws, -, h⟩ := h
  dsimp only at h
  split at h
  · rename_i hlt
    simp only [Outcome.pure_eq, Outcome.ok.injEq, Prod.mk.injEq] at h
    obtain ⟨rfl, rfl⟩ := h
    rw [dblLt_iff] at hlt
    exact ⟨⟨by simpa using hlt, by simp [hlt], by simp [hlt], by simp⟩, rfl, by simp⟩
  · rename_i hlt
    rw [dblLt_iff] at hlt
    rw [bind_ok_iff] at h
    obtain ⟨sd, e1, h⟩ := h
    obtain ⟨sd', e1', hsd'⟩ := hsd.push (imbalance ws)
    rw [e1] at e1'
    cases e1'
    obtain ⟨st, e2, hst⟩ := stagnant_iff hsd'
    rw [e2, Outcome.bind_ok] at h
    split at h
    · rename_i hs
      simp only [Outcome.pure_eq, Outcome.ok.injEq, Prod.mk.injEq] at h
      obtain ⟨rfl, rfl⟩ := h
      rw [hst] at hs
      exact ⟨⟨by simpa using hlt, by simp [hlt, hs], by simp [hs], by simp⟩, rfl, by simp⟩
    · rename_i hs
      rw [hst] at hs
      unfold planStep at h
      rw [bind_ok_iff] at h
      obtain ⟨plans, -, h⟩ := h
      dsimp only at h
      split at h
      · rename_i hnum
        rw [bind_ok_iff] at h
        obtain ⟨gs, -, h⟩ := h
        simp only [Outcome.pure_eq, Outcome.ok.injEq, Prod.mk.injEq] at h
        obtain ⟨rfl, rfl⟩ := h
        exact ⟨⟨by simpa using hlt, by simp [hs], by simp [hlt, hs]; omega, by simp [hnum]⟩, rfl, fun _ => hsd'⟩
      · simp only [Outcome.pure_eq, Outcome.ok.injEq, Prod.mk.injEq] at h
        obtain ⟨rfl, rfl⟩ := h
        exact ⟨⟨by simpa using hlt, by simp [hs], by simp [hlt, hs], by simp⟩, rfl, by simp⟩

/-- why the steps of a criterion ended: a non-zero code, or a limit -/
def EndReason (I : DiffIn) (rs : List StepRec) (step' : Int) : Prop :=
  (∃ r, rs.getLast? = some r ∧ r.rc ≠ 0) ∨ I.maxPer.toNat + 1 = rs.length ∨ I.maxIterations < step'

theorem runSteps_means {M : Moves} {I : DiffIn} {dim : Int} {tol : Rat} : ∀ (fuel : Nat) (b b' : Bal)
    (inner step i' s' : Int) (rs : List StepRec) (hist : List Dbl), SdIs b.sd hist → 0 ≤ inner →
    inner ≤ I.maxPer.toNat →
    runSteps M I dim tol fuel b inner step = .ok (b', rs, i', s') →
    rs ≠ [] ∧ b'.completed = b.completed ∧
    (∀ k (h : k < rs.length), StepMeans tol (hist ++ (rs.take (k + 1)).map StepRec.imb) rs[k] ∧
      (k + 1 < rs.length → rs[k].rc = 0)) ∧
    rs.length + inner ≤ I.maxPer.toNat + 1 ∧
    step + (rs.length - 1 : Int) ≤ s' ∧ step + (rs.length - 1 : Int) ≤ max step I.maxIterations ∧
    ((∃ r, rs.getLast? = some r ∧ r.rc ≠ 0) ∨ rs.length + inner = I.maxPer.toNat + 1 ∨
      I.maxIterations < s') := by
  intro fuel
  induction fuel with
  | zero => intro b b' inner step i' s' rs hist _ _ _ h; simp [runSteps] at h
  | succ fuel ih =>
    intro b b' inner step i' s' rs hist hsd hin hmx h
    rw [runSteps, bind_ok_iff] at h
    obtain ⟨⟨b1, r⟩, e1, h⟩ := h
    obtain ⟨hm, hco, hnext⟩ := runStep_means hsd e1
    dsimp only at h
    -- the four ways to leave with this step as the only one
    have hone : ∀ (hrs : rs = [r]), (∀ k (h : k < rs.length),
        StepMeans tol (hist ++ (rs.take (k + 1)).map StepRec.imb) rs[k] ∧ (k + 1 < rs.length → rs[k].rc = 0)) := by
      rintro rfl k hk
      have : k = 0 := by simpa using hk
      subst this
      exact ⟨by simpa using hm, by simp⟩
    split at h
    · rename_i hrc
      split at h
      · rename_i hi
        split at h
        · rename_i hs
          rw [bind_ok_iff] at h
          obtain ⟨⟨b2, rs2, i2, s2⟩, e2, h⟩ := h
          simp only [Outcome.pure_eq, Outcome.ok.injEq, Prod.mk.injEq] at h
          obtain ⟨rfl, rfl, rfl, rfl⟩ := h
          obtain ⟨h1, h2, h3, h4, h5, h6, h7⟩ := ih b1 b2 (inner + 1) (step + 1) i2 s2 rs2 (hist ++ [r.imb])
            (hnext hrc) (by omega) (by omega) e2
          have hlen : 0 < rs2.length := List.length_pos_of_ne_nil h1
          refine ⟨by simp, h2.trans hco, ?_, by simp only [List.length_cons]; push_cast; omega,
            by simp only [List.length_cons]; push_cast; omega,
            by simp only [List.length_cons]; push_cast; omega, ?_⟩
          · intro k hk
            match k with
            | 0 => exact ⟨by simpa using hm, fun _ => hrc⟩
            | k + 1 =>
              have hk' : k < rs2.length := by simpa using hk
              obtain ⟨a, b⟩ := h3 k hk'
              refine ⟨by simpa using a, fun hlt => b (by simpa using hlt)⟩
          · rcases h7 with ⟨r', hr', hne⟩ | h7 | h7
            · left
              refine ⟨r', ?_, hne⟩
              rw [List.getLast?_cons, hr']; rfl
            · right; left; simp only [List.length_cons]; push_cast; omega
            · right; right; exact h7
        · rename_i hs
          simp only [Outcome.pure_eq, Outcome.ok.injEq, Prod.mk.injEq] at h
          obtain ⟨rfl, rfl, rfl, rfl⟩ := h
          refine ⟨by simp, hco, hone rfl, ?_, ?_, ?_, .inr (.inr ?_)⟩ <;>
            (try simp only [List.length_singleton]) <;> omega
      · rename_i hi
        simp only [Outcome.pure_eq, Outcome.ok.injEq, Prod.mk.injEq] at h
        obtain ⟨rfl, rfl, rfl, rfl⟩ := h
        refine ⟨by simp, hco, hone rfl, ?_, ?_, ?_, .inr (.inl ?_)⟩ <;> simp <;> omega
    · rename_i hrc
      simp only [Outcome.pure_eq, Outcome.ok.injEq, Prod.mk.injEq] at h
      obtain ⟨rfl, rfl, rfl, rfl⟩ := h
      refine ⟨by simp, hco, hone rfl, ?_, ?_, ?_, .inl ⟨r, by simp, hrc⟩⟩ <;> simp <;> omega

/-! ## all criteria -/

theorem criterion_means {M : Moves} {I : DiffIn} {dim : Int} {index : Nat} {b b' : Bal} {c : CritRec}
    {step step' : Int} (h : criterion M I dim index b step = .ok (b', c, step')) :
    c.dim = dim ∧ c.tol = tolAt I index ∧ b'.completed.map Prod.fst = b.completed.map Prod.fst ++ [dim] ∧
    c.steps ≠ [] ∧ StepsMean c.tol c.steps ∧ c.steps.length ≤ I.maxPer.toNat + 1 ∧
    EndReason I c.steps step' ∧
    step + (c.steps.length - 1 : Int) ≤ step' ∧
    step + (c.steps.length - 1 : Int) ≤ max step I.maxIterations := by
  unfold criterion at h
  dsimp only at h
  rw [bind_ok_iff] at h
  obtain ⟨st, -, h⟩ := h
  rw [bind_ok_iff] at h
  obtain ⟨⟨b1, rs, i1, s1⟩, e1, h⟩ := h
  dsimp only at h
  rw [bind_ok_iff] at h
  obtain ⟨ws, -, h⟩ := h
  simp only [Outcome.pure_eq, Outcome.ok.injEq, Prod.mk.injEq] at h
  obtain ⟨rfl, rfl, rfl⟩ := h
  obtain ⟨h1, h2, h3, h4, h5, h6, h7⟩ := runSteps_means _ _ _ _ _ _ _ _ []
    (show SdIs SDSlope.new [] from rfl) (by omega) (by omega) e1
  refine ⟨rfl, rfl, by simp [h2], h1, ?_, by dsimp only; omega, ?_, h5, h6⟩
  · intro k hk
    simpa using h3 k hk
  · rcases h7 with h | h | h
    · exact .inl h
    · right; left; dsimp only; omega
    · exact .inr (.inr h)

/-- the steps taken after the first one of each criterion -/
def extraSteps (cs : List CritRec) : Nat := (cs.map (fun c => c.steps.length - 1)).sum

theorem critLoop_means {M : Moves} {I : DiffIn} : ∀ (ps : List Int) (index : Nat) (b b' : Bal)
    (cs : List CritRec) (step step' : Int), critLoop M I ps index b step = .ok (b', cs, step') →
    cs ≠ [] ∧ cs.length ≤ ps.length ∧ cs.map CritRec.dim = ps.take cs.length ∧
    b'.completed.map Prod.fst = b.completed.map Prod.fst ++ cs.map CritRec.dim ∧
    (∀ k (h : k < cs.length), cs[k].tol = tolAt I (index + k) ∧ cs[k].steps ≠ [] ∧
      StepsMean cs[k].tol cs[k].steps ∧ cs[k].steps.length ≤ I.maxPer.toNat + 1 ∧
      ∃ s, EndReason I cs[k].steps s ∧ s ≤ step') ∧
    step + extraSteps cs ≤ step' ∧ step + extraSteps cs ≤ max step I.maxIterations ∧
    (cs.length < ps.length → I.maxIterations ≤ step') := by
  intro ps
  induction ps with
  | nil => intro index b b' cs step step' h; simp [critLoop] at h
  | cons dim rest ih =>
    intro index b b' cs step step' h
    rw [critLoop, bind_ok_iff] at h
    obtain ⟨⟨b1, c, s1⟩, e1, h⟩ := h
    obtain ⟨c1, c2, c3, c4, c5, c6, c7, c8, c9⟩ := criterion_means e1
    have hlc : 0 < c.steps.length := List.length_pos_of_ne_nil c4
    dsimp only at h
    split at h
    · rename_i hcond
      rw [bind_ok_iff] at h
      obtain ⟨⟨b2, cs2, s2⟩, e2, h⟩ := h
      simp only [Outcome.pure_eq, Outcome.ok.injEq, Prod.mk.injEq] at h
      obtain ⟨rfl, rfl, rfl⟩ := h
      obtain ⟨d1, d2, d3, d4, d5, d6, d7, d8⟩ := ih _ _ _ _ _ _ e2
      have hex : extraSteps (c :: cs2) = (c.steps.length - 1) + extraSteps cs2 := by simp [extraSteps]
      refine ⟨by simp, by simpa using d2, by simp [c1, d3], by simp [d4, c3, c1], ?_, ?_, ?_, ?_⟩
      · intro k hk
        match k with
        | 0 => exact ⟨c2, c4, c5, c6, s1, c7, by omega⟩
        | k + 1 =>
          obtain ⟨f1, f2⟩ := d5 k (by simpa using hk)
          refine ⟨?_, f2⟩
          simp only [List.getElem_cons_succ]
          rw [f1]; congr 1; omega
      · rw [hex]; push_cast; omega
      · rw [hex]; push_cast; omega
      · intro hlt; exact d8 (by simpa using hlt)
    · rename_i hcond
      simp only [Outcome.pure_eq, Outcome.ok.injEq, Prod.mk.injEq] at h
      obtain ⟨rfl, rfl, rfl⟩ := h
      have hex : extraSteps [c] = c.steps.length - 1 := by simp [extraSteps]
      refine ⟨by simp, by simp, by simp [c1], by simp [c1, c3], ?_, ?_, ?_, ?_⟩
      · intro k hk
        have : k = 0 := by simpa using hk
        subst this
        exact ⟨c2, c4, c5, c6, s1, c7, by omega⟩
      · rw [hex]; omega
      · rw [hex]; omega
      · intro hlt
        have : rest ≠ [] := by rintro rfl; simp at hlt
        by_contra hc
        exact hcond ⟨this, by omega⟩

/-- **C37**, the limits and the reasons to stop.  For all graphs, inputs, ways of planning and of migrating, and
every completed run of `balance()` on several parts: the criteria are worked off in the order of the
priorities; for each at least one and at most `maxIterationsPerType + 1` steps are made; every step but the
last of a criterion migrated vertices, and the last one met the tolerance, saw the imbalance rise or found nothing to
migrate - or it is the `maxIterationsPerType + 1`-st, or the overall counter passed `maxIterations`.
The number of all steps is at most `maxIterations` plus the number of criteria.
Missing compared to C37: the overall limit itself can be exceeded (`c37_overall_limit_exceeded`). -/
theorem c37_limits_partial (M : Moves) (I : DiffIn) (gs : List Graph) (hn : gs.length ≠ 1) (b : Bal)
    (cs : List CritRec) (step : Int) (h : balance M I gs = .ok (b, cs, step)) :
    cs.map CritRec.dim = I.priorities.take cs.length ∧ 1 ≤ cs.length ∧ cs.length ≤ I.priorities.length ∧
    b.completed.map Prod.fst = cs.map CritRec.dim ∧
    (∀ k (hk : k < cs.length), cs[k].tol = I.tolerances.getD k (11 / 10) ∧
      1 ≤ cs[k].steps.length ∧ cs[k].steps.length ≤ I.maxPer.toNat + 1 ∧
      StepsMean cs[k].tol cs[k].steps ∧ ∃ s, EndReason I cs[k].steps s ∧ s ≤ step) ∧
    (((cs.map (fun c => c.steps.length)).sum : Nat) : Int) ≤ max 0 I.maxIterations + cs.length ∧
    (cs.length < I.priorities.length → I.maxIterations ≤ step) := by
  unfold balance at h
  rw [if_neg hn] at h
  obtain ⟨d1, d2, d3, d4, d5, d6, d7, d8⟩ := critLoop_means _ _ _ _ _ _ _ h
  refine ⟨d3, List.length_pos_of_ne_nil d1, d2, by simpa using d4, ?_, ?_, d8⟩
  · intro k hk
    obtain ⟨e1, e2, e3, e4, e5⟩ := d5 k hk
    exact ⟨by rw [e1]; simp [tolAt], List.length_pos_of_ne_nil e2, e4, e3, e5⟩
  · have : ∀ (l : List CritRec), (∀ k (h : k < l.length), l[k].steps ≠ []) →
        (l.map (fun c => c.steps.length)).sum = extraSteps l + l.length := by
      intro l
      induction l with
      | nil => simp [extraSteps]
      | cons c l ih =>
        intro hl
        have h0 := hl 0 (by simp)
        simp only [List.getElem_cons_zero] at h0
        have := List.length_pos_of_ne_nil h0
        have ih' := ih (fun k hk => by have := hl (k + 1) (by simpa using hk); simpa using this)
        simp only [extraSteps, List.map_cons, List.sum_cons, List.length_cons] at ih' ⊢
        omega
    rw [this cs (fun k hk => (d5 k hk).2.1)]
    push_cast
    omega

/-- **C37**: in serial nothing is done. -/
theorem c37_serial (M : Moves) (I : DiffIn) (gs : List Graph) (hn : gs.length = 1) :
    ∃ b, balance M I gs = .ok (b, [], 0) ∧ b.gs = gs := by
  unfold balance; rw [if_pos hn]; exact ⟨_, rfl, rfl⟩

/-- one criterion's view of what keeps a run going: `P` holds for the graphs and the completed dimensions, and
measuring, planning and migrating succeed and keep it -/
structure Keeps (M : Moves) (cg : Bool) (dim : Int) (P : List Graph → List (Int × Rat) → Prop) : Prop where
  start : ∀ k gs co, P gs co → ∃ st, M.start k gs = .ok st
  weigh : ∀ gs co, P gs co → ∃ ws, partWeights gs dim cg = .ok ws
  plan : ∀ k st gs co, P gs co → ∃ pl, M.plan k st gs dim co = .ok pl ∧ ∃ gs', M.mig k gs pl = .ok gs' ∧ P gs' co

theorem runStep_ok {M : Moves} {cg : Bool} {dim : Int} {tol : Rat} {P : List Graph → List (Int × Rat) → Prop}
    (hk : Keeps M cg dim P) {b : Bal} {hist : List Dbl} (hb : P b.gs b.completed) (hsd : SdIs b.sd hist) :
    ∃ b' r, runStep M cg dim tol b = .ok (b', r) ∧ P b'.gs b'.completed := by
  unfold runStep
  obtain ⟨ws, e⟩ := hk.weigh _ _ hb
  rw [e, Outcome.bind_ok]
  dsimp only
  split
  · exact ⟨_, _, rfl, hb⟩
  · obtain ⟨sd', e1, hsd'⟩ := hsd.push (imbalance ws)
    obtain ⟨st, e2, -⟩ := stagnant_iff hsd'
    rw [e1, Outcome.bind_ok, e2, Outcome.bind_ok]
    split
    · exact ⟨_, _, rfl, hb⟩
    · unfold planStep
      obtain ⟨pl, e3, gs', e4, hP⟩ := hk.plan b.clock b.sideTol b.gs b.completed hb
      rw [e3, Outcome.bind_ok]
      dsimp only
      split
      · rw [e4, Outcome.bind_ok]
        exact ⟨_, _, rfl, hP⟩
      · exact ⟨_, _, rfl, hb⟩

theorem runSteps_ok {M : Moves} {I : DiffIn} {dim : Int} {tol : Rat} {P : List Graph → List (Int × Rat) → Prop}
    (hk : Keeps M I.countGhosts dim P) :
    ∀ (fuel : Nat) (b : Bal) (inner step : Int) (hist : List Dbl), P b.gs b.completed → SdIs b.sd hist → 0 ≤ inner →
    I.maxPer.toNat + 1 < fuel + inner → 1 ≤ fuel →
    ∃ b' rs i' s', runSteps M I dim tol fuel b inner step = .ok (b', rs, i', s') ∧ P b'.gs b'.completed ∧
      b'.completed = b.completed := by
  intro fuel
  induction fuel with
  | zero => intro b inner step hist _ _ _ h h0; omega
  | succ fuel ih =>
    intro b inner step hist hP hsd hin hf h0
    rw [runSteps]
    obtain ⟨b1, r, e1, hP1⟩ := runStep_ok (tol := tol) hk hP hsd
    obtain ⟨hm, hco, hnext⟩ := runStep_means hsd e1
    rw [e1, Outcome.bind_ok]
    dsimp only
    split
    · rename_i hrc
      split
      · split
        · obtain ⟨b2, rs, i2, s2, e2, hP2, hc2⟩ := ih b1 (inner + 1) (step + 1) _ hP1 (hnext hrc) (by omega)
            (by omega) (by omega)
          rw [e2, Outcome.bind_ok]
          exact ⟨_, _, _, _, rfl, hP2, hc2.trans hco⟩
        · exact ⟨_, _, _, _, rfl, hP1, hco⟩
      · exact ⟨_, _, _, _, rfl, hP1, hco⟩
    · exact ⟨_, _, _, _, rfl, hP1, hco⟩

/-- a whole run keeps what all its criteria keep -/
theorem critLoop_ok {M : Moves} {I : DiffIn} {N : Nat} {P : List Graph → List (Int × Rat) → Prop}
    (hk : ∀ d ∈ I.priorities, Keeps M I.countGhosts d (fun gs co => P gs co ∧ co.length < N))
    (hc : ∀ gs co d ws tol, P gs co → d ∈ I.priorities → partWeights gs d I.countGhosts = .ok ws →
      P gs (co ++ [(d, completedWeight ws tol)])) :
    ∀ (ps : List Int) (index : Nat) (b : Bal) (step : Int), ps ≠ [] → (∀ d ∈ ps, d ∈ I.priorities) →
      P b.gs b.completed → b.completed.length + ps.length ≤ N →
      ∃ b' cs s', critLoop M I ps index b step = .ok (b', cs, s') ∧ P b'.gs b'.completed ∧
        b'.completed = b.completed ++ cs.map (fun c => (c.dim, completedWeight c.ends c.tol)) ∧
        ∀ c ∈ cs, c.dim ∈ I.priorities ∧ ∃ gs co, P gs co ∧ partWeights gs c.dim I.countGhosts = .ok c.ends := by
  intro ps
  induction ps with
  | nil => intro _ _ _ h; exact absurd rfl h
  | cons d ps ih =>
    intro index b step _ hps hPb hlen
    rw [List.length_cons] at hlen
    rw [critLoop]
    have hd := hps d (by simp)
    unfold criterion
    dsimp only
    obtain ⟨st, e0⟩ := (hk d hd).start b.clock b.gs b.completed ⟨hPb, by omega⟩
    obtain ⟨b1, rs, i1, s1, e1, hP1, hc1⟩ := runSteps_ok (tol := tolAt I index) (hk d hd) (I.maxPer.toNat + 2)
      { b with sd := SDSlope.new, sideTol := st, clock := b.clock + 1 } 0 step [] ⟨hPb, by dsimp only; omega⟩ rfl
      (by omega) (by omega) (by omega)
    obtain ⟨ws, e2⟩ := (hk d hd).weigh _ _ hP1
    simp only [e0, e1, Outcome.bind_ok, e2, Outcome.pure_eq]
    have hP2 := hc _ _ d ws (tolAt I index) hP1.1 hd e2
    dsimp only at hc1
    split
    · rename_i hcond
      obtain ⟨b2, cs, s2, e3, hP3, hc3, hends⟩ := ih (index + 1)
        { b1 with completed := b1.completed ++ [(d, completedWeight ws (tolAt I index))] } s1 hcond.1
        (fun x hx => hps x (by simp [hx])) hP2 (by
          dsimp only
          rw [hc1, List.length_append, List.length_singleton]; omega)
      rw [e3, Outcome.bind_ok]
      refine ⟨_, _, _, rfl, hP3, ?_, ?_⟩
      · rw [hc3]
        dsimp only
        rw [hc1]
        simp
      · intro c hcm
        rcases List.mem_cons.mp hcm with rfl | hcm
        · exact ⟨hd, _, _, hP1.1, e2⟩
        · exact hends c hcm
    · refine ⟨_, _, _, rfl, hP2, ?_, ?_⟩
      · dsimp only
        rw [hc1]
        simp
      · intro c hcm
        rw [List.mem_singleton.mp hcm]
        exact ⟨hd, _, _, hP1.1, e2⟩

/-- **C37**, termination: if measuring, planning and migrating succeed on the graphs that occur (`P` is any
property of the graphs kept by the migrations), and there is a criterion, then `balance()` ends - the loops, which are
given `maxIterationsPerType + 2` rounds per criterion, never need more. -/
theorem c37_terminates (M : Moves) (I : DiffIn) (gs : List Graph) (P : List Graph → Prop)
    (hP : P (gs.map Graph.setOriginalOwners)) (hne : I.priorities ≠ [])
    (hs : ∀ gs, P gs → ∀ k, ∃ st, M.start k gs = .ok st)
    (hw : ∀ gs, P gs → ∀ d ∈ I.priorities, ∃ ws, partWeights gs d I.countGhosts = .ok ws)
    (hp : ∀ gs, P gs → ∀ d ∈ I.priorities, ∀ k st co, ∃ pl, M.plan k st gs d co = .ok pl ∧
      ∃ gs', M.mig k gs pl = .ok gs' ∧ P gs') :
    ∃ b cs step, balance M I gs = .ok (b, cs, step) := by
  unfold balance
  split
  · exact ⟨_, _, _, rfl⟩
  · obtain ⟨b, cs, s, e, -⟩ := critLoop_ok (M := M) (I := I) (N := I.priorities.length) (P := fun gs _ => P gs)
      (fun d hd => ⟨fun k gs co h => hs gs h.1 k, fun gs co h => hw gs h.1 d hd, fun k st gs co h => by
        obtain ⟨pl, e1, gs', e2, h2⟩ := hp gs h.1 d hd k st co
        exact ⟨pl, e1, gs', e2, h2, h.2⟩⟩)
      (fun gs co d ws tol h _ _ => h) I.priorities 0 ⟨gs.map Graph.setOriginalOwners, SDSlope.new, [], 0, 0⟩ 0 hne
      (fun d h => h) hP (by simp)
    exact ⟨b, cs, s, e⟩

/-- without any priority `priorities[0]` is read beyond the end of the vector -/
theorem c37_no_priority_ub (M : Moves) (I : DiffIn) (gs : List Graph) (hn : gs.length ≠ 1)
    (h : I.priorities = []) : balance M I gs = .ub := by
  unfold balance; rw [if_neg hn, h]; rfl

/-- the weight recorded for a finished criterion is at least the weight of every part and at least the tolerated
one -/
theorem c37_completed_weight (ws : List Rat) (tol : Rat) :
    (∀ w ∈ ws, w ≤ completedWeight ws tol) ∧ ws.sum / ws.length * tol ≤ completedWeight ws tol := by
  unfold completedWeight
  dsimp only
  constructor
  · intro w hw
    have := (mpiMax_spec ws (by rintro rfl; simp at hw)).2 w hw
    split <;> linarith
  · split
    · exact le_refl _
    · rename_i h; exact not_lt.mp h

/-! ## a run, and the exceeded limit -/

/-- two parts weighing 3 and 9 -/
def exParts : List Graph :=
  [{ emptyGraph 0 2 with numLocal := 1, weights := Mem.ofList [3] },
   { emptyGraph 1 2 with numLocal := 1, weights := Mem.ofList [9] }]
/-- a planner that keeps sending a vertex of part 1, without effect on the weights -/
def exMoves : Moves := ⟨fun _ _ => .ok 0, fun _ _ _ _ _ => .ok [⟨none, []⟩, ⟨none, [1]⟩], fun _ gs _ => .ok gs⟩

def exSteps (maxIt maxPer : Int) (tol : Rat) : Outcome (List (List StepRec)) :=
  (balance exMoves ⟨[-1], [tol], maxIt, maxPer, false⟩ exParts) >>= fun r =>
    .ok (r.2.1.map CritRec.steps)

/-- hypotheses of `c37_limits_partial`: a run on two parts that ends -/
example : ∃ r, balance exMoves ⟨[-1], [11 / 10], 1000, 3, false⟩ exParts = .ok r ∧ exParts.length ≠ 1 := by
  obtain ⟨b, cs, s, h⟩ := c37_terminates exMoves ⟨[-1], [11 / 10], 1000, 3, false⟩ exParts
    (fun gs => gs = exParts.map Graph.setOriginalOwners) rfl (by simp) (fun _ _ _ => ⟨0, rfl⟩)
    (by rintro gs rfl d hd; simp at hd; subst hd; exact ⟨[3, 9], by decide +kernel⟩)
    (by rintro gs rfl d hd k st co; exact ⟨_, rfl, _, rfl, rfl⟩)
  exact ⟨_, h, by decide⟩

/-- four steps (`maxIterationsPerType` is 3); with a tolerance of 2 one step -/
example : exSteps 1000 3 (11 / 10) = .ok [List.replicate 4 ⟨some (3 / 2), 0, 1⟩] ∧
    exSteps 1000 3 2 = .ok [[⟨some (3 / 2), 1, 0⟩]] := by decide +kernel

/-- the overall limit is exceeded: with `maxIterations = 1` vertices are migrated twice -/
theorem c37_overall_limit_exceeded :
    exSteps 1 100 (11 / 10) = .ok [[⟨some (3 / 2), 0, 1⟩, ⟨some (3 / 2), 0, 1⟩]] := by decide +kernel

end Verif.Part
