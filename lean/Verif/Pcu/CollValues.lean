import Verif.Pcu.CollScan
/-! Values computed by the event lists of the collectives -/
namespace Verif.Pcu.Coll

/-- combination, in rank order, of the contributions `v a, v (a+1), …, v (a+n)` -/
def seg {V : Type} (op : V → V → V) (v : Nat → V) (a n : Nat) : V :=
  (List.range n).foldl (fun acc i => op acc (v (a + i + 1))) (v a)

variable {V : Type} {op : V → V → V}

theorem seg_zero (v : Nat → V) (a : Nat) : seg op v a 0 = v a := rfl

theorem seg_succ (v : Nat → V) (a n : Nat) : seg op v a (n + 1) = op (seg op v a n) (v (a + n + 1)) := by
  simp [seg, List.range_succ]

theorem seg_append (ha : ∀ x y z, op (op x y) z = op x (op y z)) (v : Nat → V) (a m n : Nat) :
    op (seg op v a m) (seg op v (a + m + 1) n) = seg op v a (m + 1 + n) := by
  induction n with
  | zero => rw [seg_zero]; exact (seg_succ v a m).symm
  | succ n ih =>
    rw [seg_succ, ← ha, ih, ← Nat.add_assoc, seg_succ]
    congr 2
    omega

/-! ### one level -/

theorem run_level (p : Nat → Bool) (d s : Nat → Nat) (kd : Kind)
    (hinj : ∀ i j, p i = true → p j = true → d i = d j → i = j)
    (hdis : ∀ i j, p i = true → p j = true → s i ≠ d j) (l : List Nat) (hl : l.Nodup) :
    ∀ v : Nat → V,
      (∀ i ∈ l, p i = true →
        runEvents op ((l.filter p).map (fun i => ⟨s i, d i, kd⟩)) v (d i) =
          apply op kd (v (d i)) (v (s i))) ∧
      (∀ j, (∀ i ∈ l, p i = true → d i ≠ j) →
        runEvents op ((l.filter p).map (fun i => ⟨s i, d i, kd⟩)) v j = v j) := by
  induction l with
  | nil => intro v; exact ⟨by simp, fun j _ => rfl⟩
  | cons a l ih =>
    intro v
    rw [List.nodup_cons] at hl
    rw [List.filter_cons]
    by_cases hp : p a = true
    · rw [if_pos hp, List.map_cons, runEvents_cons]
      obtain ⟨h1, h2⟩ := ih hl.2 (exec op v ⟨s a, d a, kd⟩)
      have hn : ∀ i ∈ l, p i = true → d i ≠ d a := by
        intro i hi hpi he
        have := hinj i a hpi hp he
        subst this; exact hl.1 hi
      refine ⟨?_, ?_⟩
      · intro i hi hpi
        rcases List.mem_cons.mp hi with rfl | hi
        · rw [h2 _ hn]; simp [exec, upd_same]
        · rw [h1 i hi hpi]
          simp only [exec]
          rw [upd_ne _ _ (hn i hi hpi), upd_ne _ _ (hdis i a hpi hp)]
      · intro j hj
        rw [h2 j (fun i hi => hj i (List.mem_cons_of_mem _ hi))]
        simp only [exec]
        rw [upd_ne _ _ (Ne.symm (hj a (by simp) hp))]
    · rw [if_neg hp]
      obtain ⟨h1, h2⟩ := ih hl.2 v
      refine ⟨?_, ?_⟩
      · intro i hi hpi
        rcases List.mem_cons.mp hi with rfl | hi
        · exact absurd hpi hp
        · exact h1 i hi hpi
      · intro j hj
        exact h2 j (fun i hi => hj i (List.mem_cons_of_mem _ hi))

theorem lower_iff {N k i : Nat} : lower N k i = true ↔ i % 2 ^ (k + 1) = 0 ∧ i + 2 ^ k < N := by
  simp [lower]

theorem run_reduceLevel (N k : Nat) (v : Nat → V) :
    (∀ i, lower N k i = true → runEvents op (reduceLevel N k) v i = op (v i) (v (i + 2 ^ k))) ∧
    (∀ i, lower N k i = false → runEvents op (reduceLevel N k) v i = v i) := by
  have hk := pow_pos' k
  obtain ⟨h1, h2⟩ := run_level (op := op) (lower N k) (fun r => r) (fun r => r + 2 ^ k) .merge
    (fun i j _ _ h => h)
    (fun i j hi hj he => by
      rw [lower_iff] at hi hj
      have h3 := mod_add_pow hi.1
      rw [he] at h3
      omega)
    (List.range N) List.nodup_range v
  refine ⟨fun i hi => h1 i ?_ hi, fun i hi => h2 i ?_⟩
  · have := lower_iff.mp hi; exact List.mem_range.mpr (by omega)
  · intro j _ hj he
    rw [he, hi] at hj; simp at hj

theorem run_bcastLevel (N k : Nat) (v : Nat → V) :
    (∀ i, lower N k i = true → runEvents op (bcastLevel N k) v (i + 2 ^ k) = v i) ∧
    (∀ j, (∀ i, lower N k i = true → i + 2 ^ k ≠ j) → runEvents op (bcastLevel N k) v j = v j) := by
  have hk := pow_pos' k
  obtain ⟨h1, h2⟩ := run_level (op := op) (lower N k) (fun r => r + 2 ^ k) (fun r => r) .assign
    (fun i j _ _ h => by omega)
    (fun i j hi hj he => by
      rw [lower_iff] at hi hj
      have h3 := mod_add_pow hj.1
      rw [← he] at h3
      omega)
    (List.range N) List.nodup_range v
  refine ⟨fun i hi => h1 i ?_ hi, fun j hj => h2 j ?_⟩
  · have := lower_iff.mp hi; exact List.mem_range.mpr (by omega)
  · intro i _ hi; exact hj i hi

theorem run_reduce (ha : ∀ x y z, op (op x y) z = op x (op y z)) (N : Nat) (v : Nat → V) (k : Nat) :
    ∀ r, r < N → r % 2 ^ k = 0 →
      runEvents op (reduceFrom N 0 k) v r = seg op v r (min (2 ^ k) (N - r) - 1) := by
  induction k with
  | zero =>
    intro r hr _
    rw [show min (2 ^ 0) (N - r) - 1 = 0 by simp; omega]
    rfl
  | succ k ih =>
    intro r hr hm
    have hpos := pow_pos' k
    have h2k : 2 ^ (k + 1) = 2 * 2 ^ k := by rw [Nat.pow_succ, Nat.mul_comm]
    have hmk : r % 2 ^ k = 0 := Nat.mod_eq_zero_of_dvd (dvd_of_mod_succ (Or.inl hm))
    rw [reduceFrom_succ', runEvents_append]
    obtain ⟨h1, h2⟩ := run_reduceLevel (op := op) N k (runEvents op (reduceFrom N 0 k) v)
    by_cases hlt : r + 2 ^ k < N
    · rw [h1 r (lower_iff.mpr ⟨hm, hlt⟩), ih r hr hmk, ih (r + 2 ^ k) hlt (by
        rw [Nat.add_mod_right]; exact hmk)]
      rw [show min (2 ^ k) (N - r) - 1 = 2 ^ k - 1 by omega,
        show seg op v (r + 2 ^ k) = seg op v (r + (2 ^ k - 1) + 1) by congr 1; omega,
        seg_append ha]
      congr 1
      omega
    · rw [h2 r (by
        cases h : lower N k r with
        | false => rfl
        | true => exact absurd (lower_iff.mp h).2 hlt), ih r hr hmk]
      congr 1
      omega

theorem run_bcast (N k : Nat) : ∀ (w : Nat → V) (x : V), (∀ r, r < N → r % 2 ^ k = 0 → w r = x) →
    ∀ r, r < N → runEvents op (bcastDown N k) w r = x := by
  induction k with
  | zero => intro w x h r hr; exact h r hr (by simp [Nat.mod_one])
  | succ k ih =>
    intro w x h r hr
    have hpos := pow_pos' k
    rw [bcastDown_succ, runEvents_append]
    refine ih _ x ?_ r hr
    intro q hq hm
    obtain ⟨h1, h2⟩ := run_bcastLevel (op := op) N k w
    rcases dvd_mod_succ (Nat.dvd_of_mod_eq_zero hm) with h0 | h0
    · rw [h2 q ?_]
      · exact h q hq h0
      · intro i hi he
        have := mod_add_pow (lower_iff.mp hi).1
        rw [he] at this; omega
    · obtain ⟨h3, h4⟩ := mod_sub_pow h0
      have := h1 (q - 2 ^ k) (lower_iff.mpr ⟨h3, by omega⟩)
      rw [Nat.sub_add_cancel h4] at this
      rw [this]
      exact h _ (by omega) h3

theorem run_allreduce (ha : ∀ x y z, op (op x y) z = op x (op y z)) (N : Nat) (hN : 0 < N)
    (v : Nat → V) (r : Nat) (hr : r < N) :
    runEvents op (allreduceEvents N) v r = seg op v 0 (N - 1) := by
  have hK := ceilLog2_spec N hN
  rw [allreduceEvents, runEvents_append]
  refine run_bcast N (ceilLog2 N) _ _ ?_ r hr
  intro q hq hm
  have hq0 : q = 0 := by rw [Nat.mod_eq_of_lt (by omega)] at hm; exact hm
  subst hq0
  rw [run_reduce ha N v _ 0 hN (by simp)]
  congr 1
  omega

/-! ### scan -/

theorem upper_iff {k i : Nat} : upper k i = true ↔ (i + 1) % 2 ^ (k + 1) = 0 := by simp [upper]

theorem run_upLevel (N k : Nat) (v : Nat → V) :
    (∀ i, i < N → upper k i = true → runEvents op (upLevel N k) v i = op (v i) (v (i - 2 ^ k))) ∧
    (∀ i, upper k i = false → runEvents op (upLevel N k) v i = v i) := by
  obtain ⟨h1, h2⟩ := run_level (op := op) (upper k) (fun r => r) (fun r => r - 2 ^ k) .merge
    (fun i j _ _ h => h)
    (fun i j hi hj he => by
      have := upper_shift' hi
      rw [he, hj] at this; simp at this)
    (List.range N) List.nodup_range v
  refine ⟨fun i hN hi => h1 i (List.mem_range.mpr hN) hi, fun i hi => h2 i ?_⟩
  intro j _ hj he
  rw [he, hi] at hj; simp at hj

theorem run_downLevel (N k : Nat) (v : Nat → V) :
    (∀ i, upper k i = true → i + 2 ^ k < N →
      runEvents op (downLevel N k) v (i + 2 ^ k) = op (v (i + 2 ^ k)) (v i)) ∧
    (∀ j, (∀ i, upper k i = true → i + 2 ^ k ≠ j) → runEvents op (downLevel N k) v j = v j) := by
  have hk := pow_pos' k
  obtain ⟨h1, h2⟩ := run_level (op := op) (fun r => upper k r && decide (r + 2 ^ k < N))
    (fun r => r + 2 ^ k) (fun r => r) .merge
    (fun i j _ _ h => by omega)
    (fun i j hi hj he => by
      simp only [Bool.and_eq_true, decide_eq_true_eq] at hi hj
      have := upper_shift hj.1
      rw [← he, hi.1] at this; simp at this)
    (List.range N) List.nodup_range v
  refine ⟨fun i hi hN => h1 i (List.mem_range.mpr (by omega)) (by simp [hi, hN]), fun j hj => h2 j ?_⟩
  intro i _ hi
  simp only [Bool.and_eq_true] at hi
  exact hj i hi.1

theorem mod_zero_down {x i k : Nat} (h : x % 2 ^ k = 0) (hi : i ≤ k) : x % 2 ^ i = 0 :=
  Nat.mod_eq_zero_of_dvd (Nat.dvd_trans (Nat.pow_dvd_pow 2 hi) (Nat.dvd_of_mod_eq_zero h))

theorem run_up (ha : ∀ x y z, op (op x y) z = op x (op y z)) (hc : ∀ x y, op x y = op y x)
    (N : Nat) (v : Nat → V) (k : Nat) :
    ∀ r i, r < N → i ≤ k → (r + 1) % 2 ^ i = 0 → (i < k → (r + 1) % 2 ^ (i + 1) ≠ 0) →
      runEvents op (upFrom N 0 k) v r = seg op v (r + 1 - 2 ^ i) (2 ^ i - 1) := by
  induction k with
  | zero =>
    intro r i hr hi _ _
    have : i = 0 := by omega
    subst this
    simp [upFrom, runEvents, seg]
  | succ k ih =>
    intro r i hr hi hm hlt
    have hpos := pow_pos' k
    rw [upFrom_succ', runEvents_append]
    obtain ⟨h1, h2⟩ := run_upLevel (op := op) N k (runEvents op (upFrom N 0 k) v)
    by_cases hik : i = k + 1
    · subst hik
      have hu : upper k r = true := upper_iff.mpr hm
      have hle := upper_le hu
      have h2k : 2 ^ (k + 1) = 2 * 2 ^ k := by rw [Nat.pow_succ, Nat.mul_comm]
      have hmk : (r + 1) % 2 ^ k = 0 := mod_zero_down hm (by omega)
      have hmk' : (r - 2 ^ k + 1) % 2 ^ k = 0 := by
        have : (r - 2 ^ k + 1 + 2 ^ k) % 2 ^ k = 0 := by
          rw [show r - 2 ^ k + 1 + 2 ^ k = r + 1 by omega]; exact hmk
        rwa [Nat.add_mod_right] at this
      rw [h1 r hr hu, ih r k hr (by omega) hmk (by omega),
        ih (r - 2 ^ k) k (by omega) (by omega) hmk' (by omega), hc]
      rw [show seg op v (r + 1 - 2 ^ k) = seg op v (r - 2 ^ k + 1 - 2 ^ k + (2 ^ k - 1) + 1) by
        congr 1; omega, seg_append ha]
      congr 1 <;> omega
    · have hn := hlt (by omega)
      rw [h2 r (by
        cases h : upper k r with
        | false => rfl
        | true =>
          exact absurd (mod_zero_down (upper_iff.mp h) (show i + 1 ≤ k + 1 by omega)) hn)]
      exact ih r i hr (by omega) hm (fun _ => hn)

theorem run_down (ha : ∀ x y z, op (op x y) z = op x (op y z)) (hc : ∀ x y, op x y = op y x)
    (N : Nat) (v : Nat → V) (k : Nat) :
    ∀ w : Nat → V,
      (∀ r, r < N → (r + 1) % 2 ^ k = 0 → w r = seg op v 0 r) →
      (∀ r i, r < N → i < k → (r + 1) % 2 ^ i = 0 → (r + 1) % 2 ^ (i + 1) ≠ 0 →
        w r = seg op v (r + 1 - 2 ^ i) (2 ^ i - 1)) →
      ∀ r, r < N → runEvents op (downFrom N k) w r = seg op v 0 r := by
  induction k with
  | zero => intro w h _ r hr; exact h r hr (by simp [Nat.mod_one])
  | succ k ih =>
    intro w h1 h2 r hr
    rw [downFrom_succ, runEvents_append]
    obtain ⟨g1, g2⟩ := run_downLevel (op := op) N k w
    have hpos := pow_pos' k
    refine ih _ ?_ ?_ r hr
    · intro q hq hm
      rcases dvd_mod_succ (Nat.dvd_of_mod_eq_zero hm) with h0 | h0
      · rw [g2 q ?_]
        · exact h1 q hq h0
        · intro i hi he
          have := upper_shift hi
          rw [he, upper_iff.mpr h0] at this; simp at this
      · obtain ⟨h3, h4⟩ := mod_sub_pow h0
        have hval := h2 q k hq (by omega) hm (by omega)
        by_cases hge : 2 ^ k ≤ q
        · have hu : upper k (q - 2 ^ k) = true := by
            rw [upper_iff, show q - 2 ^ k + 1 = q + 1 - 2 ^ k by omega]; exact h3
          have := g1 (q - 2 ^ k) hu (by omega)
          rw [Nat.sub_add_cancel hge] at this
          rw [this, hval, h1 (q - 2 ^ k) (by omega) (upper_iff.mp hu), hc,
            show q + 1 - 2 ^ k = 0 + (q - 2 ^ k) + 1 by omega, seg_append ha]
          congr 1; omega
        · rw [g2 q (by intro i _ he; omega), hval]
          congr 1 <;> omega
    · intro q i hq hi hm hn
      rw [g2 q ?_]
      · exact h2 q i hq (by omega) hm hn
      · intro j hj he
        have h5 := mod_add_pow (upper_iff.mp hj)
        rw [show j + 1 + 2 ^ k = q + 1 by omega] at h5
        exact hn (mod_zero_down (Nat.mod_eq_zero_of_dvd (dvd_of_mod_succ (Or.inr h5))) (by omega))

theorem run_scan (ha : ∀ x y z, op (op x y) z = op x (op y z)) (hc : ∀ x y, op x y = op y x)
    (N : Nat) (v : Nat → V) (r : Nat) (hr : r < N) :
    runEvents op (scanEvents N) v r = seg op v 0 r := by
  obtain ⟨hL1, hL2⟩ := floorLog2_spec N (by omega)
  rw [scanEvents, runEvents_append]
  refine run_down ha hc N v _ _ ?_ ?_ r hr
  · intro q hq hm
    rw [run_up ha hc N v _ q (floorLog2 N) hq (Nat.le_refl _) hm (by omega)]
    obtain ⟨m, hm'⟩ := Nat.dvd_of_mod_eq_zero hm
    have : m = 1 := by
      rw [Nat.pow_succ] at hL2
      have hpos := pow_pos' (floorLog2 N)
      have h1 : m < 2 := by
        apply Nat.lt_of_mul_lt_mul_left (a := 2 ^ floorLog2 N)
        omega
      have h0 : m ≠ 0 := by rintro rfl; simp at hm'
      omega
    subst this
    congr 1 <;> omega
  · intro q i hq hi hm hn
    exact run_up ha hc N v _ q i hq (by omega) hm (fun _ => hn)

/-! ### well-formedness of the event lists -/

theorem eventsOk_append {N : Nat} {A B : List Event} (hA : EventsOk N A) (hB : EventsOk N B) :
    EventsOk N (A ++ B) := by
  intro e he
  rcases List.mem_append.mp he with h | h
  · exact hA e h
  · exact hB e h

theorem eventsOk_flatMap {N : Nat} (l : List Nat) (f : Nat → List Event)
    (h : ∀ k, EventsOk N (f k)) : EventsOk N (l.flatMap f) := by
  intro e he
  obtain ⟨k, _, hk⟩ := List.mem_flatMap.mp he
  exact h k e hk

theorem eventsOk_allreduce (N : Nat) : EventsOk N (allreduceEvents N) := by
  apply eventsOk_append <;> apply eventsOk_flatMap <;> intro k e he <;>
    simp only [reduceLevel, bcastLevel, List.mem_map, List.mem_filter, List.mem_range] at he <;>
    obtain ⟨r, ⟨hr, hl⟩, rfl⟩ := he <;> have := lower_iff.mp hl <;> have := pow_pos' k <;>
    simp only <;> omega

theorem eventsOk_scan (N : Nat) : EventsOk N (scanEvents N) := by
  apply eventsOk_append <;> apply eventsOk_flatMap <;> intro k e he <;> have := pow_pos' k
  · simp only [upLevel, List.mem_map, List.mem_filter, List.mem_range] at he
    obtain ⟨r, ⟨hr, hl⟩, rfl⟩ := he
    have := upper_le hl
    rw [Nat.pow_succ] at this
    simp only; omega
  · simp only [downLevel, List.mem_map, List.mem_filter, List.mem_range, Bool.and_eq_true,
      decide_eq_true_eq] at he
    obtain ⟨r, ⟨hr, hl⟩, rfl⟩ := he
    simp only; omega

/-! ### fuel does not matter once the loop ends -/

theorem loop_mono {pat : Pattern} {kd : Kind} {N r : Nat} (f : Nat) :
    ∀ bit x, loop pat kd N r f bit = some x → ∀ g, f ≤ g → loop pat kd N r g bit = some x := by
  induction f with
  | zero =>
    intro bit x h g _
    simp only [loop] at h
    split at h
    · rename_i he; rw [loop_ended he]; exact h
    · simp at h
  | succ f ih =>
    intro bit x h g hg
    obtain ⟨g, rfl⟩ : ∃ g', g = g' + 1 := ⟨g - 1, by omega⟩
    unfold loop at h ⊢
    split at h
    · rename_i he; simp only [he, if_true]; exact h
    · rename_i he
      simp only [he] at h ⊢
      cases hl : loop pat kd N r f (pat.shift bit) with
      | none => rw [hl] at h; simp at h
      | some y =>
        rw [hl] at h
        rw [ih _ _ hl g (by omega)]
        exact h

theorem seqProg_mono {pa pb : Pattern} {ka kb : Kind} {N r f g : Nat} {x : Outcome (List Instr)}
    (h : seqProg (program pa ka N r f) (program pb kb N r f) = some x) (hg : f ≤ g) :
    seqProg (program pa ka N r g) (program pb kb N r g) = some x := by
  have key : ∀ (p : Pattern) (k : Kind) y, program p k N r f = some y → program p k N r g = some y := by
    intro p k y hy
    unfold program at hy ⊢
    cases hb : p.beginBit N r with
    | none => rw [hb] at hy; simp at hy
    | some b => rw [hb] at hy; exact loop_mono f b y hy g hg
  cases h1 : program pa ka N r f with
  | none => rw [h1] at h; simp [seqProg] at h
  | some y =>
    cases h2 : program pb kb N r f with
    | none => rw [h1, h2] at h; simp [seqProg] at h
    | some z =>
      rw [key _ _ _ h1, key _ _ _ h2]
      rw [h1, h2] at h
      exact h

end Verif.Pcu.Coll
