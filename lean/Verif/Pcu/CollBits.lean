import Verif.Pcu.CollNet
/-! Arithmetic of the bit tricks in `pcu_coll.c` and projection of event levels -/
namespace Verif.Pcu.Coll

theorem xor_one (m : Nat) : m ^^^ 1 = if m % 2 = 0 then m + 1 else m - 1 := by
  have h1 : (m ^^^ 1) / 2 = m / 2 := by rw [Nat.xor_div_two]; simp
  have h2 : (m ^^^ 1) % 2 = 1 ↔ ¬ m % 2 = 1 := by
    have := @Nat.xor_mod_two_eq_one m 1
    omega
  split <;> omega

theorem mul_xor (k m : Nat) : (2 ^ k * m) ^^^ 2 ^ k = 2 ^ k * (m ^^^ 1) := by
  have h := @Nat.shiftLeft_xor_distrib k m 1
  simp only [Nat.shiftLeft_eq, Nat.one_mul] at h
  rw [Nat.mul_comm (2 ^ k) m, Nat.mul_comm (2 ^ k) (m ^^^ 1), h]

theorem mul_and (k m : Nat) : 2 ^ k &&& (2 ^ k * m) = 2 ^ k * (m % 2) := by
  have h := @Nat.shiftLeft_and_distrib k m 1
  simp only [Nat.shiftLeft_eq, Nat.one_mul] at h
  rw [Nat.and_comm, Nat.mul_comm (2 ^ k) m, ← h, Nat.and_one_is_mod, Nat.mul_comm]

theorem pow_pos' (k : Nat) : 0 < 2 ^ k := Nat.pow_pos (by omega)

/-- multiples of `2^k` are even or odd multiples -/
theorem mul_mod_succ (k m : Nat) : (2 ^ k * m) % 2 ^ (k + 1) = 2 ^ k * (m % 2) := by
  rw [Nat.pow_succ, Nat.mul_mod_mul_left]

theorem dvd_mod_succ {k r : Nat} (h : 2 ^ k ∣ r) :
    r % 2 ^ (k + 1) = 0 ∨ r % 2 ^ (k + 1) = 2 ^ k := by
  obtain ⟨m, rfl⟩ := h
  rw [mul_mod_succ]
  rcases Nat.mod_two_eq_zero_or_one m with h | h <;> simp [h]

theorem dvd_of_mod_succ {k r : Nat}
    (h : r % 2 ^ (k + 1) = 0 ∨ r % 2 ^ (k + 1) = 2 ^ k) : 2 ^ k ∣ r := by
  have h1 : 2 ^ k ∣ 2 ^ (k + 1) := Nat.pow_dvd_pow 2 (by omega)
  have h2 := Nat.div_add_mod r (2 ^ (k + 1))
  rcases h with h | h
  · rw [← h2, h]; rw [Nat.add_zero]; exact Nat.dvd_mul_right_of_dvd h1 _
  · rw [← h2, h]; exact Nat.dvd_add (Nat.dvd_mul_right_of_dvd h1 _) (Nat.dvd_refl _)

theorem xor_even {k r : Nat} (h : r % 2 ^ (k + 1) = 0) : r ^^^ 2 ^ k = r + 2 ^ k := by
  obtain ⟨m, rfl⟩ := dvd_of_mod_succ (Or.inl h)
  rw [mul_mod_succ] at h
  have hm : m % 2 = 0 := by
    rcases Nat.mul_eq_zero.mp h with h | h
    · have := pow_pos' k; omega
    · exact h
  rw [mul_xor, xor_one, if_pos hm, Nat.mul_add, Nat.mul_one]

theorem xor_odd {k r : Nat} (h : r % 2 ^ (k + 1) = 2 ^ k) : r ^^^ 2 ^ k = r - 2 ^ k := by
  obtain ⟨m, rfl⟩ := dvd_of_mod_succ (Or.inr h)
  rw [mul_mod_succ] at h
  have hm : m % 2 = 1 := by
    rcases Nat.mod_two_eq_zero_or_one m with hm | hm
    · rw [hm] at h; have := pow_pos' k; omega
    · exact hm
  rw [mul_xor, xor_one, if_neg (by omega), Nat.mul_sub, Nat.mul_one]

theorem and_even {k r : Nat} (h : r % 2 ^ (k + 1) = 0) : 2 ^ k &&& r = 0 := by
  obtain ⟨m, rfl⟩ := dvd_of_mod_succ (Or.inl h)
  rw [mul_mod_succ] at h
  rw [mul_and]; exact h

theorem and_odd {k r : Nat} (h : r % 2 ^ (k + 1) = 2 ^ k) : 2 ^ k &&& r ≠ 0 := by
  obtain ⟨m, rfl⟩ := dvd_of_mod_succ (Or.inr h)
  rw [mul_mod_succ] at h
  rw [mul_and, h]
  have := pow_pos' k; omega

theorem mod_succ_add (k r : Nat) : r % 2 ^ (k + 1) = r % 2 ^ k ∨ r % 2 ^ (k + 1) = r % 2 ^ k + 2 ^ k := by
  have h := Nat.mod_pow_succ (x := r) (b := 2) (k := k)
  rcases Nat.mod_two_eq_zero_or_one (r / 2 ^ k) with h2 | h2
  · left; rw [h, h2]; simp
  · right; rw [h, h2]; simp

/-- lowest set bit -/
theorem exists_low {r : Nat} (h : r ≠ 0) : ∃ j, r % 2 ^ (j + 1) = 2 ^ j ∧ 2 ^ j ≤ r := by
  suffices ∀ n r, r < 2 ^ n → r ≠ 0 → ∃ j, r % 2 ^ (j + 1) = 2 ^ j ∧ 2 ^ j ≤ r from
    this r r Nat.lt_two_pow_self h
  intro n
  induction n with
  | zero => intro r h1 h2; simp at h1; omega
  | succ n ih =>
    intro r h1 h2
    by_cases hr : r % 2 = 0
    · obtain ⟨q, rfl⟩ := Nat.dvd_of_mod_eq_zero hr
      obtain ⟨j, hj, hle⟩ := ih q (by rw [Nat.pow_succ] at h1; omega) (by omega)
      refine ⟨j + 1, ?_, ?_⟩
      · rw [Nat.pow_succ 2 (j + 1), Nat.mul_comm (2 ^ (j + 1)) 2, Nat.mul_mod_mul_left, hj,
          Nat.pow_succ, Nat.mul_comm]
      · rw [Nat.pow_succ]; omega
    · exact ⟨0, by simp; omega, by simp; omega⟩

/-- below the lowest set bit all remainders vanish -/
theorem mod_zero_of_lt {r j i : Nat} (hj : r % 2 ^ (j + 1) = 2 ^ j) (hi : i ≤ j) : r % 2 ^ i = 0 := by
  have h1 : 2 ^ i ∣ 2 ^ (j + 1) := Nat.pow_dvd_pow 2 (by omega)
  rw [← Nat.mod_mod_of_dvd r h1, hj]
  exact Nat.mod_eq_zero_of_dvd (Nat.pow_dvd_pow 2 hi)

/-- above the lowest set bit the remainder is neither zero nor the level's power -/
theorem mod_ne_of_gt {r j i : Nat} (hj : r % 2 ^ (j + 1) = 2 ^ j) (hi : j < i) :
    r % 2 ^ (i + 1) ≠ 0 ∧ r % 2 ^ (i + 1) ≠ 2 ^ i := by
  have h1 : 2 ^ (j + 1) ∣ 2 ^ (i + 1) := Nat.pow_dvd_pow 2 (by omega)
  have h2 : 2 ^ (j + 1) ∣ 2 ^ i := Nat.pow_dvd_pow 2 (by omega)
  have h3 := Nat.mod_mod_of_dvd r h1
  have := pow_pos' j
  constructor
  · intro h; rw [h] at h3; simp at h3; omega
  · intro h; rw [h, Nat.mod_eq_zero_of_dvd h2] at h3; omega

/-- a `filterMap` over a range that can only hit one index -/
theorem filterMap_range_single {β : Type} (N c : Nat) (g : Nat → Option β)
    (h : ∀ i, i ≠ c → g i = none) :
    (List.range N).filterMap g = if c < N then (g c).toList else [] := by
  induction N with
  | zero => simp
  | succ N ih =>
    rw [List.range_succ, List.filterMap_append, ih]
    simp only [List.filterMap_cons, List.filterMap_nil]
    by_cases hc : c = N
    · subst hc
      simp
      cases g c <;> simp
    · rw [h N (Ne.symm hc)]
      by_cases h2 : c < N
      · simp [h2, Nat.lt_succ_of_lt h2]
      · simp [h2, show ¬ c < N + 1 by omega]

theorem filterMap_range_none {β : Type} (N : Nat) (g : Nat → Option β)
    (h : ∀ i, i < N → g i = none) : (List.range N).filterMap g = [] := by
  rw [List.filterMap_eq_nil_iff]
  intro i hi
  exact h i (List.mem_range.mp hi)

/-- one level of a tree pattern: the lower partner of each pair -/
def lower (N k r : Nat) : Bool := decide (r % 2 ^ (k + 1) = 0) && decide (r + 2 ^ k < N)

/-- events of level `k` of `reduce`: the upper partner sends to the lower one -/
def reduceLevel (N k : Nat) : List Event :=
  ((List.range N).filter (lower N k)).map (fun r => ⟨r + 2 ^ k, r, .merge⟩)

/-- events of level `k` of `bcast`: the lower partner sends to the upper one -/
def bcastLevel (N k : Nat) : List Event :=
  ((List.range N).filter (lower N k)).map (fun r => ⟨r, r + 2 ^ k, .assign⟩)

theorem proj_map_filter (r : Nat) (p : Nat → Bool) (f : Nat → Event) (l : List Nat) :
    proj r ((l.filter p).map f) = l.filterMap (fun i => if p i then (f i).instr r else none) := by
  induction l with
  | nil => rfl
  | cons a l ih =>
    rw [List.filter_cons]
    by_cases h : p a = true
    · rw [if_pos h, List.map_cons, proj_cons, ih, List.filterMap_cons]
      simp only [h, if_true]
      cases (f a).instr r <;> simp
    · rw [if_neg h, ih, List.filterMap_cons]
      simp [h]

theorem mod_sub_pow {r k : Nat} (h : r % 2 ^ (k + 1) = 2 ^ k) :
    (r - 2 ^ k) % 2 ^ (k + 1) = 0 ∧ 2 ^ k ≤ r := by
  have h2 := Nat.div_add_mod r (2 ^ (k + 1))
  have hle : 2 ^ k ≤ r := by
    have := Nat.mod_le r (2 ^ (k + 1)); omega
  refine ⟨?_, hle⟩
  have : r - 2 ^ k = 2 ^ (k + 1) * (r / 2 ^ (k + 1)) := by omega
  rw [this]; simp

theorem mod_add_pow {r k : Nat} (h : r % 2 ^ (k + 1) = 0) : (r + 2 ^ k) % 2 ^ (k + 1) = 2 ^ k := by
  obtain ⟨q, rfl⟩ := Nat.dvd_of_mod_eq_zero h
  rw [Nat.mul_add_mod, Nat.mod_eq_of_lt]
  rw [Nat.pow_succ]; have := pow_pos' k; omega

theorem proj_reduceLevel {N k r : Nat} (hr : r < N) :
    proj r (reduceLevel N k) =
      if r % 2 ^ (k + 1) = 0 then (if r + 2 ^ k < N then [.recv (r + 2 ^ k) .merge] else [])
      else if r % 2 ^ (k + 1) = 2 ^ k then [.send (r - 2 ^ k)] else [] := by
  have hk := pow_pos' k
  rw [reduceLevel, proj_map_filter]
  by_cases h0 : r % 2 ^ (k + 1) = 0
  · rw [if_pos h0, filterMap_range_single N r]
    · rw [if_pos hr]
      simp only [lower, h0, Event.instr]
      by_cases h2 : r + 2 ^ k < N <;> simp [h2]
    · intro i hi
      simp only [Event.instr]
      by_cases hl : lower N k i = true
      · have hi2 : ¬ (i + 2 ^ k = r) := by
          rintro rfl
          simp [lower] at hl
          rw [mod_add_pow hl.1] at h0; omega
        simp [hi, hi2]
      · simp [hl]
  · rw [if_neg h0]
    by_cases h1 : r % 2 ^ (k + 1) = 2 ^ k
    · obtain ⟨hm, hle⟩ := mod_sub_pow h1
      rw [if_pos h1, filterMap_range_single N (r - 2 ^ k)]
      · rw [if_pos (by omega)]
        have : lower N k (r - 2 ^ k) = true := by
          simp [lower, hm]; omega
        simp [this, Event.instr, Nat.sub_add_cancel hle]
      · intro i hi
        by_cases hl : lower N k i = true
        · simp [lower] at hl
          have h2 : ¬ (i + 2 ^ k = r) := by omega
          have h3 : ¬ (i = r) := by
            rintro rfl; exact h0 hl.1
          simp [Event.instr, h2, h3]
        · simp [hl]
    · rw [if_neg h1]
      apply filterMap_range_none
      intro i _
      by_cases hl : lower N k i = true
      · simp [lower] at hl
        have h2 : ¬ (i + 2 ^ k = r) := by
          rintro rfl; exact h1 (mod_add_pow hl.1)
        have h3 : ¬ (i = r) := by
          rintro rfl; exact h0 hl.1
        simp [Event.instr, h2, h3]
      · simp [hl]

theorem proj_bcastLevel {N k r : Nat} (hr : r < N) :
    proj r (bcastLevel N k) =
      if r % 2 ^ (k + 1) = 0 then (if r + 2 ^ k < N then [.send (r + 2 ^ k)] else [])
      else if r % 2 ^ (k + 1) = 2 ^ k then [.recv (r - 2 ^ k) .assign] else [] := by
  have hk := pow_pos' k
  rw [bcastLevel, proj_map_filter]
  by_cases h0 : r % 2 ^ (k + 1) = 0
  · rw [if_pos h0, filterMap_range_single N r]
    · rw [if_pos hr]
      simp only [lower, h0, Event.instr]
      by_cases h2 : r + 2 ^ k < N <;> simp [h2]
    · intro i hi
      simp only [Event.instr]
      by_cases hl : lower N k i = true
      · have hi2 : ¬ (i + 2 ^ k = r) := by
          rintro rfl
          simp [lower] at hl
          rw [mod_add_pow hl.1] at h0; omega
        simp [hi, hi2]
      · simp [hl]
  · rw [if_neg h0]
    by_cases h1 : r % 2 ^ (k + 1) = 2 ^ k
    · obtain ⟨hm, hle⟩ := mod_sub_pow h1
      rw [if_pos h1, filterMap_range_single N (r - 2 ^ k)]
      · rw [if_pos (by omega)]
        have : lower N k (r - 2 ^ k) = true := by
          simp [lower, hm]; omega
        have h5 : ¬ (r - 2 ^ k = r) := by omega
        simp [this, Event.instr, Nat.sub_add_cancel hle, h5]
      · intro i hi
        by_cases hl : lower N k i = true
        · simp [lower] at hl
          have h2 : ¬ (i + 2 ^ k = r) := by omega
          have h3 : ¬ (i = r) := by
            rintro rfl; exact h0 hl.1
          simp [Event.instr, h2, h3]
        · simp [hl]
    · rw [if_neg h1]
      apply filterMap_range_none
      intro i _
      by_cases hl : lower N k i = true
      · simp [lower] at hl
        have h2 : ¬ (i + 2 ^ k = r) := by
          rintro rfl; exact h1 (mod_add_pow hl.1)
        have h3 : ¬ (i = r) := by
          rintro rfl; exact h0 hl.1
        simp [Event.instr, h2, h3]
      · simp [hl]

theorem floorLog2_spec (n : Nat) (h : 0 < n) : 2 ^ floorLog2 n ≤ n ∧ n < 2 ^ (floorLog2 n + 1) := by
  induction n using floorLog2.induct with
  | case1 n h0 => unfold floorLog2; simp [h0]; omega
  | case2 n h0 ih =>
    unfold floorLog2
    rw [dif_neg h0]
    have := ih (by omega)
    rw [Nat.pow_succ] at *
    rw [Nat.pow_succ] at *
    omega

theorem ceilLog2_spec (n : Nat) (h : 0 < n) : n ≤ 2 ^ ceilLog2 n := by
  obtain ⟨h1, h2⟩ := floorLog2_spec n h
  simp only [ceilLog2, Nat.shiftLeft_eq, Nat.one_mul]
  split
  · omega
  · omega

end Verif.Pcu.Coll
