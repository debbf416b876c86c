import Verif.Pcu.CollBits
/-! The rank programs of `pcu_coll.c` are projections of global event lists -/
namespace Verif.Pcu.Coll

/-- events of the levels `k, k+1, …, k+d-1` of `reduce` -/
def reduceFrom (N k d : Nat) : List Event := (List.range' k d).flatMap (reduceLevel N)

/-- events of the levels `k-1, …, 0` of `bcast` -/
def bcastDown (N k : Nat) : List Event := (List.range k).reverse.flatMap (bcastLevel N)

theorem reduceFrom_succ (N k d : Nat) :
    reduceFrom N k (d + 1) = reduceLevel N k ++ reduceFrom N (k + 1) d := by
  simp [reduceFrom, List.range'_succ]

theorem bcastDown_succ (N k : Nat) : bcastDown N (k + 1) = bcastLevel N k ++ bcastDown N k := by
  simp [bcastDown, List.range_succ]

theorem shl_one (k : Nat) : 2 ^ k <<< 1 = 2 ^ (k + 1) := by
  simp [Nat.shiftLeft_eq, Nat.pow_succ]

theorem shr_one (k : Nat) : 2 ^ (k + 1) >>> 1 = 2 ^ k := by
  simp [Nat.shiftRight_eq_div_pow, Nat.pow_succ]

theorem pow_le_pow' {i j : Nat} (h : i ≤ j) : 2 ^ i ≤ 2 ^ j := Nat.pow_le_pow_right (by omega) h

/-- after a rank has sent its partial result it takes no further part in `reduce` -/
theorem proj_reduceFrom_done {N r j : Nat} (hr : r < N) (hj : r % 2 ^ (j + 1) = 2 ^ j) (d : Nat) :
    ∀ k, j < k → proj r (reduceFrom N k d) = [] := by
  induction d with
  | zero => intro k _; rfl
  | succ d ih =>
    intro k hk
    obtain ⟨h1, h2⟩ := mod_ne_of_gt hj hk
    rw [reduceFrom_succ, proj_append, proj_reduceLevel hr, if_neg h1, if_neg h2, ih (k + 1) (by omega)]
    rfl

theorem proj_reduceFrom_zero {N : Nat} (hN : 0 < N) (d : Nat) :
    ∀ k, N ≤ 2 ^ k → proj 0 (reduceFrom N k d) = [] := by
  induction d with
  | zero => intro k _; rfl
  | succ d ih =>
    intro k hk
    have := pow_le_pow' (show k ≤ k + 1 by omega)
    rw [reduceFrom_succ, proj_append, proj_reduceLevel hN, ih (k + 1) (by omega)]
    simp; omega

theorem loop_ended {pat : Pattern} {k : Kind} {N r f bit : Nat} (h : pat.endBit N r bit = true) :
    loop pat k N r f bit = some (.ok []) := by
  cases f <;> simp [loop, h]

theorem loop_next {pat : Pattern} {kd : Kind} {N r f bit bit' : Nat} {i rest : List Instr}
    (h : pat.endBit N r bit = false) (hs : pat.shift bit = bit')
    (hn : loop pat kd N r f bit' = some (.ok rest)) (hi : instr pat kd N r bit = .ok i) :
    loop pat kd N r (f + 1) bit = some (.ok (i ++ rest)) := by
  unfold loop
  rw [h, hs, hn, hi]
  rfl

theorem checkRank_ok {N p : Nat} (h : p < N) : checkRank N (p : Int) = .ok p := by
  unfold checkRank
  rw [if_pos (by omega)]
  rfl

theorem instr_reduce {N r k : Nat} (hr : r < N)
    (hm : r % 2 ^ (k + 1) = 0 ∨ r % 2 ^ (k + 1) = 2 ^ k) :
    instr reduce .merge N r (2 ^ k) = .ok (proj r (reduceLevel N k)) := by
  have hpos := pow_pos' k
  rw [proj_reduceLevel hr]
  rcases hm with h0 | h1
  · rw [if_pos h0]
    by_cases hlt : r + 2 ^ k < N
    · simp only [instr, reduce, xor_even h0, and_even h0, checkRank_ok hlt]
      rw [if_neg (by omega), if_pos hlt]
      rfl
    · simp only [instr, reduce, xor_even h0]
      rw [if_pos (by omega), if_neg hlt]
  · have hle := (mod_sub_pow h1).2
    rw [if_neg (by omega), if_pos h1]
    simp only [instr, reduce, xor_odd h1, checkRank_ok (show r - 2 ^ k < N by omega)]
    rw [if_neg (by omega), if_pos (and_odd h1)]
    rfl

theorem instr_bcast {N r k : Nat} (hr : r < N)
    (hm : r % 2 ^ (k + 1) = 0 ∨ r % 2 ^ (k + 1) = 2 ^ k) :
    instr bcast .assign N r (2 ^ k) = .ok (proj r (bcastLevel N k)) := by
  have hpos := pow_pos' k
  rw [proj_bcastLevel hr]
  rcases hm with h0 | h1
  · rw [if_pos h0]
    by_cases hlt : r + 2 ^ k < N
    · simp only [instr, bcast, xor_even h0, and_even h0, checkRank_ok hlt]
      rw [if_neg (by omega), if_pos hlt]
      rfl
    · simp only [instr, bcast, xor_even h0]
      rw [if_pos (by omega), if_neg hlt]
  · have hle := (mod_sub_pow h1).2
    rw [if_neg (by omega), if_pos h1]
    simp only [instr, bcast, xor_odd h1, checkRank_ok (show r - 2 ^ k < N by omega)]
    rw [if_neg (by omega), if_pos (and_odd h1)]
    rfl

theorem loop_reduce {N r : Nat} (hr : r < N) (K : Nat) (hK : N ≤ 2 ^ K) (d : Nat) :
    ∀ k f, k + d = K → d ≤ f → r % 2 ^ k = 0 →
      loop reduce .merge N r f (2 ^ k) = some (.ok (proj r (reduceFrom N k d))) := by
  induction d with
  | zero =>
    intro k f hk hf hm
    have hkK : k = K := by omega
    subst hkK
    have hr0 : r = 0 := by
      rw [Nat.mod_eq_of_lt (by omega)] at hm; exact hm
    subst hr0
    exact loop_ended (by simp [reduce, hK])
  | succ d ih =>
    intro k f hk hf hm
    obtain ⟨f, rfl⟩ : ∃ g, f = g + 1 := ⟨f - 1, by omega⟩
    have h2 : reduce.shift (2 ^ k) = 2 ^ (k + 1) := by simp [reduce, shl_one]
    have hcase := dvd_mod_succ (Nat.dvd_of_mod_eq_zero hm)
    by_cases hr0 : r = 0
    · subst hr0
      by_cases hend : N ≤ 2 ^ k
      · rw [proj_reduceFrom_zero hr _ _ hend]
        exact loop_ended (by simp [reduce, hend])
      · rw [reduceFrom_succ, proj_append]
        exact loop_next (by simp [reduce]; omega) h2 (ih (k + 1) f (by omega) (by omega) (by simp))
          (instr_reduce hr hcase)
    · have hend : reduce.endBit N r (2 ^ k) = false := by
        cases k with
        | zero => simp [reduce, hr0]
        | succ k => simp [reduce, hr0, shr_one, and_even hm]
      rw [reduceFrom_succ, proj_append]
      refine loop_next hend h2 ?_ (instr_reduce hr hcase)
      rcases hcase with h0 | h1
      · exact ih (k + 1) f (by omega) (by omega) h0
      · rw [proj_reduceFrom_done hr h1 d (k + 1) (by omega)]
        exact loop_ended (by simp [reduce, hr0, shr_one, and_odd h1])

theorem program_reduce {N r : Nat} (hr : r < N) (K f : Nat) (hK : N ≤ 2 ^ K) (hf : K ≤ f) :
    program reduce .merge N r f = some (.ok (proj r (reduceFrom N 0 K))) := by
  have := loop_reduce hr K hK K 0 f (by omega) hf (by simp [Nat.mod_one])
  simpa [program, reduce] using this

theorem loop_bcast {N r : Nat} (hr : r < N) (k : Nat) :
    ∀ f, k + 1 ≤ f → (r % 2 ^ (k + 1) = 0 ∨ r % 2 ^ (k + 1) = 2 ^ k) →
      loop bcast .assign N r f (2 ^ k) = some (.ok (proj r (bcastDown N (k + 1)))) := by
  induction k with
  | zero =>
    intro f hf hm
    obtain ⟨f, rfl⟩ : ∃ g, f = g + 1 := ⟨f - 1, by omega⟩
    rw [bcastDown_succ, proj_append]
    exact loop_next (bit' := 0) (by simp [bcast]) (by simp [bcast]) (loop_ended (by simp [bcast]))
      (instr_bcast hr hm)
  | succ k ih =>
    intro f hf hm
    obtain ⟨f, rfl⟩ : ∃ g, f = g + 1 := ⟨f - 1, by omega⟩
    rw [bcastDown_succ, proj_append]
    exact loop_next (bit' := 2 ^ k) (by simp [bcast]) (by simp [bcast, shr_one])
      (ih f (by omega) (Or.inl (Nat.mod_eq_zero_of_dvd (dvd_of_mod_succ hm)))) (instr_bcast hr hm)

theorem lowBit_spec {r j : Nat} (hj : r % 2 ^ (j + 1) = 2 ^ j) (d : Nat) :
    ∀ i f, i + d = j → d + 1 ≤ f → lowBit r f (2 ^ i) = some (2 ^ j) := by
  induction d with
  | zero =>
    intro i f hi hf
    obtain ⟨f, rfl⟩ : ∃ g, f = g + 1 := ⟨f - 1, by omega⟩
    have : i = j := by omega
    subst this
    simp [lowBit, and_odd hj]
  | succ d ih =>
    intro i f hi hf
    obtain ⟨f, rfl⟩ : ∃ g, f = g + 1 := ⟨f - 1, by omega⟩
    have h0 : r % 2 ^ (i + 1) = 0 := mod_zero_of_lt hj (by omega)
    unfold lowBit
    rw [and_even h0]
    simp only [ne_eq, not_true_eq_false, if_false, shl_one]
    exact ih (i + 1) f (by omega) (by omega)

/-- levels above the lowest set bit do not concern a rank -/
theorem proj_bcastDown_above {N r j : Nat} (hr : r < N) (hj : r % 2 ^ (j + 1) = 2 ^ j) (d : Nat) :
    proj r (bcastDown N (j + 1 + d)) = proj r (bcastDown N (j + 1)) := by
  induction d with
  | zero => rfl
  | succ d ih =>
    obtain ⟨h1, h2⟩ := mod_ne_of_gt hj (show j < j + 1 + d by omega)
    rw [← Nat.add_assoc, bcastDown_succ, proj_append, proj_bcastLevel hr, if_neg h1, if_neg h2, ih]
    rfl

theorem program_bcast {N r : Nat} (hr : r < N) (f : Nat) (hf : ceilLog2 N + 1 ≤ f) :
    program bcast .assign N r f = some (.ok (proj r (bcastDown N (ceilLog2 N)))) := by
  have hK := ceilLog2_spec N (by omega)
  unfold program
  by_cases hr0 : r = 0
  · subst hr0
    have hb : bcast.beginBit N 0 = some (2 ^ ceilLog2 N) := by
      simp [bcast, Nat.shiftLeft_eq]
    rw [hb]
    simp only
    rw [loop_bcast hr _ f hf (by simp), bcastDown_succ, proj_append, proj_bcastLevel hr]
    simp
    omega
  · obtain ⟨j, hj, hle⟩ := exists_low hr0
    have hjN : j < N := by
      have := @Nat.lt_two_pow_self j
      omega
    have hjK : j < ceilLog2 N := by
      apply Nat.lt_of_not_le
      intro h
      have := pow_le_pow' h
      omega
    have hb : bcast.beginBit N r = some (2 ^ j) := by
      simp only [bcast, hr0, if_false]
      exact lowBit_spec hj j 0 N (by omega) (by omega)
    rw [hb]
    simp only
    rw [loop_bcast hr _ f (by omega) (Or.inr hj)]
    have := proj_bcastDown_above hr hj (ceilLog2 N - (j + 1))
    rw [show j + 1 + (ceilLog2 N - (j + 1)) = ceilLog2 N by omega] at this
    rw [this]

/-- all communication events of `pcu_allreduce` -/
def allreduceEvents (N : Nat) : List Event :=
  reduceFrom N 0 (ceilLog2 N) ++ bcastDown N (ceilLog2 N)

theorem program_allreduce {N r : Nat} (hr : r < N) (f : Nat) (hf : ceilLog2 N + 1 ≤ f) :
    allreduceProg N r f = some (.ok (proj r (allreduceEvents N))) := by
  unfold allreduceProg
  rw [program_reduce hr (ceilLog2 N) f (ceilLog2_spec N (by omega)) (by omega),
    program_bcast hr f hf, allreduceEvents, proj_append]
  rfl

end Verif.Pcu.Coll
