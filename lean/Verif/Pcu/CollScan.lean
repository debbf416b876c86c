import Verif.Pcu.CollPatterns
/-! `scan_up` and `scan_down` as event lists -/
namespace Verif.Pcu.Coll

/-- upper partner at level `k` of the scan tree -/
def upper (k r : Nat) : Bool := decide ((r + 1) % 2 ^ (k + 1) = 0)

/-- level `k` of `scan_up`: the lower partner sends to the upper one -/
def upLevel (N k : Nat) : List Event :=
  ((List.range N).filter (upper k)).map (fun r => ⟨r - 2 ^ k, r, .merge⟩)

/-- level `k` of `scan_down` (loop bit `2^(k+1)`) -/
def downLevel (N k : Nat) : List Event :=
  ((List.range N).filter (fun r => upper k r && decide (r + 2 ^ k < N))).map
    (fun r => ⟨r, r + 2 ^ k, .merge⟩)

theorem and_mask (k r : Nat) : (r &&& (2 ^ (k + 1) - 1) = 2 ^ (k + 1) - 1) ↔ (r + 1) % 2 ^ (k + 1) = 0 := by
  rw [Nat.and_two_pow_sub_one_eq_mod]
  have hpos := pow_pos' (k + 1)
  have h := Nat.add_mod r 1 (2 ^ (k + 1))
  have hlt := Nat.mod_lt r hpos
  have h1 : 1 % 2 ^ (k + 1) = 1 := Nat.mod_eq_of_lt (by rw [Nat.pow_succ]; have := pow_pos' k; omega)
  rw [h1] at h
  constructor
  · intro he
    rw [he] at h
    rw [h, show 2 ^ (k + 1) - 1 + 1 = 2 ^ (k + 1) by omega, Nat.mod_self]
  · intro he
    rw [he] at h
    by_cases hc : r % 2 ^ (k + 1) + 1 < 2 ^ (k + 1)
    · rw [Nat.mod_eq_of_lt hc] at h; omega
    · omega

theorem upCouldReceive_eq (k r : Nat) : upCouldReceive r (2 ^ k) = upper k r := by
  simp only [upCouldReceive, upper, shl_one, and_mask]

theorem downCouldSend_eq (k r : Nat) : downCouldSend r (2 ^ (k + 1)) = upper k r := by
  simp only [downCouldSend, upper, and_mask]

theorem upper_le {k r : Nat} (h : upper k r = true) : 2 ^ (k + 1) ≤ r + 1 := by
  simp only [upper, decide_eq_true_eq] at h
  exact Nat.le_of_dvd (by omega) (Nat.dvd_of_mod_eq_zero h)

theorem upper_shift {k r : Nat} (h : upper k r = true) : upper k (r + 2 ^ k) = false := by
  simp only [upper, decide_eq_true_eq, decide_eq_false_iff_not] at *
  rw [show r + 2 ^ k + 1 = (r + 1) + 2 ^ k by omega, mod_add_pow h]
  have := pow_pos' k; omega

theorem upper_shift' {k r : Nat} (h : upper k r = true) : upper k (r - 2 ^ k) = false := by
  have hle := upper_le h
  have hpos := pow_pos' k
  rw [Nat.pow_succ] at hle
  cases hu : upper k (r - 2 ^ k) with
  | false => rfl
  | true =>
    have := upper_shift hu
    rw [Nat.sub_add_cancel (by omega), h] at this
    exact absurd this (by simp)

theorem proj_upLevel {N k r : Nat} (hr : r < N) :
    proj r (upLevel N k) =
      if upper k r then [.recv (r - 2 ^ k) .merge]
      else if r + 2 ^ k < N ∧ upper k (r + 2 ^ k) then [.send (r + 2 ^ k)] else [] := by
  have hk := pow_pos' k
  rw [upLevel, proj_map_filter]
  by_cases h0 : upper k r = true
  · have hle := upper_le h0
    rw [Nat.pow_succ] at hle
    rw [if_pos h0, filterMap_range_single N r]
    · rw [if_pos hr]
      simp only [h0, Event.instr, if_true]
      rw [if_neg (by omega)]
      rfl
    · intro i hi
      by_cases hl : upper k i = true
      · have h1 : ¬ (i - 2 ^ k = r) := by
          intro h
          have := upper_shift' hl
          rw [h, h0] at this; exact absurd this (by simp)
        simp [Event.instr, hi, h1]
      · simp [hl]
  · rw [if_neg h0]
    by_cases h1 : r + 2 ^ k < N ∧ upper k (r + 2 ^ k) = true
    · rw [if_pos h1, filterMap_range_single N (r + 2 ^ k)]
      · rw [if_pos h1.1]
        simp [h1.2, Event.instr]
      · intro i hi
        by_cases hl : upper k i = true
        · have hle := upper_le hl
          rw [Nat.pow_succ] at hle
          have h2 : ¬ (i - 2 ^ k = r) := by omega
          have h3 : ¬ (i = r) := by rintro rfl; exact h0 hl
          simp [Event.instr, h2, h3]
        · simp [hl]
    · rw [if_neg h1]
      apply filterMap_range_none
      intro i hiN
      by_cases hl : upper k i = true
      · have hle := upper_le hl
        rw [Nat.pow_succ] at hle
        have h2 : ¬ (i - 2 ^ k = r) := by
          intro h
          apply h1
          rw [show r + 2 ^ k = i by omega]
          exact ⟨hiN, hl⟩
        have h3 : ¬ (i = r) := by rintro rfl; exact h0 hl
        simp [Event.instr, h2, h3]
      · simp [hl]

theorem proj_downLevel {N k r : Nat} (hr : r < N) :
    proj r (downLevel N k) =
      if upper k r then (if r + 2 ^ k < N then [.send (r + 2 ^ k)] else [])
      else if 2 ^ k ≤ r ∧ upper k (r - 2 ^ k) then [.recv (r - 2 ^ k) .merge] else [] := by
  have hk := pow_pos' k
  rw [downLevel, proj_map_filter]
  by_cases h0 : upper k r = true
  · rw [if_pos h0, filterMap_range_single N r]
    · rw [if_pos hr]
      simp only [h0, Event.instr, if_true, Bool.true_and]
      by_cases h2 : r + 2 ^ k < N <;> simp [h2]
    · intro i hi
      by_cases hl : upper k i = true
      · have h1 : ¬ (i + 2 ^ k = r) := by
          intro h
          have := upper_shift hl
          rw [h, h0] at this; exact absurd this (by simp)
        simp [Event.instr, hi, h1]
      · simp [hl]
  · rw [if_neg h0]
    by_cases h1 : 2 ^ k ≤ r ∧ upper k (r - 2 ^ k) = true
    · rw [if_pos h1, filterMap_range_single N (r - 2 ^ k)]
      · rw [if_pos (by omega)]
        have : r - 2 ^ k + 2 ^ k = r := by omega
        have h5 : ¬ (r - 2 ^ k = r) := by omega
        simp [h1.2, Event.instr, this, hr, h5]
      · intro i hi
        by_cases hl : upper k i = true
        · have h2 : ¬ (i + 2 ^ k = r) := by omega
          have h3 : ¬ (i = r) := by rintro rfl; exact h0 hl
          simp [Event.instr, h2, h3]
        · simp [hl]
    · rw [if_neg h1]
      apply filterMap_range_none
      intro i hiN
      by_cases hl : upper k i = true
      · have h2 : ¬ (i + 2 ^ k = r) := by
          rintro rfl
          apply h1
          rw [Nat.add_sub_cancel]
          exact ⟨by omega, hl⟩
        have h3 : ¬ (i = r) := by rintro rfl; exact h0 hl
        simp [Event.instr, h2, h3]
      · simp [hl]

theorem instr_send {pat : Pattern} {kd : Kind} {N r bit p : Nat} (ha : pat.action N r bit = .send)
    (hp : pat.peer N r bit = (p : Int)) (h : p < N) : instr pat kd N r bit = .ok [.send p] := by
  simp only [instr, ha, hp, checkRank_ok h]; rfl

theorem instr_recv {pat : Pattern} {kd : Kind} {N r bit p : Nat} (ha : pat.action N r bit = .recv)
    (hp : pat.peer N r bit = (p : Int)) (h : p < N) : instr pat kd N r bit = .ok [.recv p kd] := by
  simp only [instr, ha, hp, checkRank_ok h]; rfl

theorem instr_idle {pat : Pattern} {kd : Kind} {N r bit : Nat} (ha : pat.action N r bit = .idle) :
    instr pat kd N r bit = .ok [] := by
  simp only [instr, ha]

theorem instr_scanUp {N r k : Nat} (hr : r < N) :
    instr scanUp .merge N r (2 ^ k) = .ok (proj r (upLevel N k)) := by
  have hpos := pow_pos' k
  rw [proj_upLevel hr]
  by_cases h0 : upper k r = true
  · have hle := upper_le h0
    rw [Nat.pow_succ] at hle
    have hc : upCouldReceive r (2 ^ k) = true ∧ 0 ≤ (r : Int) - ((2 ^ k : Nat) : Int) :=
      ⟨by rw [upCouldReceive_eq]; exact h0, by omega⟩
    rw [if_pos h0]
    refine instr_recv ?_ ?_ (show r - 2 ^ k < N by omega)
    · simp only [scanUp]; rw [if_pos hc]
    · simp only [scanUp]; rw [if_pos hc]; omega
  · have hc : ¬ (upCouldReceive r (2 ^ k) = true ∧ 0 ≤ (r : Int) - ((2 ^ k : Nat) : Int)) := by
      rw [upCouldReceive_eq]; exact fun h => h0 h.1
    rw [if_neg h0]
    by_cases h1 : r + 2 ^ k < N ∧ upper k (r + 2 ^ k) = true
    · have hd : r + 2 ^ k < N ∧ upCouldReceive (r + 2 ^ k) (2 ^ k) = true := by
        rw [upCouldReceive_eq]; exact h1
      rw [if_pos h1]
      refine instr_send ?_ ?_ h1.1
      · simp only [scanUp]; rw [if_neg hc, if_pos hd]
      · simp only [scanUp]; rw [if_neg hc, if_pos hd]
    · have hd : ¬ (r + 2 ^ k < N ∧ upCouldReceive (r + 2 ^ k) (2 ^ k) = true) := by
        rw [upCouldReceive_eq]; exact h1
      rw [if_neg h1]
      refine instr_idle ?_
      simp only [scanUp]; rw [if_neg hc, if_neg hd]

theorem instr_scanDown {N r k : Nat} (hr : r < N) :
    instr scanDown .merge N r (2 ^ (k + 1)) = .ok (proj r (downLevel N k)) := by
  have hpos := pow_pos' k
  rw [proj_downLevel hr]
  by_cases h0 : upper k r = true
  · rw [if_pos h0]
    by_cases h1 : r + 2 ^ k < N
    · have hc : downCouldSend r (2 ^ (k + 1)) = true ∧ r + (2 ^ (k + 1) >>> 1) < N := by
        rw [downCouldSend_eq, shr_one]; exact ⟨h0, h1⟩
      rw [if_pos h1]
      refine instr_send ?_ ?_ h1
      · simp only [scanDown]; rw [if_pos hc]
      · simp only [scanDown]; rw [if_pos hc, shr_one]
    · have hc : ¬ (downCouldSend r (2 ^ (k + 1)) = true ∧ r + (2 ^ (k + 1) >>> 1) < N) := by
        rw [shr_one]; exact fun h => h1 h.2
      have hd : ¬ (0 ≤ (r : Int) - ((2 ^ (k + 1) >>> 1 : Nat) : Int) ∧
          downCouldSend (r - (2 ^ (k + 1) >>> 1)) (2 ^ (k + 1)) = true) := by
        rw [shr_one, downCouldSend_eq, upper_shift' h0]; simp
      rw [if_neg h1]
      refine instr_idle ?_
      simp only [scanDown]; rw [if_neg hc, if_neg hd]
  · have hc : ¬ (downCouldSend r (2 ^ (k + 1)) = true ∧ r + (2 ^ (k + 1) >>> 1) < N) := by
      rw [downCouldSend_eq]; exact fun h => h0 h.1
    rw [if_neg h0]
    by_cases h1 : 2 ^ k ≤ r ∧ upper k (r - 2 ^ k) = true
    · have hd : (0 ≤ (r : Int) - ((2 ^ (k + 1) >>> 1 : Nat) : Int) ∧
          downCouldSend (r - (2 ^ (k + 1) >>> 1)) (2 ^ (k + 1)) = true) := by
        rw [shr_one, downCouldSend_eq]; exact ⟨by omega, h1.2⟩
      rw [if_pos h1]
      refine instr_recv ?_ ?_ (show r - 2 ^ k < N by omega)
      · simp only [scanDown]; rw [if_neg hc, if_pos hd]
      · simp only [scanDown]; rw [if_neg hc, if_pos hd, shr_one]; omega
    · have hd : ¬ (0 ≤ (r : Int) - ((2 ^ (k + 1) >>> 1 : Nat) : Int) ∧
          downCouldSend (r - (2 ^ (k + 1) >>> 1)) (2 ^ (k + 1)) = true) := by
        rw [shr_one, downCouldSend_eq]
        intro h; exact h1 ⟨by omega, h.2⟩
      rw [if_neg h1]
      refine instr_idle ?_
      simp only [scanDown]; rw [if_neg hc, if_neg hd]

/-- events of `scan_up` from level `k` on, `d` levels -/
def upFrom (N k d : Nat) : List Event := (List.range' k d).flatMap (upLevel N)

/-- events of `scan_down` levels `k-1, …, 0` -/
def downFrom (N k : Nat) : List Event := (List.range k).reverse.flatMap (downLevel N)

theorem upFrom_succ (N k d : Nat) : upFrom N k (d + 1) = upLevel N k ++ upFrom N (k + 1) d := by
  simp [upFrom, List.range'_succ]

theorem upFrom_succ' (N d : Nat) : upFrom N 0 (d + 1) = upFrom N 0 d ++ upLevel N d := by
  simp [upFrom, List.range'_concat]

theorem reduceFrom_succ' (N d : Nat) : reduceFrom N 0 (d + 1) = reduceFrom N 0 d ++ reduceLevel N d := by
  simp [reduceFrom, List.range'_concat]

theorem downFrom_succ (N k : Nat) : downFrom N (k + 1) = downLevel N k ++ downFrom N k := by
  simp [downFrom, List.range_succ]

theorem loop_scanUp {N r : Nat} (hr : r < N) (d : Nat) :
    ∀ k f, k + d = floorLog2 N → d ≤ f →
      loop scanUp .merge N r f (2 ^ k) = some (.ok (proj r (upFrom N k d))) := by
  induction d with
  | zero =>
    intro k f hk hf
    have : k = floorLog2 N := by omega
    exact loop_ended (by simp [scanUp, Nat.shiftLeft_eq, this])
  | succ d ih =>
    intro k f hk hf
    obtain ⟨f, rfl⟩ : ∃ g, f = g + 1 := ⟨f - 1, by omega⟩
    rw [upFrom_succ, proj_append]
    refine loop_next (bit' := 2 ^ (k + 1)) ?_ (by simp [scanUp, shl_one])
      (ih (k + 1) f (by omega) (by omega)) (instr_scanUp hr)
    simp only [scanUp, Nat.shiftLeft_eq, Nat.one_mul, decide_eq_false_iff_not]
    intro h
    have := (Nat.pow_right_inj (a := 2) (by omega)).mp h
    omega

theorem loop_scanDown {N r : Nat} (hr : r < N) (k : Nat) :
    ∀ f, k ≤ f → loop scanDown .merge N r f (2 ^ k) = some (.ok (proj r (downFrom N k))) := by
  induction k with
  | zero =>
    intro f hf
    exact loop_ended (by simp [scanDown])
  | succ k ih =>
    intro f hf
    obtain ⟨f, rfl⟩ : ∃ g, f = g + 1 := ⟨f - 1, by omega⟩
    rw [downFrom_succ, proj_append]
    refine loop_next (bit' := 2 ^ k) ?_ (by simp [scanDown, shr_one]) (ih f (by omega))
      (instr_scanDown hr)
    simp [scanDown]

/-- all communication events of `pcu_scan` -/
def scanEvents (N : Nat) : List Event := upFrom N 0 (floorLog2 N) ++ downFrom N (floorLog2 N)

theorem program_scan {N r : Nat} (hr : r < N) (f : Nat) (hf : floorLog2 N ≤ f) :
    scanProg N r f = some (.ok (proj r (scanEvents N))) := by
  have h1 : program scanUp .merge N r f = some (.ok (proj r (upFrom N 0 (floorLog2 N)))) := by
    have := loop_scanUp hr (floorLog2 N) 0 f (by omega) hf
    simpa [program, scanUp] using this
  have h2 : program scanDown .merge N r f = some (.ok (proj r (downFrom N (floorLog2 N)))) := by
    have := loop_scanDown hr (floorLog2 N) f hf
    simpa [program, scanDown, Nat.shiftLeft_eq] using this
  unfold scanProg
  rw [h1, h2, scanEvents, proj_append]
  rfl

end Verif.Pcu.Coll
