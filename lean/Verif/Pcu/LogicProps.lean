import Verif.Pcu.CollProps
/-
C73: `PCU_Or` and `PCU_And` (pcu/pcu.c:473-486), which are `PCU_Max_Int` and `PCU_Min_Int`.
-/
namespace Verif.Pcu.Coll
open Verif

/-- `PCU_Or` (pcu/pcu.c:475-478): the operation of the allreduce is that of `PCU_Max_Int`. -/
def orOp : Int → Int → Int := max

/-- `PCU_And` (pcu/pcu.c:482-485): the operation of the allreduce is that of `PCU_Min_Int`. -/
def andOp : Int → Int → Int := min

/-- **C73, or.**  In every execution, on every number of ranks: if no rank gives a negative value, the result is true (not
zero) on a rank that returns exactly if some rank gave a true value (false with negative values: `c73_negative`). -/
theorem c73_or_partial (N : Nat) (v : Nat → Int) (hv : ∀ q, q < N → 0 ≤ v q) (P : Nat → List Instr)
    (hP : Runs allreduceProg N P) (n : Nat) (st : Nat → RankSt Int)
    (hs : Steps orOp N n (initial P v) st) (r : Nat) (hr : r < N) (hret : Returned st r) :
    (st r).val ≠ 0 ↔ ∃ q, q < N ∧ v q ≠ 0 := by
  obtain ⟨h1, q, hq, h2⟩ := c30_max N v P hP n st hs r hr hret
  constructor
  · intro h; exact ⟨q, hq, by rw [← h2]; exact h⟩
  · rintro ⟨p, hp, hne⟩
    have := h1 p hp
    have := hv p hp
    omega

/-- **C73, and.**  The same for `PCU_And`: true exactly if every rank gave a true value. -/
theorem c73_and_partial (N : Nat) (v : Nat → Int) (hv : ∀ q, q < N → 0 ≤ v q) (P : Nat → List Instr)
    (hP : Runs allreduceProg N P) (n : Nat) (st : Nat → RankSt Int)
    (hs : Steps andOp N n (initial P v) st) (r : Nat) (hr : r < N) (hret : Returned st r) :
    (st r).val ≠ 0 ↔ ∀ q, q < N → v q ≠ 0 := by
  obtain ⟨h1, q, hq, h2⟩ := c30_min N v P hP n st hs r hr hret
  constructor
  · intro h p hp
    have := h1 p hp
    have := hv q hq
    omega
  · intro h
    rw [h2]; exact h q hq

/-- All ranks get the same answer. -/
theorem c73_agree (op : Int → Int → Int) (hop : op = orOp ∨ op = andOp) (N : Nat) (v : Nat → Int) (P : Nat → List Instr)
    (hP : Runs allreduceProg N P) (n : Nat) (st : Nat → RankSt Int)
    (hs : Steps op N n (initial P v) st) (r q : Nat) (hr : r < N) (hq : q < N) (hret : Returned st r) (hret' : Returned st q) :
    (st r).val = (st q).val := by
  have ha : ∀ x y z, op (op x y) z = op x (op y z) := by
    rcases hop with h | h <;> subst h <;> intro x y z <;> simp only [orOp, andOp] <;> omega
  rw [c30_allreduce op ha N v P hP n st hs r hr hret, c30_allreduce op ha N v P hP n st hs q hq hret']

/-- the hypotheses are met in complete executions -/
example : ∃ P, Runs allreduceProg 5 P ∧ (∀ q, q < 5 → 0 ≤ (fun q => if q = 3 then (1 : Int) else 0) q) ∧ ∃ n st,
    Steps orOp 5 n (initial P (fun q => if q = 3 then (1 : Int) else 0)) st ∧ ∀ r, r < 5 → Returned st r ∧ (st r).val ≠ 0 := by
  obtain ⟨P, hP⟩ := c30_programs 5
  obtain ⟨n, st, hs, hret⟩ := exists_complete (c30_terminates orOp 5 (fun q => if q = 3 then (1 : Int) else 0) P hP)
  have hv : ∀ q, q < 5 → 0 ≤ (fun q => if q = 3 then (1 : Int) else 0) q := by
    intro q _; dsimp only; split <;> omega
  refine ⟨P, hP, hv, n, st, hs, fun r hr => ⟨hret r hr, ?_⟩⟩
  exact (c73_or_partial 5 _ hv P hP n st hs r hr (hret r hr)).mpr ⟨3, by omega, by simp⟩

/-- **C73 is false of the code for negative values.**  On two ranks that give 0 and -1, which is true in C, every complete
execution of `PCU_Or` gives 0, false, and every complete execution of `PCU_And` gives -1, true; there are such executions. -/
theorem c73_negative :
    (∀ op, op = orOp ∨ op = andOp → ∃ P n st, Runs allreduceProg 2 P ∧
      Steps op 2 n (initial P (fun q => if q = 0 then (0 : Int) else -1)) st ∧ ∀ r, r < 2 → Returned st r) ∧
    ∀ P n st, Runs allreduceProg 2 P → (∀ r, r < 2 → Returned st r) →
      (Steps orOp 2 n (initial P (fun q => if q = 0 then (0 : Int) else -1)) st → ∀ r, r < 2 → (st r).val = 0) ∧
      (Steps andOp 2 n (initial P (fun q => if q = 0 then (0 : Int) else -1)) st → ∀ r, r < 2 → (st r).val = -1) := by
  refine ⟨?_, ?_⟩
  · intro op _
    obtain ⟨P, hP⟩ := c30_programs 2
    obtain ⟨n, st, hs, hret⟩ := exists_complete (c30_terminates op 2 (fun q => if q = 0 then (0 : Int) else -1) P hP)
    exact ⟨P, n, st, hP, hs, hret⟩
  · intro P n st hP hret
    refine ⟨fun hs r hr => ?_, fun hs r hr => ?_⟩
    · obtain ⟨h1, q, hq, h2⟩ := c30_max 2 _ P hP n st hs r hr (hret r hr)
      have := h1 0 (by omega)
      simp only [if_true] at this
      rw [h2] at this ⊢
      split at this <;> simp_all
    · obtain ⟨h1, q, hq, h2⟩ := c30_min 2 _ P hP n st hs r hr (hret r hr)
      have := h1 1 (by omega)
      rw [if_neg (by omega)] at this
      rw [h2] at this ⊢
      split at this <;> simp_all

end Verif.Pcu.Coll
