import Verif.Pcu.FilesModel
/-
Ranks that run between barriers: what holds in every schedule.
-/
namespace Verif.Pcu.Files
open Verif

variable {α : Type}

def isBarrier : Act α → Bool
  | .barrier => true
  | _ => false

/-- The number of barriers of a program. -/
def bars (l : List (Act α)) : Nat := (l.filter isBarrier).length

/-- The actions of a program. -/
def acts : List (Act α) → List α
  | [] => []
  | .act a :: l => a :: acts l
  | .barrier :: l => acts l

@[simp] theorem bars_nil : bars ([] : List (Act α)) = 0 := rfl
@[simp] theorem bars_act (a : α) (l : List (Act α)) : bars (.act a :: l) = bars l := by simp [bars, isBarrier]
@[simp] theorem bars_barrier (l : List (Act α)) : bars (.barrier :: l) = bars l + 1 := by simp [bars, List.filter_cons, isBarrier]
@[simp] theorem bars_append (l m : List (Act α)) : bars (l ++ m) = bars l + bars m := by simp [bars]

theorem acts_append : ∀ l m : List (Act α), acts (l ++ m) = acts l ++ acts m
  | [], _ => rfl
  | .act a :: l, m => by simp [acts, acts_append l m]
  | .barrier :: l, m => by simp [acts, acts_append l m]

theorem atBarrier_iff {l : List (Act α)} : atBarrier l = true ↔ ∃ rest, l = .barrier :: rest := by
  cases l with
  | nil => simp [atBarrier]
  | cons a l => cases a <;> simp [atBarrier]

/-- What holds in every schedule of a job of `P` ranks whose programs have `B` barriers each. -/
structure Inv (P B : Nat) (prog : Nat → List (Act α)) (s : Job α) : Prop where
  split : ∀ r, r < P → ∃ done, prog r = done ++ s.rem r ∧ s.passed r = bars done ∧
    (s.log.filter (fun e => e.1 = r)).map (·.2) = acts done
  ranks : ∀ e ∈ s.log, e.1 < P
  near : ∀ q r, q < P → r < P → s.passed q ≤ s.passed r + 1
  wait : ∀ q r, q < P → r < P → s.passed q = s.passed r + 1 → atBarrier (s.rem r) = true

theorem inv_launch (P B : Nat) (prog : Nat → List (Act α)) : Inv P B prog (launch prog) where
  split := fun r _ => ⟨[], by simp [launch], by simp [launch], by simp [launch, acts]⟩
  ranks := by simp [launch]
  near := by simp [launch]
  wait := by simp [launch]

theorem inv_advance {P B : Nat} {prog : Nat → List (Act α)} {s : Job α} (I : Inv P B prog s) {r : Nat} (hr : r < P)
    (he : enabled P s r = true) : Inv P B prog (advance s r) := by
  unfold enabled at he
  unfold advance
  cases hrem : s.rem r with
  | nil => rw [hrem] at he; simp at he
  | cons x rest =>
    cases x with
    | act a =>
      dsimp only
      refine { split := ?_, ranks := ?_, near := I.near, wait := ?_ }
      · intro q hq
        obtain ⟨done, h1, h2, h3⟩ := I.split q hq
        by_cases hqr : q = r
        · subst hqr
          refine ⟨done ++ [.act a], ?_, ?_, ?_⟩
          · simp [h1, hrem]
          · simp [h2]
          · simp [List.filter_append, h3, acts_append, acts]
        · refine ⟨done, ?_, h2, ?_⟩
          · simp [hqr, h1]
          · simp [List.filter_append, h3, Ne.symm hqr]
      · intro e he
        simp only [List.mem_append, List.mem_singleton] at he
        rcases he with he | he
        · exact I.ranks e he
        · subst he; exact hr
      · intro q p hq hp h
        have := I.wait q p hq hp h
        by_cases hpr : p = r
        · subst hpr
          rw [hrem] at this
          simp [atBarrier] at this
        · simp [hpr, this]
    | barrier =>
      rw [hrem] at he
      simp only [List.all_eq_true, List.mem_range, Bool.or_eq_true, decide_eq_true_eq, Bool.and_eq_true] at he
      dsimp only
      refine { split := ?_, ranks := I.ranks, near := ?_, wait := ?_ }
      · intro q hq
        obtain ⟨done, h1, h2, h3⟩ := I.split q hq
        by_cases hqr : q = r
        · subst hqr
          exact ⟨done ++ [.barrier], by simp [h1, hrem], by simp [h2], by simp [h3, acts_append, acts]⟩
        · exact ⟨done, by simp [hqr, h1], by simp [hqr, h2], h3⟩
      · intro q p hq hp
        dsimp only
        by_cases h1 : q = r <;> by_cases h2 : p = r
        · simp [h1, h2]
        · simp only [h1, h2, if_true, if_false]
          rcases he p hp with h | h <;> omega
        · simp only [h1, h2, if_true, if_false]
          have := I.near q r hq hr
          omega
        · simp only [h1, h2, if_false]
          exact I.near q p hq hp
      · intro q p hq hp
        dsimp only
        by_cases h1 : q = r <;> by_cases h2 : p = r
        · simp [h1, h2]
        · simp only [h1, h2, if_true, if_false]
          intro h
          rcases he p hp with h3 | h3
          · omega
          · exact h3.2
        · simp only [h1, h2, if_true, if_false]
          intro h
          have := I.near q r hq hr
          omega
        · simp only [h1, h2, if_false]
          exact I.wait q p hq hp

theorem inv_exec {P B : Nat} {prog : Nat → List (Act α)} : ∀ (sched : List Nat) {s : Job α}, Inv P B prog s →
    Inv P B prog (exec P s sched)
  | [], s, I => I
  | r :: sched, s, I => by
      unfold exec
      rw [List.foldl_cons]
      refine inv_exec sched ?_
      split
      · rename_i h
        simp only [Bool.and_eq_true, decide_eq_true_eq] at h
        exact inv_advance I h.1 h.2
      · exact I

/-- A rank that is about to act: the others are between the same barriers, or wait at the one it has left. -/
theorem acting {P B : Nat} {prog : Nat → List (Act α)} {s : Job α} (I : Inv P B prog s) {r q : Nat} (hr : r < P) (hq : q < P)
    {a : α} {rest : List (Act α)} (h : s.rem r = .act a :: rest) :
    s.passed q = s.passed r ∨ (s.passed q + 1 = s.passed r ∧ atBarrier (s.rem q) = true) := by
  have h1 := I.near q r hq hr
  have h2 := I.near r q hr hq
  rcases Nat.lt_trichotomy (s.passed q) (s.passed r) with h3 | h3 | h3
  · right
    have h4 : s.passed r = s.passed q + 1 := by omega
    exact ⟨h4.symm, I.wait r q hr hq h4⟩
  · exact .inl h3
  · have h4 : s.passed q = s.passed r + 1 := by omega
    have := I.wait q r hq hr h4
    rw [h] at this
    simp [atBarrier] at this

theorem exists_min (f : Nat → Nat) : ∀ P, 0 < P → ∃ r, r < P ∧ ∀ q, q < P → f r ≤ f q
  | 1, _ => ⟨0, by omega, fun q hq => by have : q = 0 := by omega
                                         subst this; exact Nat.le_refl _⟩
  | P + 2, _ => by
      obtain ⟨r, hr, h⟩ := exists_min f (P + 1) (by omega)
      by_cases hc : f r ≤ f (P + 1)
      · refine ⟨r, by omega, fun q hq => ?_⟩
        by_cases hqp : q = P + 1
        · subst hqp; exact hc
        · exact h q (by omega)
      · refine ⟨P + 1, by omega, fun q hq => ?_⟩
        by_cases hqp : q = P + 1
        · subst hqp; exact Nat.le_refl _
        · have := h q (by omega); omega

/-- There is always a rank that can go on, until all are done. -/
theorem progress {P B : Nat} {prog : Nat → List (Act α)} (hB : ∀ r, r < P → bars (prog r) = B) {s : Job α}
    (I : Inv P B prog s) (hf : ¬ Finished P s) : ∃ r, r < P ∧ enabled P s r = true := by
  by_cases hact : ∃ r a rest, r < P ∧ s.rem r = .act a :: rest
  · obtain ⟨r, a, rest, hr, h⟩ := hact
    exact ⟨r, hr, by simp [enabled, h]⟩
  · have hcase : ∀ q, q < P → s.rem q = [] ∨ atBarrier (s.rem q) = true := by
      intro q hq
      cases h : s.rem q with
      | nil => exact .inl rfl
      | cons x rest =>
        cases x with
        | act a => exact absurd ⟨q, a, rest, hq, h⟩ hact
        | barrier => exact .inr rfl
    have hsum : ∀ q, q < P → s.passed q + bars (s.rem q) = B := by
      intro q hq
      obtain ⟨done, h1, h2, -⟩ := I.split q hq
      rw [h2, ← bars_append, ← h1]; exact hB q hq
    have hP : 0 < P := by
      rcases Nat.eq_zero_or_pos P with h | h
      · subst h; exact absurd (fun r hr => absurd hr (by omega)) hf
      · exact h
    obtain ⟨r, hr, hmin⟩ := exists_min s.passed P hP
    rcases hcase r hr with h | h
    · exfalso
      apply hf
      intro q hq
      have h1 := hsum r hr
      have h2 := hsum q hq
      rw [h] at h1
      simp only [bars_nil] at h1
      have h3 := hmin q hq
      rcases hcase q hq with h4 | h4
      · exact h4
      · obtain ⟨rest, h5⟩ := atBarrier_iff.mp h4
        rw [h5] at h2
        simp at h2
        omega
    · refine ⟨r, hr, ?_⟩
      obtain ⟨rest, h5⟩ := atBarrier_iff.mp h
      simp only [enabled, h5, List.all_eq_true, List.mem_range, Bool.or_eq_true, decide_eq_true_eq, Bool.and_eq_true]
      intro q hq
      have h3 := hmin q hq
      by_cases hlt : s.passed r < s.passed q
      · exact .inl hlt
      · right
        refine ⟨by omega, ?_⟩
        rcases hcase q hq with h4 | h4
        · have h1 := hsum r hr
          have h2 := hsum q hq
          rw [h4] at h2
          rw [h5] at h1
          simp at h1 h2
          omega
        · exact h4

/-- What is left to do. -/
def left (s : Job α) (P : Nat) : Nat := ((List.range P).map (fun r => (s.rem r).length)).sum

theorem sum_lt (f g : Nat → Nat) (r : Nat) : ∀ P, r < P → (∀ q, q ≠ r → g q = f q) → g r < f r →
    ((List.range P).map g).sum < ((List.range P).map f).sum
  | 0, h, _, _ => absurd h (by omega)
  | P + 1, h, heq, hlt => by
      rw [List.range_succ, List.map_append, List.map_append, List.sum_append, List.sum_append]
      simp only [List.map_cons, List.map_nil, List.sum_cons, List.sum_nil, Nat.add_zero]
      by_cases hr : r = P
      · subst hr
        have : (List.range r).map g = (List.range r).map f := by
          refine List.map_congr_left fun q hq => heq q ?_
          rw [List.mem_range] at hq
          omega
        rw [this]; omega
      · have := sum_lt f g r P (by omega) heq hlt
        have := heq P (Ne.symm hr)
        omega

theorem left_advance {P : Nat} {s : Job α} {r : Nat} (hr : r < P) (he : enabled P s r = true) :
    left (advance s r) P < left s P := by
  unfold left
  refine sum_lt _ _ r P hr ?_ ?_
  · intro q hq
    unfold advance
    cases h : s.rem r with
    | nil => rfl
    | cons x rest => cases x <;> simp [hq]
  · unfold advance
    cases h : s.rem r with
    | nil => simp [enabled, h] at he
    | cons x rest => cases x <;> simp

/-- Every schedule can be continued to the end. -/
theorem finishes {P B : Nat} {prog : Nat → List (Act α)} (hB : ∀ r, r < P → bars (prog r) = B) :
    ∀ (n : Nat) (s : Job α), left s P ≤ n → Inv P B prog s → ∃ more, more.length ≤ n ∧ Finished P (exec P s more)
  | n, s, hn, I => by
      by_cases hf : Finished P s
      · exact ⟨[], by simp, hf⟩
      · obtain ⟨r, hr, he⟩ := progress hB I hf
        have hl := left_advance hr he
        match n with
        | 0 => omega
        | n + 1 =>
          obtain ⟨more, hm, h⟩ := finishes hB n (advance s r) (by omega) (inv_advance I hr he)
          refine ⟨r :: more, by simp; omega, ?_⟩
          unfold exec
          rw [List.foldl_cons]
          simp only [hr, decide_true, he, Bool.and_self, if_true]
          exact h

theorem exec_append (P : Nat) (s : Job α) (a b : List Nat) : exec P s (a ++ b) = exec P (exec P s a) b := by
  simp [exec, List.foldl_append]

end Verif.Pcu.Files
