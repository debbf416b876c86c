import Verif.Base
import Mathlib.Data.List.Perm.Basic
/-!
# Interleavings

A parallel kernel is a list of threads, a thread the list of its atomic actions in program order.  An execution performs the
actions of all threads one after the other in some order that keeps the order of each thread.  `interleave ps s` is the order
in which the oracle `s` says which thread goes next (an entry naming a finished thread is skipped; when the oracle ends, the
threads finish one after the other).  Every interleaving is made by some oracle (`interleave_complete`).
-/
namespace Verif.Color

def interleave {α : Type} : List (List α) → List Nat → List α
  | ps, [] => ps.flatten
  | ps, i :: s =>
    match ps[i]? with
    | some (a :: rest) => a :: interleave (ps.set i rest) s
    | _ => interleave ps s

/-- the interleavings, as a relation -/
inductive Interleaving {α : Type} : List (List α) → List α → Prop where
  | done {ps : List (List α)} (h : ∀ p ∈ ps, p = []) : Interleaving ps []
  | step {ps : List (List α)} {i : Nat} {a : α} {rest l : List α} (h : ps[i]? = some (a :: rest))
      (h' : Interleaving (ps.set i rest) l) : Interleaving ps (a :: l)

theorem flatten_nil_of {α : Type} {ps : List (List α)} (h : ∀ p ∈ ps, p = []) : ps.flatten = [] := by
  rw [List.flatten_eq_nil_iff]; exact h

theorem interleave_complete {α : Type} {ps : List (List α)} {l : List α} (h : Interleaving ps l) : ∃ s, interleave ps s = l := by
  induction h with
  | done h => exact ⟨[], flatten_nil_of h⟩
  | @step ps i a rest l h h' ih =>
    obtain ⟨s, e⟩ := ih
    refine ⟨i :: s, ?_⟩
    rw [interleave]
    simp only [h, e]

/-- running the threads one after the other -/
theorem interleaving_flatten {α : Type} : ∀ (ps : List (List α)), Interleaving ps ps.flatten := by
  intro ps
  suffices H : ∀ (n : Nat) (ps : List (List α)), ps.flatten.length = n → Interleaving ps ps.flatten from H _ ps rfl
  intro n
  induction n with
  | zero =>
    intro ps h
    have h := List.eq_nil_of_length_eq_zero h
    rw [h]
    exact .done (List.flatten_eq_nil_iff.mp h)
  | succ n ih =>
    intro ps h
    have key : ∀ (qs : List (List α)), qs.flatten ≠ [] → ∃ i a rest, qs[i]? = some (a :: rest) ∧ qs.flatten = a :: (qs.set i rest).flatten := by
      intro qs
      induction qs with
      | nil => intro h; simp at h
      | cons q qs ih2 =>
        intro h
        cases q with
        | cons a r => exact ⟨0, a, r, rfl, rfl⟩
        | nil =>
          obtain ⟨i, a, rest, h1, h2⟩ := ih2 (by simpa using h)
          exact ⟨i + 1, a, rest, by simpa using h1, by simpa using h2⟩
    obtain ⟨i, a, rest, h1, h2⟩ := key ps (by intro hc; rw [hc] at h; simp at h)
    rw [h2]
    exact .step h1 (ih _ (by rw [h2] at h; simpa using h))

theorem interleave_sound {α : Type} : ∀ (s : List Nat) (ps : List (List α)), Interleaving ps (interleave ps s) := by
  intro s
  induction s with
  | nil => intro ps; exact interleaving_flatten ps
  | cons i s ih =>
    intro ps
    rw [interleave]
    split
    · rename_i a rest h
      exact .step h (ih _)
    · exact ih _

theorem set_perm {α : Type} : ∀ (ps : List (List α)) (i : Nat) (a : α) (rest : List α), ps[i]? = some (a :: rest) →
    ps.flatten.Perm (a :: (ps.set i rest).flatten) := by
  intro ps
  induction ps with
  | nil => intro i a rest h; simp at h
  | cons q qs ih =>
    intro i a rest h
    cases i with
    | zero =>
      simp at h
      subst h
      exact List.Perm.refl _
    | succ i =>
      rw [List.set_cons_succ, List.flatten_cons, List.flatten_cons]
      exact (List.Perm.append_left q (ih i a rest (by simpa using h))).trans List.perm_middle

theorem Interleaving.perm {α : Type} {ps : List (List α)} {l : List α} (h : Interleaving ps l) : l.Perm ps.flatten := by
  induction h with
  | done h => rw [flatten_nil_of h]
  | step h _ ih => exact (List.Perm.cons _ ih).trans (set_perm _ _ _ _ h).symm

/-- the actions of thread `k` are performed in its order, if actions carry the number of their thread -/
theorem Interleaving.thread {α : Type} {key : α → Nat} {ps : List (List α)} {l : List α} (h : Interleaving ps l)
    (hk : ∀ i p, ps[i]? = some p → ∀ a ∈ p, key a = i) (k : Nat) :
    l.filter (fun a => decide (key a = k)) = ps.getD k [] := by
  induction h with
  | done h =>
    rename_i ps
    rw [List.filter_nil, List.getD_eq_getElem?_getD]
    cases hp : ps[k]? with
    | none => rfl
    | some p => exact (h p (List.mem_of_getElem? hp)).symm
  | @step ps i a rest l h h' ih =>
    have hi : i < ps.length := by
      by_contra hc
      rw [List.getElem?_eq_none (by omega)] at h
      simp at h
    have ih := ih (by
      intro j p hp b hb
      by_cases hij : i = j
      · subst hij
        rw [List.getElem?_set_self hi] at hp
        cases hp
        exact hk i _ h b (by simp [hb])
      · rw [List.getElem?_set_ne hij] at hp
        exact hk j p hp b hb)
    have ha : key a = i := hk i _ h a (by simp)
    by_cases hik : i = k
    · subst hik
      rw [List.filter_cons_of_pos (by simp [ha]), ih]
      rw [List.getD_eq_getElem?_getD, List.getD_eq_getElem?_getD, List.getElem?_set_self hi, h]
      rfl
    · rw [List.filter_cons_of_neg (by simp [ha, hik]), ih]
      simp [hik]

end Verif.Color
