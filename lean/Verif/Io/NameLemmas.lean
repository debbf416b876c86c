/-
Helpers for the names and directories.
-/
import Verif.Io.NameModel
import Mathlib.Data.List.Basic

namespace Verif.Names
open Verif

theorem dec_inj {m n : Nat} (h : dec m = dec n) : m = n := by
  have hm := Nat.ofDigitChars_ten_toDigits (n := m)
  have hn := Nat.ofDigitChars_ten_toDigits (n := n)
  unfold dec at h
  rw [h] at hm
  exact hm.symm.trans hn

theorem split_last {a : Char} : ∀ {x x' y y' : List Char}, a ∉ y → a ∉ y' →
    x ++ a :: y = x' ++ a :: y' → x = x' ∧ y = y'
  | [], [], y, y', _, _, h => by simpa using h
  | [], b :: x', y, y', hy, _, h => by
      simp only [List.nil_append, List.cons_append, List.cons.injEq] at h
      exact absurd (by rw [h.2]; simp) hy
  | b :: x, [], y, y', _, hy', h => by
      simp only [List.nil_append, List.cons_append, List.cons.injEq] at h
      exact absurd (by rw [← h.2]; simp) hy'
  | b :: x, b' :: x', y, y', hy, hy', h => by
      simp only [List.cons_append, List.cons.injEq] at h
      obtain ⟨h1, h2⟩ := split_last hy hy' h.2
      exact ⟨by rw [h.1, h1], h2⟩

theorem sprintf_ok {cap : Nat} {t a : List Char} (h : sprintf cap t = .ok a) :
    a = t ∧ t.length + 1 ≤ cap := by
  unfold sprintf at h
  split at h
  · simp only [Outcome.ok.injEq] at h
    exact ⟨h.symm, by assumption⟩
  · simp at h

theorem compSplit_snoc (path : List Char) (c : Char) :
    compSplit (path ++ [c]) = compStep (compSplit path) c := by
  simp [compSplit, List.foldl_append]

/-- Directories on the way, none of them missing. -/
def Made (fs fs' : Fs) (b : Bool) (done : List (List Char)) : Prop :=
  ∀ b' cs, fs' b' cs = true ↔ fs b' cs = true ∨ (b' = b ∧ cs ≠ [] ∧ cs <+: done)

theorem made_step {fs fs' : Fs} {path : List Char} (hroot : ∀ b, fs b [] = true)
    (hne : path ≠ []) {p : Nat} (hp : 1 ≤ p) (hlt : p < path.length)
    (h : Made fs fs' (absolute path) (compSplit (path.take p)).1) :
    Made fs (mkdirAt path fs' p) (absolute path) (compSplit (path.take (p + 1))).1 := by
  have htake : path.take (p + 1) = path.take p ++ [path[p]] := by
    rw [List.take_append_getElem hlt]
  rw [htake, compSplit_snoc]
  generalize hS : compSplit (path.take p) = S at h
  obtain ⟨done, cur⟩ := S
  have habs : absolute (path.take p) = absolute path := by
    cases path with
    | nil => simp at hne
    | cons a l =>
      obtain ⟨q, rfl⟩ : ∃ q, p = q + 1 := ⟨p - 1, by omega⟩
      simp [absolute]
  simp only at h
  unfold mkdirAt
  rw [List.getElem?_eq_getElem hlt]
  by_cases hc : path[p] = '/'
  · rw [if_pos (by rw [hc])]
    have hcomps : comps (path.take p) = if cur = [] then done else done ++ [cur] := by
      simp [comps, hS]
    have hdone : fs' (absolute path) done = true := by
      rw [h]
      by_cases hd : done = []
      · left; rw [hd]; exact hroot _
      · right; exact ⟨rfl, hd, List.prefix_refl _⟩
    by_cases hcur : cur = []
    · simp only [compStep, hc, if_true, hcur]
      rw [if_pos hcur] at hcomps
      intro b' cs
      rw [← h]
      unfold mkdir
      rw [hcomps, habs]
      by_cases hm : done ≠ [] ∧ fs' (absolute path) done.dropLast = true
      · rw [if_pos hm]
        by_cases hx : b' = absolute path ∧ cs = done
        · simp only [if_pos hx]
          rw [hx.1, hx.2]
          exact ⟨fun _ => hdone, fun _ => trivial⟩
        · simp only [if_neg hx]
      · rw [if_neg hm]
    · simp only [compStep, hc, if_true, if_neg hcur]
      rw [if_neg hcur] at hcomps
      intro b' cs
      unfold mkdir
      rw [hcomps, habs, if_pos ⟨by simp, by simpa using hdone⟩]
      by_cases hx : b' = absolute path ∧ cs = done ++ [cur]
      · simp only [if_pos hx, true_iff]
        right
        exact ⟨hx.1, by rw [hx.2]; simp, by rw [hx.2]; exact List.prefix_refl _⟩
      · simp only [if_neg hx]
        rw [h]
        constructor
        · rintro (h1 | ⟨h1, h2, h3⟩)
          · exact .inl h1
          · exact .inr ⟨h1, h2, h3.trans (List.prefix_append _ _)⟩
        · rintro (h1 | ⟨h1, h2, h3⟩)
          · exact .inl h1
          · right
            refine ⟨h1, h2, ?_⟩
            rcases List.prefix_concat_iff.1 h3 with h4 | h4
            · exact absurd ⟨h1, by simpa using h4⟩ hx
            · exact h4
  · rw [if_neg (by simp [hc])]
    simp only [compStep, if_neg hc]
    exact h

theorem made_loop {fs : Fs} {path : List Char} (hroot : ∀ b, fs b [] = true) (hne : path ≠ []) :
    ∀ n, n + 1 ≤ path.length →
      Made fs ((List.range' 1 n).foldl (mkdirAt path) fs) (absolute path)
        (compSplit (path.take (n + 1))).1
  | 0, h => by
      intro b' cs
      obtain ⟨a, l, rfl⟩ : ∃ a l, path = a :: l := by
        cases path with
        | nil => simp at hne
        | cons a l => exact ⟨a, l, rfl⟩
      have e : (compSplit (List.take (0 + 1) (a :: l))).1 = [] := by
        by_cases ha : a = '/' <;> simp [compSplit, compStep, ha]
      rw [e]
      simp only [List.range'_zero, List.foldl_nil]
      constructor
      · exact .inl
      · rintro (h1 | ⟨_, h2, h3⟩)
        · exact h1
        · exact absurd (List.prefix_nil.1 h3) h2
  | n + 1, h => by
      have ih := made_loop hroot hne n (by omega)
      rw [List.range'_1_concat, List.foldl_append]
      simp only [List.foldl_cons, List.foldl_nil]
      have := made_step (p := 1 + n) hroot hne (by omega) (by omega)
        (by rw [Nat.add_comm 1 n]; exact ih)
      rw [show n + 1 + 1 = 1 + n + 1 by omega]
      exact this

theorem comps_file {path : List Char} {c : Char} (hc : c ≠ '/') :
    comps (path ++ [c]) = (compSplit (path ++ [c])).1 ++ [(compSplit (path ++ [c])).2] ∧
      (comps (path ++ [c])).dropLast = (compSplit (path ++ [c])).1 := by
  have h : (compSplit (path ++ [c])).2 ≠ [] := by
    rw [compSplit_snoc]
    obtain ⟨d, cur⟩ := compSplit path
    simp [compStep, hc]
  have e : comps (path ++ [c]) = (compSplit (path ++ [c])).1 ++ [(compSplit (path ++ [c])).2] := by
    simp only [comps]
    rw [if_neg h]
  exact ⟨e, by rw [e, List.dropLast_concat]⟩

theorem mkdirR_file {fs : Fs} {path : List Char} {c : Char} (hc : c ≠ '/')
    (hroot : ∀ b, fs b [] = true) (hl : (path ++ [c]).length ≤ 255) :
    ∃ fs', mkdirR (path ++ [c]) fs = .ok fs' ∧
      Made fs fs' (absolute (path ++ [c])) (comps (path ++ [c])).dropLast := by
  have ht : (path ++ [c]).take 255 = path ++ [c] := List.take_of_length_le hl
  have hne : path ++ [c] ≠ [] := by simp
  unfold mkdirR
  simp only [ht, if_neg hne]
  rw [if_neg (by simp [hc])]
  refine ⟨_, rfl, ?_⟩
  have := made_loop hroot hne ((path ++ [c]).length - 1) (by simp)
  rw [(comps_file hc).2]
  rw [show (path ++ [c]).length - 1 + 1 = (path ++ [c]).length by simp, List.take_length] at this
  exact this

/-! ### Reports -/

/-- What one edge type adds to a line. -/
def entry (c : Nat × Nat) : List Char :=
  ['T', 'y', 'p', 'e', ' '] ++ dec c.2 ++ [':', ' '] ++ dec c.1 ++ [' ']

theorem statFold : ∀ (cs : List (Nat × Nat)) (buf : List Char), buf.length + 1 ≤ 100 →
    cs.foldlM statStep buf
      = if (buf ++ cs.flatMap entry).length + 1 ≤ 100 then .ok (buf ++ cs.flatMap entry) else .ub
  | [], buf, h => by simp [h]
  | c :: cs, buf, h => by
      rw [List.foldlM_cons]
      have e : statStep buf c = sprintf 100 (buf ++ entry c) := by
        simp [statStep, entry]
      rw [e]
      unfold sprintf
      by_cases hc : (buf ++ entry c).length + 1 ≤ 100
      · rw [if_pos hc, Outcome.bind_ok, statFold cs _ hc]
        simp
      · rw [if_neg hc, Outcome.bind_ub, if_neg]
        simp only [List.length_append, List.flatMap_cons] at hc ⊢
        omega

theorem mapM_sprintf {α : Type} (cap : Nat) (f : α → List Char) : ∀ l : List α,
    l.mapM (fun a => sprintf cap (f a))
      = if ∀ a ∈ l, (f a).length + 1 ≤ cap then .ok (l.map f) else .ub
  | [] => by simp
  | a :: l => by
      rw [List.mapM_cons, mapM_sprintf cap f l]
      unfold sprintf
      by_cases h : (f a).length + 1 ≤ cap
      · rw [if_pos h, Outcome.bind_ok]
        by_cases h' : ∀ a ∈ l, (f a).length + 1 ≤ cap
        · rw [if_pos h', if_pos (by intro x hx; rcases List.mem_cons.1 hx with rfl | hx; exact h; exact h' x hx)]
          rfl
        · rw [if_neg h', if_neg (fun hh => h' fun x hx => hh x (List.mem_cons_of_mem _ hx))]
          rfl
      · rw [if_neg h, Outcome.bind_ub, if_neg (fun hh => h (hh a List.mem_cons_self))]

theorem dec_length_le {n k : Nat} (hk : 0 < k) : (dec n).length ≤ k ↔ n < 10 ^ k :=
  Nat.length_toDigits_le_iff (by omega) hk

theorem dec_length_pos (n : Nat) : 0 < (dec n).length := Nat.length_toDigits_pos

end Verif.Names
