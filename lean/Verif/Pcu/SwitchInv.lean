import Verif.Pcu.SwitchSpec
import Verif.Pcu.WholeProps
/-! C81: invariants -/
namespace Verif.Pcu.Switch

variable {α V : Type} {W : Job V} {G S n : Nat}

theorem upd_same {β : Type} (f : Nat → β) (i : Nat) (x : β) : upd f i x i = x := by simp [upd]
theorem upd_ne {β : Type} (f : Nat → β) {i j : Nat} (x : β) (h : j ≠ i) : upd f i x j = f j := by simp [upd, h]

/-- not all of the rank's local state, but what a step can see -/
def Fresh (W : Job V) (s r : Nat) (x : Whole.State α V) : Prop :=
  Untouched (Whole.initial (W.segs s).comm (W.segs s).size (W.segs s).len (W.segs s).junk) x r

/-- the invariant -/
structure Inv (W : Job V) (G S : Nat) (st : State α V) : Prop where
  suffix : ∀ g, st.todo g <:+ W.plan g
  fresh : ∀ s, s < S → ∀ r, r < (W.segs s).size → ¬ Entered W st ((W.segs s).who r) s → Fresh W s r (st.seg s)
  over : ∀ s, s < S → ∀ r, r < (W.segs s).size → Closed st ((W.segs s).who r) s → ((st.seg s).coll r).prog = []
  reach : ∀ s, s < S → ∃ k, Whole.Reach (W.segs s).calls (W.segs s).comm (W.segs s).size (W.segs s).len (W.segs s).junk k (st.seg s)

theorem who_mem (hL : Legal W G S) {s r : Nat} (hs : s < S) (hr : r < (W.segs s).size) : s ∈ W.plan ((W.segs s).who r) :=
  (hL.member _ s).mpr ⟨hs, r, hr, rfl⟩

theorem head_mem {l : List Nat} {s : Nat} (h : l.head? = some s) : s ∈ l := by
  cases l with
  | nil => simp at h
  | cons a l => simp at h; simp [h]

theorem head_of_not_tail {l : List Nat} {s : Nat} (h : s ∈ l) (ht : s ∉ l.tail) : l.head? = some s := by
  cases l with
  | nil => simp at h
  | cons a l =>
    simp only [List.tail_cons] at ht
    rcases List.mem_cons.mp h with rfl | h
    · rfl
    · exact absurd h ht

theorem inv_init (hL : Legal W G S) : Inv W G S (initial W : State α V) := by
  refine ⟨fun g => List.suffix_refl _, ?_, ?_, ?_⟩
  · intro s _ r _ _
    exact ⟨rfl, rfl, rfl⟩
  · intro s hs r hr h
    rcases h with h | ⟨-, h⟩
    · exact absurd (who_mem hL hs hr) h
    · exact absurd h (by simp [initial])
  · intro s hs
    exact ⟨0, .init⟩

theorem todo_nodup (hO : Once W G) {st : State α V} (h : Inv W G S st) {g : Nat} (hg : g < G) : (st.todo g).Nodup :=
  (hO g hg).sublist (h.suffix g).sublist

theorem not_inside_of_closed {st : State α V} {g s : Nat} (hc : Closed st g s) :
    ¬ Inside st g s := by
  rintro ⟨h1, h2⟩
  rcases hc with hc | ⟨-, hc⟩
  · exact hc (head_mem h1)
  · rw [hc] at h2; cases h2

theorem not_inside_of_not_entered {st : State α V} (h : Inv W G S st) {g s : Nat}
    (hc : ¬ Entered W st g s) : ¬ Inside st g s := by
  rintro ⟨h1, h2⟩
  exact hc ⟨(h.suffix g).subset (head_mem h1), Or.inr ⟨h1, by rw [h2]; decide⟩⟩

theorem fresh_untouched {s r : Nat} {x y : Whole.State α V} (hx : Fresh W s r x) (h : Untouched x y r) : Fresh W s r y :=
  ⟨h.1.trans hx.1, h.2.1.trans hx.2.1, h.2.2.trans hx.2.2⟩

/-- a process changes its stage; where it is does not change -/
theorem inv_stage (hL : Legal W G S) {st : State α V} (h : Inv W G S st) {g : Nat} {x : Stage}
    (h1 : st.stage g ≠ .arriving → x ≠ .arriving)
    (h2 : x = .leaving → ∀ s, s < S → ∀ r, r < (W.segs s).size → (W.segs s).who r = g → (st.todo g).head? = some s →
      ((st.seg s).coll r).prog = []) :
    Inv W G S { st with stage := upd st.stage g x } := by
  refine ⟨h.suffix, ?_, ?_, h.reach⟩
  · intro s hs r hr hne
    refine h.fresh s hs r hr ?_
    rintro ⟨a, b⟩
    refine hne ⟨a, b.imp id ?_⟩
    rintro ⟨c, d⟩
    refine ⟨c, ?_⟩
    show upd st.stage g x _ ≠ _
    by_cases hj : (W.segs s).who r = g
    · rw [hj] at d ⊢; rw [upd_same]; exact h1 d
    · rw [upd_ne _ _ hj]; exact d
  · intro s hs r hr hc
    rcases hc with hc | ⟨hc, hd⟩
    · exact h.over s hs r hr (Or.inl hc)
    · change upd st.stage g x _ = _ at hd
      change s ∉ (st.todo _).tail at hc
      by_cases hj : (W.segs s).who r = g
      · rw [hj] at hd hc
        rw [upd_same] at hd
        by_cases hm : s ∈ st.todo g
        · exact h2 hd s hs r hr hj (head_of_not_tail hm hc)
        · exact h.over s hs r hr (Or.inl (by rw [hj]; exact hm))
      · rw [upd_ne _ _ hj] at hd
        exact h.over s hs r hr (Or.inr ⟨hc, hd⟩)

theorem inv_step (hL : Legal W G S) (hO : Once W G) {a b : State α V} (h : Inv W G S a) (hs : Step W a b) : Inv W G S b := by
  cases hs with
  | act s r x hr hi hx hin =>
    refine ⟨h.suffix, ?_, ?_, ?_⟩
    · intro s' hs' q hq hne
      show Fresh W s' q (upd a.seg s x s')
      have hf := h.fresh s' hs' q hq hne
      by_cases hj : s' = s
      · subst hj
        rw [upd_same]
        exact fresh_untouched hf (hin q hq (not_inside_of_not_entered h hne))
      · rw [upd_ne _ _ hj]; exact hf
    · intro s' hs' q hq hc
      show ((upd a.seg s x s').coll q).prog = []
      have hf := h.over s' hs' q hq hc
      by_cases hj : s' = s
      · subst hj
        rw [upd_same, (hin q hq (not_inside_of_closed hc)).1]
        exact hf
      · rw [upd_ne _ _ hj]; exact hf
    · intro s' hs'
      show ∃ k, Whole.Reach _ _ _ _ _ k (upd a.seg s x s')
      obtain ⟨k, hk⟩ := h.reach s' hs'
      by_cases hj : s' = s
      · subst hj
        rw [upd_same]
        exact ⟨k + 1, .step hk hx⟩
      · rw [upd_ne _ _ hj]; exact ⟨k, hk⟩
  | enter s r hr ht hst hw =>
    exact inv_stage hL h (fun hne => absurd hst hne) (fun hx => by cases hx)
  | close s r hr hi hp =>
    refine inv_stage hL h (fun _ => by decide) ?_
    intro _ s' hs' q hq hwho hhead
    have : s' = s := by
      have := hi.1
      rw [hhead] at this
      exact Option.some.inj this
    subst this
    rw [hL.distinct s' hs' q r hq hr hwho]
    exact hp
  | freed s r rest hr ht hst hw =>
    generalize hg : (W.segs s).who r = g at *
    have hsplit : ∀ s', s' < S → ∀ q, q < (W.segs s').size → (W.segs s').who q = g → g < G := by
      intro s' hs' q hq hw'; rw [← hw']; exact hL.proc s' hs' q hq
    refine ⟨?_, ?_, ?_, h.reach⟩
    · intro g'
      show upd a.todo g rest g' <:+ _
      by_cases hj : g' = g
      · subst hj
        rw [upd_same]
        exact List.IsSuffix.trans ⟨[s], by simp [ht]⟩ (h.suffix g')
      · rw [upd_ne _ _ hj]; exact h.suffix g'
    · intro s' hs' q hq hne
      refine h.fresh s' hs' q hq ?_
      rintro ⟨p, hp⟩
      refine hne ⟨p, ?_⟩
      show s' ∉ upd a.todo g rest _ ∨ (upd a.todo g rest _).head? = _ ∧ upd a.stage g _ _ ≠ _
      by_cases hj : (W.segs s').who q = g
      · rw [hj] at hp ⊢
        rw [upd_same]
        left
        have hnd := todo_nodup hO h (hsplit s' hs' q hq hj)
        rw [ht] at hp hnd
        rcases hp with hp | ⟨hp, -⟩
        · exact fun hm => hp (List.mem_cons_of_mem _ hm)
        · simp at hp; subst hp
          exact (List.nodup_cons.mp hnd).1
      · rw [upd_ne _ _ hj, upd_ne _ _ hj]; exact hp
    · intro s' hs' q hq hc
      refine h.over s' hs' q hq ?_
      change s' ∉ upd a.todo g rest _ ∨ _ ∧ upd a.stage g _ _ = _ at hc
      by_cases hj : (W.segs s').who q = g
      · rw [hj] at hc ⊢
        rw [upd_same, upd_same] at hc
        have hc : s' ∉ rest := hc.elim id (fun h => by cases h.2)
        exact Or.inr ⟨by rw [ht]; exact hc, hst⟩
      · rw [upd_ne _ _ hj, upd_ne _ _ hj] at hc
        exact hc.imp id (fun ⟨x, y⟩ => ⟨by rwa [show ({ a with todo := upd a.todo g rest, stage := upd a.stage g .arriving } : State α V).todo ((W.segs s').who q) = a.todo ((W.segs s').who q) from upd_ne _ _ hj] at x, y⟩)

theorem inv_reach (hL : Legal W G S) (hO : Once W G) {st : State α V} (h : Reach W n st) : Inv W G S st := by
  induction h with
  | init => exact inv_init hL
  | step _ hs ih => exact inv_step hL hO ih hs

end Verif.Pcu.Switch
