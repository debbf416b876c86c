import Verif.Pcu.CollValues
/-! The control flow of a collective does not depend on the data; ghost data shows who has started -/
namespace Verif.Pcu.Coll

variable {V W : Type}

/-- same control state -/
def SameCtl (a : Nat → RankSt V) (b : Nat → RankSt W) : Prop :=
  ∀ r, (a r).started = (b r).started ∧ (a r).prog = (b r).prog ∧ (a r).sent = (b r).sent

theorem lift_step {op : V → V → V} (op' : W → W → W) {N : Nat} {a a' : Nat → RankSt V}
    {b : Nat → RankSt W} (h : SameCtl a b) (hs : Step op N a a') :
    ∃ b', Step op' N b b' ∧ SameCtl a' b' := by
  cases hs with
  | start r hr hst =>
    refine ⟨_, Step.start r hr (by rw [← (h r).1]; exact hst), fun j => ?_⟩
    by_cases hj : j = r
    · subst hj; simp only [upd_same]; exact ⟨trivial, (h j).2.1, (h j).2.2⟩
    · rw [upd_ne _ _ hj, upd_ne _ _ hj]; exact h j
  | issue r p rest hst hp hn =>
    refine ⟨_, Step.issue r p rest (by rw [← (h r).1]; exact hst) (by rw [← (h r).2.1]; exact hp)
      (by rw [← (h r).2.2]; exact hn), fun j => ?_⟩
    by_cases hj : j = r
    · subst hj; simp only [upd_same]; exact ⟨(h j).1, (h j).2.1, trivial⟩
    · rw [upd_ne _ _ hj, upd_ne _ _ hj]; exact h j
  | done r p rest hst hp hn =>
    refine ⟨_, Step.done r p rest (by rw [← (h r).1]; exact hst) (by rw [← (h r).2.1]; exact hp)
      (by rw [← (h r).2.2]; exact hn), fun j => ?_⟩
    by_cases hj : j = r
    · subst hj; simp only [upd_same]; exact ⟨(h j).1, trivial, trivial⟩
    · rw [upd_ne _ _ hj, upd_ne _ _ hj]; exact h j
  | recv r p k rest rest' hst hp hp' hi =>
    refine ⟨_, Step.recv r p k rest rest' (by rw [← (h r).1]; exact hst)
      (by rw [← (h r).2.1]; exact hp) (by rw [← (h p).2.1]; exact hp')
      (by rw [← (h p).2.2]; exact hi), fun j => ?_⟩
    by_cases hj : j = r
    · subst hj; simp only [upd_same]; exact ⟨(h j).1, trivial, (h j).2.2⟩
    · rw [upd_ne _ _ hj, upd_ne _ _ hj]
      by_cases hj2 : j = p
      · subst hj2; simp only [upd_same]; exact ⟨(h j).1, (h j).2.1, trivial⟩
      · rw [upd_ne _ _ hj2, upd_ne _ _ hj2]; exact h j

theorem lift_steps {op : V → V → V} (op' : W → W → W) {N n : Nat} {a a' : Nat → RankSt V}
    {b : Nat → RankSt W} (hs : Steps op N n a a') (h : SameCtl a b) :
    ∃ b', Steps op' N n b b' ∧ SameCtl a' b' := by
  induction hs with
  | refl => exact ⟨b, .refl b, h⟩
  | tail _ hstep ih =>
    obtain ⟨c, hc, hcc⟩ := ih h
    obtain ⟨d, hd, hdd⟩ := lift_step op' hcc hstep
    exact ⟨d, .tail hc hd, hdd⟩

/-- knowledge: the list of ranks whose contribution has been merged -/
theorem know_step {N : Nat} {a b : Nat → RankSt (List Nat)}
    (h : ∀ p x, x ∈ (a p).val → x = p ∨ (a x).started = true)
    (hsent : ∀ p, (a p).sent = some false → (a p).started = true)
    (hs : Step (· ++ ·) N a b) :
    ∀ p x, x ∈ (b p).val → x = p ∨ (b x).started = true := by
  intro q x hx
  have mono : ∀ y, (a y).started = true → (b y).started = true := by
    intro y hy
    cases hs with
    | start r hr hst => by_cases hj : y = r
                        · subst hj; simp [upd_same]
                        · rw [upd_ne _ _ hj]; exact hy
    | issue r p rest hst hp hn => by_cases hj : y = r
                                  · subst hj; simp [upd_same, hy]
                                  · rw [upd_ne _ _ hj]; exact hy
    | done r p rest hst hp hn => by_cases hj : y = r
                                 · subst hj; simp [upd_same, hy]
                                 · rw [upd_ne _ _ hj]; exact hy
    | recv r p k rest rest' hst hp hp' hi =>
      by_cases hj : y = r
      · subst hj; simp [upd_same, hy]
      · rw [upd_ne _ _ hj]
        by_cases hj2 : y = p
        · subst hj2; simp [upd_same, hy]
        · rw [upd_ne _ _ hj2]; exact hy
  have lift : x ∈ (a q).val → x = q ∨ (b x).started = true := by
    intro hxa
    rcases h q x hxa with h1 | h1
    · exact Or.inl h1
    · exact Or.inr (mono x h1)
  cases hs with
  | start r hr hst =>
    apply lift
    by_cases hj : q = r
    · subst hj; simpa [upd_same] using hx
    · rwa [upd_ne _ _ hj] at hx
  | issue r p rest hst hp hn =>
    apply lift
    by_cases hj : q = r
    · subst hj; simpa [upd_same] using hx
    · rwa [upd_ne _ _ hj] at hx
  | done r p rest hst hp hn =>
    apply lift
    by_cases hj : q = r
    · subst hj; simpa [upd_same] using hx
    · rwa [upd_ne _ _ hj] at hx
  | recv r p k rest rest' hst hp hp' hi =>
    by_cases hj : q = r
    · subst hj
      rw [upd_same] at hx
      have hx' : x ∈ (a q).val ∨ x ∈ (a p).val := by
        cases k with
        | merge => simpa [apply] using hx
        | assign => right; simpa [apply] using hx
      rcases hx' with hx' | hx'
      · exact lift hx'
      · rcases h p x hx' with h1 | h1
        · subst h1; exact Or.inr (mono x (hsent x hi))
        · exact Or.inr (mono x h1)
    · apply lift
      rw [upd_ne _ _ hj] at hx
      by_cases hj2 : q = p
      · subst hj2; simpa [upd_same] using hx
      · rwa [upd_ne _ _ hj2] at hx

theorem know_steps {N n : Nat} {E0 : List Event} {v0 : Nat → List Nat}
    {a b : Nat → RankSt (List Nat)} (hinv : ∃ E, NetInv (· ++ ·) N E0 v0 a E)
    (hs : Steps (· ++ ·) N n a b)
    (h : ∀ p x, x ∈ (a p).val → x = p ∨ (a x).started = true) :
    ∀ p x, x ∈ (b p).val → x = p ∨ (b x).started = true := by
  induction hs with
  | refl => exact h
  | tail hs' hstep ih =>
    obtain ⟨E, hE⟩ := netInv_steps hs' hinv
    refine know_step (ih hinv h) ?_ hstep
    intro p hp
    have := hE.rank p
    simp only [RankInv, hp] at this
    exact this.1

theorem mem_seg (n m : Nat) (hm : m ≤ n) : m ∈ seg (· ++ ·) (fun r => [r]) 0 n := by
  induction n with
  | zero => have : m = 0 := by omega
            subst this; simp [seg_zero]
  | succ n ih =>
    rw [seg_succ, List.mem_append]
    by_cases h : m ≤ n
    · exact Or.inl (ih h)
    · right; simp; omega

end Verif.Pcu.Coll
