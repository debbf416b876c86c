import Verif.Pcu.PhaseSpec
/-! Inductive invariants of the phase protocol -/
namespace Verif.Pcu.Phase

variable {α : Type}

/-! ## invariants -/

/-- rank `s` has performed `PCU_Comm_Send` of phase `p` -/
def HasSent (s : Rank α) (p : Nat) : Prop :=
  p < s.phase ∨ (p = s.phase ∧ s.mode ≠ .starting ∧ s.mode ≠ .pack)

/-- number of barriers entered, as a function of the state -/
def expectedEntered (s : Rank α) : Nat :=
  match s.mode with
  | .idle => 2 * s.phase
  | .recv => 2 * s.phase
  | _ => 2 * s.phase - 1

/-- number of the last barrier left -/
def left (s : Rank α) : Nat :=
  match s.mode with
  | .idle => 2 * s.phase
  | .starting => 2 * s.phase - 2
  | _ => 2 * s.phase - 1

structure Inv (N : Nat) (st : State α) : Prop where
  count : ∀ r, (st.rank r).entered = expectedEntered (st.rank r)
  pos : ∀ r, (st.rank r).mode ≠ .idle → 1 ≤ (st.rank r).phase
  barrier : ∀ r q, r < N → q < N → left (st.rank r) ≤ (st.rank q).entered
  flight : ∀ m ∈ st.net, (st.rank m.src).mode = .sendRecv ∧ (st.rank m.src).phase = m.phase
  nodup : (st.got.map (·.msg) ++ st.net).Nodup
  exact' : ∀ m, m ∈ st.got.map (·.msg) ++ st.net ↔
    (Owed N st m ∧ HasSent (st.rank m.src) m.phase ∧ 1 ≤ m.phase)
  deliv : ∀ d ∈ st.got, d.msg.dst = d.rank ∧ d.msg.phase = d.phase
  peers : ∀ r d, r < N → (st.rank r).mode = .pack →
    (st.rank r).peers d = if pieces st r d (st.rank r).phase = [] then none
      else some (pieces st r d (st.rank r).phase).flatten
  clean : ∀ r d, (st.rank r).mode = .idle ∨ (st.rank r).mode = .starting → (st.rank r).peers d = none
  packs : ∀ k ∈ st.packs, k.phase < (st.rank k.src).phase ∨
    (k.phase = (st.rank k.src).phase ∧ (st.rank k.src).mode ≠ .starting)
  range : ∀ k ∈ st.packs, 1 ≤ k.phase ∧ k.dst < N

theorem upd_same {β : Type} (f : Nat → β) (i : Nat) (x : β) : upd f i x i = x := by simp [upd]
theorem upd_ne {β : Type} (f : Nat → β) {i j : Nat} (x : β) (h : j ≠ i) : upd f i x j = f j := by
  simp [upd, h]

theorem inv_init (N : Nat) : Inv N (init : State α) := by
  constructor <;> simp [init, expectedEntered, left, pieces, Owed]

/-- steps that only change `mode`, `phase`, `entered`, `peers` of one rank -/
theorem pieces_eq {a b : State α} (h : b.packs = a.packs) (s d p : Nat) :
    pieces b s d p = pieces a s d p := by simp [pieces, h]

theorem owed_iff {N : Nat} {a b : State α} (h : b.packs = a.packs) (m : Msg α) :
    Owed N b m ↔ Owed N a m := by simp [Owed, pieces_eq h]

theorem pieces_nil_of_future {N : Nat} {st : State α} (h : Inv N st) {s d p : Nat}
    (hp : (st.rank s).phase < p ∨ ((st.rank s).phase = p ∧ (st.rank s).mode = .starting)) :
    pieces st s d p = [] := by
  simp only [pieces, List.map_eq_nil_iff, List.filter_eq_nil_iff, decide_eq_true_eq]
  rintro k hk ⟨h1, h2, h3⟩
  have := h.packs k hk
  rw [h1, h3] at this
  rcases this with h4 | ⟨h4, h5⟩
  · omega
  · rcases hp with h6 | ⟨h6, h7⟩
    · omega
    · exact h5 h7

theorem mem_outgoing {N r : Nat} {s : Rank α} {m : Msg α} :
    m ∈ outgoing N r s ↔ m.src = r ∧ m.dst < N ∧ m.phase = s.phase ∧ s.peers m.dst = some m.data := by
  simp only [outgoing, List.mem_filterMap, List.mem_range, Option.map_eq_some_iff]
  constructor
  · rintro ⟨d, hd, b, hb, rfl⟩
    exact ⟨rfl, hd, rfl, hb⟩
  · rintro ⟨rfl, h2, h3, h4⟩
    exact ⟨m.dst, h2, m.data, h4, by cases m; simp_all⟩

theorem outgoing_nodup (N r : Nat) (s : Rank α) : (outgoing N r s).Nodup := by
  unfold outgoing
  have key : ∀ l : List Nat, l.Nodup →
      (l.filterMap (fun d => (s.peers d).map (fun b => (⟨r, d, b, s.phase⟩ : Msg α)))).Nodup := by
    intro l
    induction l with
    | nil => simp
    | cons a l ih =>
      intro hl
      rw [List.nodup_cons] at hl
      rw [List.filterMap_cons]
      cases hb : s.peers a with
      | none => simpa using ih hl.2
      | some b =>
        simp only [Option.map_some, List.nodup_cons]
        refine ⟨?_, ih hl.2⟩
        intro hmem
        obtain ⟨d, hd, he⟩ := List.mem_filterMap.mp hmem
        rw [Option.map_eq_some_iff] at he
        obtain ⟨c, _, he⟩ := he
        have : d = a := by
          have := congrArg Msg.dst he
          simpa using this
        subst this
        exact hl.1 hd
  exact key _ List.nodup_range

theorem inv_step {N K : Nat} {a b : State α} (h : Inv N a) (hs : Step N K a b) : Inv N b := by
  cases hs with
  | begin r hr hm hK =>
    have hcr := h.count r
    simp only [expectedEntered, hm] at hcr
    constructor
    · intro q
      by_cases hq : q = r
      · subst hq; simp only [upd_same, expectedEntered]; omega
      · simp only [upd_ne _ _ hq]; exact h.count q
    · intro q hq'
      by_cases hq : q = r
      · subst hq; simp only [upd_same]; omega
      · simp only [upd_ne _ _ hq] at hq' ⊢; exact h.pos q hq'
    · intro p q hp hq
      have hb := h.barrier p q hp hq
      have hl : left (upd a.rank r { a.rank r with mode := .starting, phase := (a.rank r).phase + 1, entered := (a.rank r).entered + 1 } p) ≤ left (a.rank p) := by
        by_cases hpr : p = r
        · subst hpr; simp only [upd_same, left, hm]; omega
        · simp only [upd_ne _ _ hpr]; exact Nat.le_refl _
      refine Nat.le_trans hl (Nat.le_trans hb ?_)
      by_cases hqr : q = r
      · subst hqr; simp only [upd_same]; omega
      · simp only [upd_ne _ _ hqr]; exact Nat.le_refl _
    · intro m hmem
      have := h.flight m hmem
      by_cases hq : m.src = r
      · rw [hq, hm] at this; simp at this
      · simp only [upd_ne _ _ hq]; exact this
    · exact h.nodup
    · intro m
      rw [h.exact' m]
      change _ ↔ (Owed N a m ∧ _)
      by_cases hq : m.src = r
      · subst hq
        simp only [upd_same, HasSent, hm]
        constructor
        · rintro ⟨h1, h2, h3⟩; exact ⟨h1, by omega, h3⟩
        · rintro ⟨h1, h2, h3⟩
          refine ⟨h1, ?_, h3⟩
          simp at h2
          by_cases hlt : m.phase < (a.rank m.src).phase
          · left; exact hlt
          · right; exact ⟨by omega, by simp⟩
      · simp only [upd_ne _ _ hq]
    · exact h.deliv
    · intro q d hq hm'
      by_cases hqr : q = r
      · subst hqr; simp [upd_same] at hm'
      · simp only [upd_ne _ _ hqr] at hm' ⊢; exact h.peers q d hq hm'
    · intro q d hm'
      by_cases hqr : q = r
      · subst hqr; simp only [upd_same]; exact h.clean q d (Or.inl hm)
      · simp only [upd_ne _ _ hqr] at hm' ⊢; exact h.clean q d hm'
    · intro k hk
      have := h.packs k hk
      by_cases hq : k.src = r
      · subst hq; simp only [upd_same]; left; omega
      · simp only [upd_ne _ _ hq]; exact this
    · exact h.range
  | started r hr hm hb0 =>
    have hcr := h.count r
    simp only [expectedEntered, hm] at hcr
    have hpos := h.pos r (by simp [hm])
    constructor
    · intro q
      by_cases hq : q = r
      · subst hq; simp only [upd_same, expectedEntered]; omega
      · simp only [upd_ne _ _ hq]; exact h.count q
    · intro q hq'
      by_cases hq : q = r
      · subst hq; simp only [upd_same]; omega
      · simp only [upd_ne _ _ hq] at hq' ⊢; exact h.pos q hq'
    · intro p q hp hq
      have he : (upd a.rank r { a.rank r with mode := .pack } q).entered = (a.rank q).entered := by
        by_cases hqr : q = r
        · subst hqr; simp only [upd_same]
        · simp only [upd_ne _ _ hqr]
      rw [he]
      by_cases hpr : p = r
      · subst hpr
        simp only [upd_same, left]
        have := hb0 q hq
        omega
      · simp only [upd_ne _ _ hpr]; exact h.barrier p q hp hq
    · intro m hmem
      have := h.flight m hmem
      by_cases hq : m.src = r
      · rw [hq, hm] at this; simp at this
      · simp only [upd_ne _ _ hq]; exact this
    · exact h.nodup
    · intro m
      rw [h.exact' m]
      change _ ↔ (Owed N a m ∧ _)
      by_cases hq : m.src = r
      · subst hq
        simp [upd_same, HasSent, hm]
      · simp only [upd_ne _ _ hq]
    · exact h.deliv
    · intro q d hq hm'
      by_cases hqr : q = r
      · subst hqr
        have h1 : pieces { a with rank := upd a.rank q { a.rank q with mode := .pack } } q d (a.rank q).phase = [] := by
          change pieces a q d (a.rank q).phase = []
          exact pieces_nil_of_future h (Or.inr ⟨rfl, hm⟩)
        simp only [upd_same]
        rw [if_pos h1]
        exact h.clean q d (Or.inr hm)
      · simp only [upd_ne _ _ hqr] at hm' ⊢
        exact h.peers q d hq hm'
    · intro q d hm'
      by_cases hqr : q = r
      · subst hqr; simp [upd_same] at hm'
      · simp only [upd_ne _ _ hqr] at hm' ⊢; exact h.clean q d hm'
    · intro k hk
      have := h.packs k hk
      by_cases hq : k.src = r
      · subst hq; simp only [upd_same]
        rcases this with h1 | h1
        · exact Or.inl h1
        · exact Or.inr ⟨h1.1, by simp⟩
      · simp only [upd_ne _ _ hq]; exact this
    · exact h.range
  | pack r d0 bytes hr hd0 hm =>
    have hpos := h.pos r (by simp [hm])
    have hpieces : ∀ s d p, pieces { a with
        rank := upd a.rank r { a.rank r with peers := pushPeer (a.rank r).peers d0 bytes }
        packs := a.packs ++ [⟨r, d0, (a.rank r).phase, bytes⟩] } s d p =
        pieces a s d p ++ if r = s ∧ d0 = d ∧ (a.rank r).phase = p then [bytes] else [] := by
      intro s d p
      simp only [pieces, List.filter_append, List.map_append]
      congr 1
      by_cases hc : r = s ∧ d0 = d ∧ (a.rank r).phase = p
      · rw [if_pos hc]
        obtain ⟨rfl, rfl, rfl⟩ := hc
        simp
      · rw [if_neg hc]
        rw [List.filter_cons]
        simp [hc]
    constructor
    · intro q
      by_cases hq : q = r
      · subst hq
        simp only [upd_same, expectedEntered]; exact h.count q
      · simp only [upd_ne _ _ hq]; exact h.count q
    · intro q hq'
      by_cases hq : q = r
      · subst hq; simp only [upd_same]; omega
      · simp only [upd_ne _ _ hq] at hq' ⊢; exact h.pos q hq'
    · intro p q hp hq
      have h1 : ∀ q, (upd a.rank r { a.rank r with peers := pushPeer (a.rank r).peers d0 bytes } q).entered = (a.rank q).entered := by
        intro q
        by_cases hqr : q = r
        · subst hqr; simp only [upd_same]
        · simp only [upd_ne _ _ hqr]
      have h2 : left (upd a.rank r { a.rank r with peers := pushPeer (a.rank r).peers d0 bytes } p) = left (a.rank p) := by
        by_cases hqr : p = r
        · subst hqr; simp only [upd_same, left]
        · simp only [upd_ne _ _ hqr]
      simp only [h1, h2]
      exact h.barrier p q hp hq
    · intro m hmem
      have := h.flight m hmem
      by_cases hq : m.src = r
      · rw [hq, hm] at this; simp at this
      · simp only [upd_ne _ _ hq]; exact this
    · exact h.nodup
    · intro m
      rw [h.exact' m]
      simp only [Owed, hpieces]
      by_cases hq : r = m.src ∧ d0 = m.dst ∧ (a.rank r).phase = m.phase
      · have h1 : ¬ HasSent (a.rank m.src) m.phase := by
          rw [← hq.1, ← hq.2.2]; simp [HasSent, hm]
        have h2 : ¬ HasSent (upd a.rank r { a.rank r with peers := pushPeer (a.rank r).peers d0 bytes } m.src) m.phase := by
          rw [← hq.1, ← hq.2.2]; simp [HasSent, hm, upd_same]
        constructor
        · rintro ⟨_, h3, _⟩; exact absurd h3 h1
        · rintro ⟨_, h3, _⟩; exact absurd h3 h2
      · rw [if_neg hq, List.append_nil]
        by_cases hq2 : m.src = r
        · subst hq2; simp only [upd_same, HasSent]
        · simp only [upd_ne _ _ hq2]
    · exact h.deliv
    · intro q d hq hm'
      rw [hpieces]
      by_cases hqr : q = r
      · subst hqr
        simp only [upd_same]
        have h1 := h.peers q d hq hm
        by_cases hd : d0 = d
        · subst hd
          simp only [and_self, if_true, pushPeer, upd_same]
          rw [if_neg (by simp), h1]
          by_cases he : pieces a q d0 (a.rank q).phase = []
          · simp [he]
          · simp [he]
        · simp only [pushPeer, upd_ne _ _ (Ne.symm hd), h1, hd, false_and, and_false, if_false, List.append_nil]
      · simp only [upd_ne _ _ hqr] at hm' ⊢
        rw [if_neg (show ¬ (r = q ∧ d0 = d ∧ (a.rank r).phase = (a.rank q).phase) from
          fun h1 => hqr h1.1.symm), List.append_nil]
        exact h.peers q d hq hm'
    · intro q d hm'
      by_cases hqr : q = r
      · subst hqr; simp [upd_same, hm] at hm'
      · simp only [upd_ne _ _ hqr] at hm' ⊢; exact h.clean q d hm'
    · intro k hk
      rcases List.mem_append.mp hk with hk | hk
      · have := h.packs k hk
        by_cases hq : k.src = r
        · subst hq; simp only [upd_same]; exact this
        · simp only [upd_ne _ _ hq]; exact this
      · simp only [List.mem_singleton] at hk
        subst hk
        simp [upd_same, hm]
    · intro k hk
      rcases List.mem_append.mp hk with hk | hk
      · exact h.range k hk
      · simp only [List.mem_singleton] at hk
        subst hk
        exact ⟨hpos, hd0⟩
  | send r hr hm =>
    have hpos := h.pos r (by simp [hm])
    have hcr := h.count r
    have hout : ∀ m, m ∈ outgoing N r (a.rank r) ↔
        (Owed N a m ∧ m.src = r ∧ m.phase = (a.rank r).phase) := by
      intro m
      rw [mem_outgoing]
      constructor
      · rintro ⟨h1, h2, h3, h4⟩
        rw [h.peers r m.dst hr hm] at h4
        rw [Owed, h1, h3]
        by_cases he : pieces a r m.dst (a.rank r).phase = []
        · rw [if_pos he] at h4; simp at h4
        · rw [if_neg he] at h4
          exact ⟨⟨hr, h2, he, by simpa using h4.symm⟩, rfl, rfl⟩
      · rintro ⟨⟨h1, h2, h3, h4⟩, h5, h6⟩
        refine ⟨h5, h2, h6, ?_⟩
        rw [h.peers r m.dst hr hm]
        rw [h5, h6] at h3 h4
        rw [if_neg h3, h4]
    constructor
    · intro q
      by_cases hq : q = r
      · subst hq
        simp only [expectedEntered, hm] at hcr
        simp only [upd_same, expectedEntered]; exact hcr
      · simp only [upd_ne _ _ hq]; exact h.count q
    · intro q hq'
      by_cases hq : q = r
      · subst hq; simp only [upd_same]; omega
      · simp only [upd_ne _ _ hq] at hq' ⊢; exact h.pos q hq'
    · intro p q hp hq
      have h1 : (upd a.rank r { a.rank r with mode := .sendRecv } q).entered = (a.rank q).entered := by
        by_cases hqr : q = r
        · subst hqr; simp only [upd_same]
        · simp only [upd_ne _ _ hqr]
      have h2 : left (upd a.rank r { a.rank r with mode := .sendRecv } p) = left (a.rank p) := by
        by_cases hqr : p = r
        · subst hqr; simp only [upd_same, left, hm]
        · simp only [upd_ne _ _ hqr]
      simp only [h1, h2]
      exact h.barrier p q hp hq
    · intro m hmem
      rcases List.mem_append.mp hmem with hmem | hmem
      · have := h.flight m hmem
        by_cases hq : m.src = r
        · rw [hq, hm] at this; simp at this
        · simp only [upd_ne _ _ hq]; exact this
      · have := (hout m).mp hmem
        rw [this.2.1]; simp only [upd_same]; exact ⟨trivial, this.2.2.symm⟩
    · rw [← List.append_assoc, List.nodup_append]
      refine ⟨h.nodup, outgoing_nodup N r _, ?_⟩
      intro x hx y hy hxy
      subst hxy
      have h1 := (h.exact' x).mp hx
      have h2 := (hout x).mp hy
      have h3 := h1.2.1
      rw [h2.2.1, h2.2.2] at h3
      simp [HasSent, hm] at h3
    · intro m
      rw [← List.append_assoc, List.mem_append, h.exact' m, hout m]
      change _ ↔ (Owed N a m ∧ _)
      by_cases hq : m.src = r
      · rw [hq]
        simp only [upd_same, HasSent, hm]
        constructor
        · rintro (⟨h1, h2, h3⟩ | ⟨h1, h2, h3⟩)
          · exact ⟨h1, by simp at h2 ⊢; omega, h3⟩
          · exact ⟨h1, by simp; omega, by omega⟩
        · rintro ⟨h1, h2, h3⟩
          simp at h2 ⊢
          rcases h2 with h2 | h2
          · exact Or.inl ⟨h1, h2, h3⟩
          · exact Or.inr ⟨h1, h2⟩
      · simp only [upd_ne _ _ hq]
        constructor
        · rintro (h1 | ⟨h1, h2, h3⟩)
          · exact h1
          · exact absurd h2 hq
        · intro h1; exact Or.inl h1
    · exact h.deliv
    · intro q d hq hm'
      by_cases hqr : q = r
      · subst hqr; simp [upd_same] at hm'
      · simp only [upd_ne _ _ hqr] at hm' ⊢
        exact h.peers q d hq hm'
    · intro q d hm'
      by_cases hqr : q = r
      · subst hqr; simp [upd_same] at hm'
      · simp only [upd_ne _ _ hqr] at hm' ⊢; exact h.clean q d hm'
    · intro k hk
      have := h.packs k hk
      by_cases hq : k.src = r
      · subst hq; simp only [upd_same]
        rcases this with h1 | h1
        · exact Or.inl h1
        · exact Or.inr ⟨h1.1, by simp⟩
      · simp only [upd_ne _ _ hq]; exact this
    · exact h.range
  | listen r hr hm A B m hnet hdst =>
    have hmem : m ∈ a.net := by rw [hnet]; simp
    have hperm : ((a.got ++ [(⟨r, (a.rank r).phase, m⟩ : Delivery α)]).map (·.msg) ++ (A ++ B)).Perm
        (a.got.map (·.msg) ++ a.net) := by
      rw [hnet, List.map_append, List.append_assoc]
      refine List.Perm.append_left _ ?_
      simp only [List.map_cons, List.map_nil, List.singleton_append]
      exact List.perm_middle.symm
    constructor
    · exact h.count
    · exact h.pos
    · exact h.barrier
    · intro m' hm'
      refine h.flight m' ?_
      rw [hnet]
      rcases List.mem_append.mp hm' with h1 | h1 <;> simp [h1]
    · exact hperm.nodup_iff.mpr h.nodup
    · intro m'
      rw [hperm.mem_iff, h.exact' m']
      rfl
    · intro d hd
      rcases List.mem_append.mp hd with hd | hd
      · exact h.deliv d hd
      · simp only [List.mem_singleton] at hd
        subst hd
        refine ⟨hdst, ?_⟩
        show m.phase = (a.rank r).phase
        have hf := h.flight m hmem
        have hsN : m.src < N := ((h.exact' m).mp (by simp [hmem])).1.1
        -- the sender has left the start barrier of its phase and has not entered the end barrier
        have h1 := h.barrier m.src r hsN hr
        have h2 := h.barrier r m.src hr hsN
        have h3 := h.count m.src
        have h4 := h.count r
        have h5 := h.pos m.src (by simp [hf.1])
        have h6 := h.pos r (by rcases hm with hm | hm <;> simp [hm])
        rw [← hf.2]
        simp only [left, hf.1] at h1
        simp only [expectedEntered, hf.1] at h3
        rcases hm with hm | hm
        · simp only [left, hm] at h2
          simp only [expectedEntered, hm] at h4
          omega
        · simp only [left, hm] at h2
          simp only [expectedEntered, hm] at h4
          omega
    · exact h.peers
    · exact h.clean
    · exact h.packs
    · exact h.range
  | sent r hr hm hdone =>
    have hpos := h.pos r (by simp [hm])
    have hcr := h.count r
    simp only [expectedEntered, hm] at hcr
    constructor
    · intro q
      by_cases hq : q = r
      · subst hq; simp only [upd_same, expectedEntered]; omega
      · simp only [upd_ne _ _ hq]; exact h.count q
    · intro q hq'
      by_cases hq : q = r
      · subst hq; simp only [upd_same]; omega
      · simp only [upd_ne _ _ hq] at hq' ⊢; exact h.pos q hq'
    · intro p q hp hq
      have hb := h.barrier p q hp hq
      have h2 : left (upd a.rank r { a.rank r with mode := .recv, entered := (a.rank r).entered + 1 } p) = left (a.rank p) := by
        by_cases hqr : p = r
        · subst hqr; simp only [upd_same, left, hm]
        · simp only [upd_ne _ _ hqr]
      refine Nat.le_trans (Nat.le_of_eq h2) (Nat.le_trans hb ?_)
      by_cases hqr : q = r
      · subst hqr; simp only [upd_same]; omega
      · simp only [upd_ne _ _ hqr]; exact Nat.le_refl _
    · intro m hmem
      have hq : m.src ≠ r := hdone m hmem
      simp only [upd_ne _ _ hq]
      exact h.flight m hmem
    · exact h.nodup
    · intro m
      rw [h.exact' m]
      change _ ↔ (Owed N a m ∧ _)
      by_cases hq : m.src = r
      · subst hq; simp [upd_same, HasSent, hm]
      · simp only [upd_ne _ _ hq]
    · exact h.deliv
    · intro q d hq hm'
      by_cases hqr : q = r
      · subst hqr; simp [upd_same] at hm'
      · simp only [upd_ne _ _ hqr] at hm' ⊢
        exact h.peers q d hq hm'
    · intro q d hm'
      by_cases hqr : q = r
      · subst hqr; simp [upd_same] at hm'
      · simp only [upd_ne _ _ hqr] at hm' ⊢; exact h.clean q d hm'
    · intro k hk
      have := h.packs k hk
      by_cases hq : k.src = r
      · subst hq; simp only [upd_same]
        rcases this with h1 | h1
        · exact Or.inl h1
        · exact Or.inr ⟨h1.1, by simp⟩
      · simp only [upd_ne _ _ hq]; exact this
    · exact h.range
  | finish r hr hm hb0 =>
    have hpos := h.pos r (by simp [hm])
    have hcr := h.count r
    simp only [expectedEntered, hm] at hcr
    constructor
    · intro q
      by_cases hq : q = r
      · subst hq; simp only [upd_same, expectedEntered]; omega
      · simp only [upd_ne _ _ hq]; exact h.count q
    · intro q hq'
      by_cases hq : q = r
      · subst hq; simp only [upd_same]; omega
      · simp only [upd_ne _ _ hq] at hq' ⊢; exact h.pos q hq'
    · intro p q hp hq
      have he : (upd a.rank r { a.rank r with mode := .idle, peers := fun _ => none } q).entered = (a.rank q).entered := by
        by_cases hqr : q = r
        · subst hqr; simp only [upd_same]
        · simp only [upd_ne _ _ hqr]
      rw [he]
      by_cases hpr : p = r
      · subst hpr
        simp only [upd_same, left]
        have := hb0 q hq
        omega
      · simp only [upd_ne _ _ hpr]; exact h.barrier p q hp hq
    · intro m hmem
      have := h.flight m hmem
      by_cases hq : m.src = r
      · rw [hq, hm] at this; simp at this
      · simp only [upd_ne _ _ hq]; exact this
    · exact h.nodup
    · intro m
      rw [h.exact' m]
      change _ ↔ (Owed N a m ∧ _)
      by_cases hq : m.src = r
      · subst hq; simp [upd_same, HasSent, hm]
      · simp only [upd_ne _ _ hq]
    · exact h.deliv
    · intro q d hq hm'
      by_cases hqr : q = r
      · subst hqr; simp [upd_same] at hm'
      · simp only [upd_ne _ _ hqr] at hm' ⊢
        exact h.peers q d hq hm'
    · intro q d hm'
      by_cases hqr : q = r
      · subst hqr; simp only [upd_same]
      · simp only [upd_ne _ _ hqr] at hm' ⊢; exact h.clean q d hm'
    · intro k hk
      have := h.packs k hk
      by_cases hq : k.src = r
      · subst hq; simp only [upd_same]
        rcases this with h1 | h1
        · exact Or.inl h1
        · exact Or.inr ⟨h1.1, by simp⟩
      · simp only [upd_ne _ _ hq]; exact this
    · exact h.range

theorem inv_reach {N K n : Nat} {st : State α} (h : Reach N K n st) : Inv N st := by
  induction h with
  | init => exact inv_init N
  | step _ hs ih => exact inv_step ih hs

end Verif.Pcu.Phase
