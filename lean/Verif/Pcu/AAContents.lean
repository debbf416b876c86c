import Verif.Pcu.AALemmas
set_option linter.unusedSimpArgs false
namespace Verif.Pcu.AA

variable {α : Type}

/-- strictly increasing keys -/
def Sorted (key : α → Int) (l : List α) : Prop := l.Pairwise (fun a b => key a < key b)

theorem sorted_append_cons {key : α → Int} {A B : List α} {y : α} :
    Sorted key (A ++ y :: B) ↔ Sorted key A ∧ Sorted key B ∧ (∀ a ∈ A, key a < key y) ∧
      (∀ b ∈ B, key y < key b) := by
  simp only [Sorted, List.pairwise_append, List.pairwise_cons, List.mem_cons]
  constructor
  · rintro ⟨h1, ⟨h2, h3⟩, h4⟩
    exact ⟨h1, h3, fun a ha => h4 a ha y (Or.inl rfl), h2⟩
  · rintro ⟨h1, h2, h3, h4⟩
    refine ⟨h1, ⟨h4, h2⟩, ?_⟩
    rintro a ha b (rfl | hb)
    · exact h3 a ha
    · exact Int.lt_trans (h3 a ha) (h4 b hb)

/-- lookup in a list -/
def lookupL (key : α → Int) (k : Int) (l : List α) : Option α :=
  l.find? (fun a => decide (key a = k))

theorem lookupL_append (key : α → Int) (k : Int) (A B : List α) :
    lookupL key k (A ++ B) = (lookupL key k A).or (lookupL key k B) := by
  simp [lookupL, List.find?_append]

theorem lookupL_none {key : α → Int} {k : Int} {A : List α} (h : ∀ a ∈ A, key a ≠ k) :
    lookupL key k A = none := by
  simp only [lookupL, List.find?_eq_none]; simpa using h

theorem lookupL_cons (key : α → Int) (k : Int) (y : α) (A : List α) :
    lookupL key k (y :: A) = if key y = k then some y else lookupL key k A := by
  by_cases h : key y = k <;> simp [lookupL, List.find?_cons, h]

theorem find_eq (key : α → Int) (k : Int) (t : AA α) (h : Sorted key t.toList) :
    find key k t = lookupL key k t.toList := by
  induction t with
  | nil => rfl
  | node lv l y r ihl ihr =>
    simp only [toList] at h ⊢
    rw [sorted_append_cons] at h
    obtain ⟨hl, hr, hA, hB⟩ := h
    rw [lookupL_append, lookupL_cons]
    simp only [find]
    split
    · rename_i hlt
      rw [ihl hl, if_neg (by omega), lookupL_none (A := r.toList) (fun b hb => by
        have := hB b hb; omega)]
      simp
    · split
      · rw [ihr hr, if_neg (by omega), lookupL_none (A := l.toList) (fun b hb => by
          have := hA b hb; omega)]
        simp
      · rw [if_pos (by omega), lookupL_none (A := l.toList) (fun b hb => by
          have := hA b hb; omega)]
        simp

/-- sorted insertion into a list, keeping an existing entry -/
def insertL (key : α → Int) (x : α) : List α → List α
  | [] => [x]
  | y :: ys => if key x < key y then x :: y :: ys else if key y < key x then y :: insertL key x ys
      else y :: ys

theorem insertL_left {key : α → Int} {x y : α} {A B : List α} (h : key x < key y) :
    insertL key x (A ++ y :: B) = insertL key x A ++ y :: B := by
  induction A with
  | nil => simp [insertL, h]
  | cons a A ih => simp only [List.cons_append, insertL, ih]; split <;> (try split) <;> simp

theorem insertL_right {key : α → Int} {x : α} {A B : List α} (h : ∀ a ∈ A, key a < key x) :
    insertL key x (A ++ B) = A ++ insertL key x B := by
  induction A with
  | nil => rfl
  | cons a A ih =>
    have h1 := h a (by simp)
    have : ¬ key x < key a := by omega
    simp [insertL, this, h1, ih (fun b hb => h b (by simp [hb]))]

theorem mem_insertL {key : α → Int} {x a : α} {A : List α} (h : a ∈ insertL key x A) :
    a = x ∨ a ∈ A := by
  induction A with
  | nil => simp [insertL] at h; simp [h]
  | cons b A ih =>
    simp only [insertL] at h
    split at h
    · simpa using h
    · split at h
      · rcases List.mem_cons.mp h with h | h
        · simp [h]
        · rcases ih h with h | h <;> simp [h]
      · exact Or.inr h

theorem sorted_insertL {key : α → Int} {x : α} {A : List α} (h : Sorted key A) :
    Sorted key (insertL key x A) := by
  induction A with
  | nil => simp [insertL, Sorted]
  | cons b A ih =>
    have hc := List.pairwise_cons.mp h
    simp only [insertL]
    split
    · rename_i hlt
      refine List.pairwise_cons.mpr ⟨?_, h⟩
      intro a ha
      rcases List.mem_cons.mp ha with rfl | ha
      · exact hlt
      · have := hc.1 a ha; omega
    · split
      · refine List.pairwise_cons.mpr ⟨?_, ih hc.2⟩
        intro a ha
        rcases mem_insertL ha with rfl | ha
        · assumption
        · exact hc.1 a ha
      · exact h

theorem lookupL_insertL {key : α → Int} {x : α} {A : List α} (h : Sorted key A) (k : Int) :
    lookupL key k (insertL key x A) =
      if k = key x then some ((lookupL key (key x) A).getD x) else lookupL key k A := by
  induction A with
  | nil => simp [insertL, lookupL_cons, lookupL, eq_comm]
  | cons b A ih =>
    have hc := List.pairwise_cons.mp h
    simp only [insertL]
    split
    · have hno : lookupL key (key x) (b :: A) = none := lookupL_none (fun a ha => by
        rcases List.mem_cons.mp ha with rfl | ha
        · omega
        · have := hc.1 a ha; omega)
      rw [lookupL_cons, hno]
      simp only [Option.getD_none, eq_comm]
    · split
      · rw [lookupL_cons, ih hc.2, lookupL_cons, lookupL_cons, if_neg (by omega : ¬ key b = key x)]
        by_cases hk : k = key x
        · subst hk
          have hne : ¬ key b = key x := by omega
          simp [hne]
        · simp [hk]
      · have : key b = key x := by omega
        by_cases hk : k = key x
        · subst hk; simp [lookupL_cons, this]
        · simp [hk]

theorem insert_contents (key : α → Int) (x : α) (t : AA α) (h : Sorted key t.toList) {res : α}
    {t' : AA α} (e : insert key x t = .ok (res, t')) :
    t'.toList = insertL key x t.toList ∧ res = (lookupL key (key x) t.toList).getD x := by
  induction t generalizing res t' with
  | nil => simp [insert] at e; obtain ⟨rfl, rfl⟩ := e; simp [toList, insertL, lookupL]
  | node lv l y r ihl ihr =>
    simp only [toList] at h
    rw [sorted_append_cons] at h
    obtain ⟨hl, hr, hA, hB⟩ := h
    simp only [insert] at e
    split at e
    · rename_i hlt
      obtain ⟨⟨res1, l'⟩, e1, e⟩ := bind_eq_ok e
      obtain ⟨t1, e2, e⟩ := bind_eq_ok e
      obtain ⟨t2, e3, e⟩ := bind_eq_ok e
      simp at e; obtain ⟨rfl, rfl⟩ := e
      obtain ⟨hc, hres⟩ := ihl hl e1
      rw [toList_split e3, toList_skew e2]
      simp only [toList, hc, hres]
      refine ⟨(insertL_left hlt).symm, ?_⟩
      rw [lookupL_append, lookupL_cons, if_neg (by omega), lookupL_none (A := r.toList) (fun b hb => by
        have := hB b hb; omega)]
      simp
    · split at e
      · obtain ⟨⟨res1, l'⟩, e1, e⟩ := bind_eq_ok e
        obtain ⟨t1, e2, e⟩ := bind_eq_ok e
        obtain ⟨t2, e3, e⟩ := bind_eq_ok e
        simp at e; obtain ⟨rfl, rfl⟩ := e
        obtain ⟨hc, hres⟩ := ihr hr e1
        rw [toList_split e3, toList_skew e2]
        simp only [toList, hc, hres]
        constructor
        · rw [insertL_right (fun a ha => by have := hA a ha; omega)]
          simp [insertL, *]
        · rw [lookupL_append, lookupL_cons, if_neg (by omega),
            lookupL_none (A := l.toList) (fun b hb => by have := hA b hb; omega)]
          simp
      · obtain ⟨t1, e2, e⟩ := bind_eq_ok e
        obtain ⟨t2, e3, e⟩ := bind_eq_ok e
        simp at e; obtain ⟨rfl, rfl⟩ := e
        rw [toList_split e3, toList_skew e2]
        simp only [toList]
        constructor
        · rw [insertL_right (fun a ha => by have := hA a ha; omega)]
          simp [insertL, *]
        · rw [lookupL_append, lookupL_cons, if_pos (by omega),
            lookupL_none (A := l.toList) (fun b hb => by have := hA b hb; omega)]
          simp

/-! ## removal -/

/-- the last entry with key at most `k` -/
def lastLE (key : α → Int) (k : Int) (l : List α) : Option α :=
  (l.filter (fun a => decide (key a ≤ k))).getLast?

/-- the search of `remove_successor` ended with `v->deleted` having the wanted key -/
def Hit (key : α → Int) (k : Int) (del : Option α) : Prop := ∃ d, del = some d ∧ key d = k

theorem removeSuccessor_spec (key : α → Int) (k : Int) (t : AA α) (hI : Inv t)
    (hs : Sorted key t.toList) (del0 : Option α) :
    ∃ t' succ del, removeSuccessor key k t del0 = .ok (t', succ, del) ∧ Inv t' ∧ RemRel t t' ∧
      del = (lastLE key k t.toList).or del0 ∧
      ((t = nil ∨ ¬ Hit key k del) → succ = none ∧ t'.toList = t.toList) ∧
      (t ≠ nil → Hit key k del → ∃ A s B, succ = some s ∧ t.toList = A ++ s :: B ∧
        t'.toList = A ++ B ∧ (∀ a ∈ A, key a ≤ k) ∧ (∀ b ∈ B, k < key b)) := by
  induction t generalizing del0 with
  | nil => exact ⟨nil, none, del0, rfl, trivial, RemRel.refl _, by simp [lastLE, toList],
      fun _ => ⟨rfl, rfl⟩, fun h => absurd rfl h⟩
  | node lv l y r ihl ihr =>
    simp only [toList] at hs ⊢
    rw [sorted_append_cons] at hs
    obtain ⟨hl, hr, hA, hB⟩ := hs
    have hfilt : (y :: r.toList).filter (fun a => decide (key a ≤ k)) =
        if key y ≤ k then y :: r.toList.filter (fun a => decide (key a ≤ k)) else [] := by
      split
      · simp [*]
      · rw [List.filter_eq_nil_iff]
        intro a ha
        rcases List.mem_cons.mp ha with rfl | ha
        · simpa using (by omega)
        · have := hB a ha; simp; omega
    by_cases hlt : k < key y
    · obtain ⟨l', succ, del, e, hI', hR', hdel, hno, hhit⟩ := ihl hI.1 hl del0
      have hlast : lastLE key k (l.toList ++ y :: r.toList) = lastLE key k l.toList := by
        unfold lastLE
        rw [List.filter_append, hfilt, if_neg (by omega), List.append_nil]
      obtain ⟨tb, eb, hIb, hRb⟩ := rebalance_left hI hI' hR'
      have hcb := toList_rebalance eb
      simp only [toList] at hcb
      simp only [removeSuccessor, hlt, if_true, e, Outcome.bind_ok, hlast]
      by_cases hh : Hit key k del
      · obtain ⟨d, hd, hk⟩ := hh
        cases l with
        | nil =>
          subst hd
          simp only [isEmpty]
          rw [if_pos (by omega)]
          refine ⟨r, some y, some d, rfl, hI.2.1, ?_, hdel, ?_, ?_⟩
          · obtain ⟨_, _, h3, h4, h5⟩ := hI
            simp only [RemRel, level_node, right_node, level_nil] at *
            omega
          · rintro (h | h)
            · cases h
            · exact absurd ⟨d, rfl, hk⟩ h
          · intro _ _
            exact ⟨[], y, r.toList, rfl, by simp [toList], by simp, by simp, fun b hb => by
              have := hB b hb; omega⟩
        | node ll la ly lr =>
          simp only [isEmpty, eb, Outcome.bind_ok]
          refine ⟨tb, succ, del, rfl, hIb, hRb, hdel, ?_, ?_⟩
          · rintro (h | h)
            · cases h
            · exact absurd ⟨d, hd, hk⟩ h
          · intro _ hh
            obtain ⟨A, s, B, h1, h2, h3, h4, h5⟩ := hhit (by simp) hh
            refine ⟨A, s, B ++ y :: r.toList, h1, by simp [h2], by simp [hcb, h3], h4, ?_⟩
            intro b hb
            rcases List.mem_append.mp hb with hb | hb
            · exact h5 b hb
            · rcases List.mem_cons.mp hb with rfl | hb
              · exact hlt
              · have := hB b hb; omega
      · have hn := hno (Or.inr hh)
        have key' : (match l.isEmpty, del with
          | true, some d =>
            if ¬k < key d ∧ ¬key d < k then (.ok (r, some y, del) : Outcome (AA α × Option α × Option α))
            else do
              let t ← rebalance (node lv l' y r)
              return (t, succ, del)
          | _, _ => do
            let t ← rebalance (node lv l' y r)
            return (t, succ, del)) = .ok (tb, succ, del) := by
          split
          · rename_i d _
            rw [if_neg (by
              rintro ⟨h1, h2⟩
              exact hh ⟨d, rfl, by omega⟩)]
            simp [eb]
          · simp [eb]
        refine ⟨tb, succ, del, key', hIb, hRb, hdel, ?_, ?_⟩
        · intro _; exact ⟨hn.1, by simp [hcb, hn.2]⟩
        · intro _ h; exact absurd h hh
    · obtain ⟨r', succ, del, e, hI', hR', hdel, hno, hhit⟩ := ihr hI.2.1 hr (some y)
      have hlast : (lastLE key k (l.toList ++ y :: r.toList)).or del0 =
          (lastLE key k r.toList).or (some y) := by
        unfold lastLE
        rw [List.filter_append, hfilt, if_pos (by omega)]
        rw [List.getLast?_append, List.getLast?_cons]
        cases (List.filter (fun a => decide (key a ≤ k)) r.toList).getLast? <;> simp
      obtain ⟨tb, eb, hIb, hRb⟩ := rebalance_right hI hI' hR'
      have hcb := toList_rebalance eb
      simp only [toList] at hcb
      simp only [removeSuccessor, hlt, if_false, e, Outcome.bind_ok, hlast]
      have hAk : ∀ a ∈ l.toList, key a ≤ k := fun a ha => by have := hA a ha; omega
      by_cases hh : Hit key k del
      · obtain ⟨d, hd, hk⟩ := hh
        cases r with
        | nil =>
          subst hd
          simp only [isEmpty]
          rw [if_pos (by omega)]
          have he : r' = nil := by
            simp [removeSuccessor] at e; exact e.1.symm
          subst he
          refine ⟨nil, some y, some d, rfl, trivial, ?_, hdel, ?_, ?_⟩
          · obtain ⟨_, _, h3, h4, h5⟩ := hI
            simp only [RemRel, level_node, right_node, level_nil, right_nil] at *
            omega
          · rintro (h | h)
            · cases h
            · exact absurd ⟨d, rfl, hk⟩ h
          · intro _ _
            refine ⟨l.toList, y, [], rfl, by simp [toList], ?_, hAk, by simp⟩
            obtain ⟨_, _, h3, h4, h5⟩ := id hI
            have hl0 : l = nil := by
              cases l with
              | nil => rfl
              | node ll a b c =>
                exfalso
                have := (hI.1).pos
                simp at h3 h4 h5
                omega
            simp [hl0, toList]
        | node ll la ly lr =>
          simp only [isEmpty, eb, Outcome.bind_ok]
          refine ⟨tb, succ, del, rfl, hIb, hRb, hdel, ?_, ?_⟩
          · rintro (h | h)
            · cases h
            · exact absurd ⟨d, hd, hk⟩ h
          · intro _ hh
            obtain ⟨A, s, B, h1, h2, h3, h4, h5⟩ := hhit (by simp) hh
            refine ⟨l.toList ++ y :: A, s, B, h1, by simp [h2], by simp [hcb, h3], ?_, h5⟩
            intro a ha
            rcases List.mem_append.mp ha with ha | ha
            · exact hAk a ha
            · rcases List.mem_cons.mp ha with rfl | ha
              · omega
              · exact h4 a ha
      · have hn := hno (Or.inr hh)
        have key' : (match r.isEmpty, del with
          | true, some d =>
            if ¬k < key d ∧ ¬key d < k then (.ok (r', some y, del) : Outcome (AA α × Option α × Option α))
            else do
              let t ← rebalance (node lv l y r')
              return (t, succ, del)
          | _, _ => do
            let t ← rebalance (node lv l y r')
            return (t, succ, del)) = .ok (tb, succ, del) := by
          split
          · rename_i d _
            rw [if_neg (by
              rintro ⟨h1, h2⟩
              exact hh ⟨d, rfl, by omega⟩)]
            simp [eb]
          · simp [eb]
        refine ⟨tb, succ, del, key', hIb, hRb, hdel, ?_, ?_⟩
        · intro _; exact ⟨hn.1, by simp [hcb, hn.2]⟩
        · intro _ h; exact absurd h hh

theorem swapSuccessor_spec (key : α → Int) (d s : α) (t : AA α) (hI : Inv t)
    (hs : Sorted key t.toList) (P Q : List α) (he : t.toList = P ++ d :: Q) :
    ∃ t', swapSuccessor key d s t = .ok t' ∧ Inv t' ∧ t'.level = t.level ∧
      t'.right.level = t.right.level ∧ t'.toList = P ++ s :: Q := by
  induction t generalizing P Q with
  | nil => simp [toList] at he
  | node lv l y r ihl ihr =>
    simp only [toList] at hs he
    have hs0 := hs
    rw [he, sorted_append_cons] at hs0
    rw [sorted_append_cons] at hs
    obtain ⟨hl, hr, hA, hB⟩ := hs
    obtain ⟨hP, hQ, hPd, hQd⟩ := hs0
    simp only [swapSuccessor]
    by_cases h1 : key d < key y
    · -- d in l
      have hin : d ∈ l.toList := by
        have : d ∈ l.toList ++ y :: r.toList := by simp [he]
        rcases List.mem_append.mp this with h | h
        · exact h
        · rcases List.mem_cons.mp h with rfl | h
          · omega
          · have := hB d h; omega
      obtain ⟨P', Q', hl'⟩ := List.append_of_mem hin
      have hsp : P' = P ∧ Q' ++ y :: r.toList = Q := by
        rw [hl'] at he
        simp only [List.append_assoc, List.cons_append] at he
        have hP'd : ∀ a ∈ P', key a < key d := by
          rw [hl', sorted_append_cons] at hl; exact hl.2.2.1
        rcases List.append_eq_append_iff.mp he with ⟨a, ha, hb⟩ | ⟨c, hc, hd'⟩
        · cases a with
          | nil => simp at ha hb; exact ⟨ha.symm, hb⟩
          | cons z a =>
            simp at hb
            have := hPd d (by rw [ha]; simp [hb.1])
            omega
        · cases c with
          | nil => simp at hc hd'; exact ⟨hc, hd'.symm⟩
          | cons z a =>
            simp at hd'
            have := hP'd d (by rw [hc]; simp [hd'.1])
            omega
      obtain ⟨l', e, hI', hlev, hrl, hc⟩ := ihl hI.1 hl P' Q' hl'
      obtain ⟨rfl, rfl⟩ := hsp
      refine ⟨node lv l' y r, by simp [h1, e], ?_, rfl, rfl, by simp [toList, hc]⟩
      obtain ⟨_, h2, h3, h4, h5⟩ := hI
      exact ⟨hI', h2, by omega, h4, h5⟩
    · by_cases h2 : key y < key d
      · have hin : d ∈ r.toList := by
          have : d ∈ l.toList ++ y :: r.toList := by simp [he]
          rcases List.mem_append.mp this with h | h
          · have := hA d h; omega
          · rcases List.mem_cons.mp h with rfl | h
            · omega
            · exact h
        obtain ⟨P', Q', hr'⟩ := List.append_of_mem hin
        have hsp : l.toList ++ y :: P' = P ∧ Q' = Q := by
          rw [hr'] at he
          have he : (l.toList ++ y :: P') ++ d :: Q' = P ++ d :: Q := by simpa using he
          have hP'd : ∀ a ∈ l.toList ++ y :: P', key a < key d := by
            rw [hr', sorted_append_cons] at hr
            intro a ha
            rcases List.mem_append.mp ha with ha | ha
            · have := hA a ha; omega
            · rcases List.mem_cons.mp ha with rfl | ha
              · exact h2
              · exact hr.2.2.1 a ha
          rcases List.append_eq_append_iff.mp he with ⟨a, ha, hb⟩ | ⟨c, hc, hd'⟩
          · cases a with
            | nil => simp at ha hb; exact ⟨by simp [ha], hb⟩
            | cons z a =>
              simp at hb
              have := hPd d (by rw [ha]; simp [hb.1])
              omega
          · cases c with
            | nil => simp at hc hd'; exact ⟨by simp [hc], hd'.symm⟩
            | cons z a =>
              simp at hd'
              have := hP'd d (by rw [hc]; simp [hd'.1])
              omega
        obtain ⟨r', e, hI', hlev, hrl, hc⟩ := ihr hI.2.1 hr P' Q' hr'
        obtain ⟨rfl, rfl⟩ := hsp
        refine ⟨node lv l y r', by simp [h1, h2, e], ?_, rfl, by simp [hlev], by simp [toList, hc]⟩
        obtain ⟨h1, _, h3, h4, h5⟩ := hI
        exact ⟨h1, hI', h3, by omega, by omega⟩
      · -- y is d
        have hyd : y = d := by
          have : d ∈ l.toList ++ y :: r.toList := by simp [he]
          rcases List.mem_append.mp this with h | h
          · have := hA d h; omega
          · rcases List.mem_cons.mp h with rfl | h
            · rfl
            · have := hB d h; omega
        subst hyd
        have hsp : l.toList = P ∧ r.toList = Q := by
          rcases List.append_eq_append_iff.mp he with ⟨a, ha, hb⟩ | ⟨c, hc, hd'⟩
          · cases a with
            | nil => simp at ha hb; exact ⟨by simp [ha], hb⟩
            | cons z a =>
              simp at hb
              have := hPd y (by rw [ha]; simp [hb.1])
              omega
          · cases c with
            | nil => simp at hc hd'; exact ⟨by simp [hc], hd'.symm⟩
            | cons z a =>
              simp at hd'
              have := hA y (by rw [hc]; simp [hd'.1])
              omega
        refine ⟨node lv l s r, by simp [h1, h2], hI, rfl, rfl, by simp [toList, hsp]⟩

theorem remove_spec (key : α → Int) (k : Int) (t : AA α) (hI : Inv t) (hs : Sorted key t.toList) :
    ∃ t', remove key k t = .ok (lookupL key k t.toList, t') ∧ Inv t' ∧
      t'.toList = t.toList.filter (fun a => decide (key a ≠ k)) := by
  obtain ⟨t1, succ, del, e, hI1, hR1, hdel, hno, hhit⟩ := removeSuccessor_spec key k t hI hs none
  rw [Option.or_none] at hdel
  by_cases hh : t ≠ nil ∧ Hit key k del
  · obtain ⟨hne, d, hd, hk⟩ := hh
    obtain ⟨A, s, B, h1, h2, h3, h4, h5⟩ := hhit hne ⟨d, hd, hk⟩
    -- entries ≤ k
    have hfA : A.filter (fun a => decide (key a ≤ k)) = A :=
      List.filter_eq_self.mpr (fun a ha => by simpa using h4 a ha)
    have hfB : B.filter (fun a => decide (key a ≤ k)) = [] :=
      List.filter_eq_nil_iff.mpr (fun b hb => by have := h5 b hb; simp; omega)
    rw [hdel, h2, lastLE, List.filter_append, hfA, List.filter_cons, hfB] at hd
    have hs' := hs
    rw [h2, sorted_append_cons] at hs'
    obtain ⟨hsA, hsB, hsA', hsB'⟩ := hs'
    by_cases hsk : key s ≤ k
    · -- the successor is the deleted node itself
      have : s = d := by simpa [hsk] using hd
      subst this
      refine ⟨t1, ?_, hI1, ?_⟩
      · have hl : lookupL key k t.toList = some s := by
          rw [h2, lookupL_append, lookupL_none (fun a ha => by have := hsA' a ha; omega),
            lookupL_cons, if_pos hk]; simp
        subst h1
        have hds : del = some s := by
          rw [hdel, h2, lastLE, List.filter_append, hfA, List.filter_cons, hfB]; exact hd
        simp [remove, e, hl, hds]
      · rw [h2, h3, List.filter_append, List.filter_cons, if_neg (by simpa using hk),
          List.filter_eq_self.mpr, List.filter_eq_self.mpr]
        · intro b hb; have := h5 b hb; simp; omega
        · intro a ha; have := hsA' a ha; simp; omega
    · -- the deleted node is the last of A
      have hAl : A.getLast? = some d := by simpa [hsk] using hd
      obtain ⟨P, rfl⟩ := List.getLast?_eq_some_iff.mp hAl
      have h3' : t1.toList = P ++ d :: B := by simp [h3]
      have h2' : t.toList = P ++ d :: (s :: B) := by simp [h2]
      have hs2 := hs
      rw [h2', sorted_append_cons] at hs2
      have hsort1 : Sorted key t1.toList := by
        rw [h3', sorted_append_cons]
        exact ⟨hs2.1, hsB, hs2.2.2.1, fun b hb => hs2.2.2.2 b (by simp [hb])⟩
      obtain ⟨t2, e2, hI2, -, -, hc2⟩ := swapSuccessor_spec key d s t1 hI1 hsort1 P B h3'
      refine ⟨t2, ?_, hI2, ?_⟩
      · have hl : lookupL key k t.toList = some d := by
          rw [h2', lookupL_append, lookupL_none (fun a ha => by have := hs2.2.2.1 a ha; omega),
            lookupL_cons, if_pos hk]; simp
        have hds : del = some d := by
          rw [hdel, h2, lastLE, List.filter_append, hfA, List.filter_cons, hfB]; exact hd
        have hne : ¬ key s = key d := by omega
        subst h1
        simp [remove, e, hl, hds, hne, e2]
      · rw [h2', hc2, List.filter_append, List.filter_cons, if_neg (by simpa using hk),
          List.filter_eq_self.mpr, List.filter_eq_self.mpr]
        · intro b hb
          rcases List.mem_cons.mp hb with rfl | hb
          · simp; omega
          · have := h5 b hb; simp; omega
        · intro a ha; have := hs2.2.2.1 a ha; simp; omega
  · have hn : t = nil ∨ ¬ Hit key k del := by
      by_cases h : t = nil
      · exact Or.inl h
      · exact Or.inr (fun h' => hh ⟨h, h'⟩)
    obtain ⟨h1, h2⟩ := hno hn
    have hnone : ∀ a ∈ t.toList, key a ≠ k := by
      intro a ha hak
      rcases hn with rfl | hn
      · simp [toList] at ha
      · apply hn
        -- the last entry ≤ k has key k
        obtain ⟨A, B, hAB⟩ := List.append_of_mem ha
        have hs' := hs
        rw [hAB, sorted_append_cons] at hs'
        refine ⟨a, ?_, hak⟩
        rw [hdel, hAB, lastLE, List.filter_append, List.filter_cons, if_pos (by simp; omega),
          (List.filter_eq_nil_iff (l := B)).mpr]
        · simp
        · intro b hb; have := hs'.2.2.2 b hb; simp; omega
    refine ⟨t1, ?_, hI1, ?_⟩
    · rw [lookupL_none hnone]
      simp [remove, e, h1]
    · rw [h2, List.filter_eq_self.mpr]
      intro a ha; simpa using hnone a ha

theorem lookupL_filter (key : α → Int) (k k' : Int) (l : List α) :
    lookupL key k' (l.filter (fun a => decide (key a ≠ k))) =
      if k' = k then none else lookupL key k' l := by
  induction l with
  | nil => simp [lookupL]
  | cons a l ih =>
    rw [List.filter_cons]
    by_cases h : key a = k
    · simp only [h, ne_eq, not_true_eq_false, decide_false, Bool.false_eq_true, if_false, ih]
      rw [lookupL_cons]
      by_cases h2 : k' = k
      · simp [h2]
      · simp [h2, h, Ne.symm h2]
    · simp only [h, ne_eq, not_false_eq_true, decide_true, if_true, lookupL_cons]
      by_cases h2 : key a = k'
      · subst h2; simp [h]
      · simp only [h2, if_false]; exact ih

theorem sorted_filter {key : α → Int} {l : List α} (p : α → Bool) (h : Sorted key l) :
    Sorted key (l.filter p) := List.Pairwise.filter _ h

/-! ## depth -/

theorem depth_le {t : AA α} (h : Inv t) :
    t.depth ≤ 2 * t.level ∧ (t.right.level < t.level → t.depth + 1 ≤ 2 * t.level) := by
  induction t with
  | nil => simp [depth]
  | node lv l x r ihl ihr =>
    obtain ⟨h1, h2, h3, h4, h5⟩ := h
    have hl := ihl h1
    have hr := ihr h2
    simp only [depth, level_node, right_node]
    omega

theorem level_count {t : AA α} (h : Inv t) : 2 ^ t.level ≤ t.count + 1 := by
  induction t with
  | nil => simp [count]
  | node lv l x r ihl ihr =>
    obtain ⟨h1, h2, h3, h4, h5⟩ := h
    have hl := ihl h1
    have hr := ihr h2
    subst h3
    have hr' : 2 ^ l.level ≤ 2 ^ r.level := Nat.pow_le_pow_right (by omega) (by omega)
    simp only [count, level_node, Nat.pow_succ]
    omega

theorem count_eq (t : AA α) : t.count = t.toList.length := by
  induction t with
  | nil => rfl
  | node lv l x r ihl ihr => simp [count, toList, ihl, ihr]; omega

end Verif.Pcu.AA
