import Verif.Part.TrimLemmas
/-!
# Lemmas on `acceptWeight` and the receiving side of `trim`
-/
namespace Verif.Part
open Verif.Agi

/-- the sum of the `i`-th weights of a list of messages -/
def total (i : Nat) (ms : List (Nat × List Rat)) : Rat := (ms.map (fun m => m.2.getD i 0)).sum

theorem total_append (i : Nat) (a b : List (Nat × List Rat)) : total i (a ++ b) = total i a + total i b := by
  unfold total; rw [List.map_append, List.sum_append]

theorem total_single (i : Nat) (m : Nat × List Rat) : total i [m] = m.2.getD i 0 := by simp [total]

theorem takeAll_length : ∀ (ok : Bool) (a w : List Rat), a.length = w.length → (takeAll ok a w).1.length = a.length
  | _, [], [], _ => rfl
  | _, a :: as, w :: ws, h => by
    simp only [takeAll, List.length_cons]
    rw [takeAll_length _ as ws (by simpa using h)]

theorem takeAll_get : ∀ (ok : Bool) (a w : List Rat), a.length = w.length → ∀ i,
    (takeAll ok a w).1.getD i 0 = a.getD i 0 - w.getD i 0
  | _, [], [], _, i => by simp [takeAll]
  | _, a :: as, w :: ws, h, i => by
    cases i with
    | zero => simp [takeAll]
    | succ i =>
      simp only [takeAll]
      have := takeAll_get (decide (0 < a - w)) as ws (by simpa using h) i
      simpa using this

/-- whether the last dimension has room left -/
theorem takeAll_flag : ∀ (ok : Bool) (a w : List Rat), a.length = w.length → a ≠ [] →
    (takeAll ok a w).2 = decide (0 < a.getD (a.length - 1) 0 - w.getD (a.length - 1) 0)
  | _, [], _, _, h => absurd rfl h
  | _, [a], [w], _, _ => by simp [takeAll]
  | _, a :: b :: as, w :: x :: ws, h, _ => by
    have := takeAll_flag (decide (0 < a - w)) (b :: as) (x :: ws) (by simpa using h) (by simp)
    simp only [takeAll] at this ⊢
    rw [this]
    simp

theorem zip_all_iff {w a : List Rat} (h : w.length = a.length) :
    (w.zip a).all (fun x => decide (x.1 ≤ x.2)) = true ↔ ∀ i, w.getD i 0 ≤ a.getD i 0 := by
  rw [List.all_eq_true]
  constructor
  · intro hh i
    by_cases hi : i < w.length
    · have := hh (w[i], a[i]'(by omega)) (by
        rw [List.mem_iff_getElem]; exact ⟨i, by simp; omega, by simp⟩)
      have := of_decide_eq_true this
      rw [List.getD_eq_getElem?_getD, List.getD_eq_getElem?_getD, List.getElem?_eq_getElem hi,
        List.getElem?_eq_getElem (by omega)]
      exact this
    · rw [List.getD_eq_getElem?_getD, List.getD_eq_getElem?_getD, List.getElem?_eq_none (by omega),
        List.getElem?_eq_none (by omega)]
  · intro hh x hx
    obtain ⟨i, hi, rfl⟩ := List.mem_iff_getElem.mp hx
    have hi' : i < w.length ∧ i < a.length := by simp at hi; omega
    have := hh i
    rw [List.getD_eq_getElem?_getD, List.getD_eq_getElem?_getD, List.getElem?_eq_getElem hi'.1,
        List.getElem?_eq_getElem hi'.2] at this
    simpa using this

/-- the invariant of the loop: `avail` was there at the start, all of it usable -/
structure AccInv (avail : List Rat) (pre : List (Nat × List Rat)) (st : Accept) : Prop where
  len : st.avail.length = avail.length
  ids : st.accept.map Prod.fst = pre.map Prod.fst
  lens : ∀ a ∈ st.accept, a.2.length = avail.length
  sum : ∀ i, total i st.accept + st.avail.getD i 0 = avail.getD i 0
  left : ∀ i, 0 ≤ st.avail.getD i 0
  nonneg : ∀ a ∈ st.accept, ∀ i, 0 ≤ a.2.getD i 0

theorem acceptStep_inv {avail : List Rat} {pre : List (Nat × List Rat)} {st : Accept} {m : Nat × List Rat}
    (h : AccInv avail pre st) (hl : m.2.length = avail.length) (hm : ∀ i, 0 ≤ m.2.getD i 0) :
    AccInv avail (pre ++ [m]) (acceptStep st m) := by
  have key : ∀ give : List Rat, give.length = avail.length → (∀ i, 0 ≤ give.getD i 0) →
      (∀ i, give.getD i 0 ≤ st.avail.getD i 0) → ∀ ok,
      AccInv avail (pre ++ [m]) ⟨ok, (takeAll st.isAvail st.avail give).1, st.accept ++ [(m.1, give)]⟩ := by
    intro give g1 g2 g3 ok
    have hlen : st.avail.length = give.length := by rw [h.len, g1]
    refine ⟨by simp only; rw [takeAll_length _ _ _ hlen, h.len], by simp [h.ids], ?_, ?_, ?_, ?_⟩
    · intro a ha
      rw [List.mem_append, List.mem_singleton] at ha
      rcases ha with ha | rfl
      · exact h.lens a ha
      · exact g1
    · intro i
      simp only
      rw [total_append, total_single, takeAll_get _ _ _ hlen]
      have := h.sum i
      simp only
      linarith
    · intro i
      simp only
      rw [takeAll_get _ _ _ hlen]
      have := g3 i
      linarith
    · intro a ha i
      rw [List.mem_append, List.mem_singleton] at ha
      rcases ha with ha | rfl
      · exact h.nonneg a ha i
      · exact g2 i
  unfold acceptStep
  by_cases hav : st.isAvail = true
  · rw [if_pos hav]
    by_cases hs : (m.2.zip st.avail).all (fun x => decide (x.1 ≤ x.2)) = true
    · simp only [if_pos hs]
      exact key m.2 hl hm ((zip_all_iff (by rw [h.len, hl])).mp hs) _
    · simp only [if_neg hs]
      exact key st.avail h.len h.left (fun i => le_refl _) _
  · rw [if_neg hav]
    have hz : ∀ i, (st.avail.map (fun _ => (0 : Rat))).getD i 0 = 0 := by
      intro i
      rw [List.getD_eq_getElem?_getD, List.getElem?_map]
      cases st.avail[i]? <;> rfl
    refine ⟨h.len, by simp [h.ids], ?_, ?_, h.left, ?_⟩
    · intro a ha
      rw [List.mem_append, List.mem_singleton] at ha
      rcases ha with ha | rfl
      · exact h.lens a ha
      · simp [h.len]
    · intro i
      simp only
      rw [total_append, total_single, hz i, add_zero]
      exact h.sum i
    · intro a ha i
      rw [List.mem_append, List.mem_singleton] at ha
      rcases ha with ha | rfl
      · exact h.nonneg a ha i
      · rw [hz i]

theorem acceptFold_inv {avail : List Rat} : ∀ (ms pre : List (Nat × List Rat)) (st : Accept), AccInv avail pre st →
    (∀ m ∈ ms, m.2.length = avail.length ∧ ∀ i, 0 ≤ m.2.getD i 0) →
    AccInv avail (pre ++ ms) (ms.foldl acceptStep st)
  | [], pre, st, h, _ => by simpa using h
  | m :: ms, pre, st, h, hm => by
    have h1 := acceptStep_inv h (hm m (by simp)).1 (hm m (by simp)).2
    have := acceptFold_inv ms (pre ++ [m]) _ h1 (fun x hx => hm x (by simp [hx]))
    rw [List.append_assoc] at this
    exact this

/-- nothing is accepted when there is no room to begin with -/
theorem acceptFold_none {avail : List Rat} : ∀ (ms : List (Nat × List Rat)) (acc : List (Nat × List Rat)),
    ms.foldl acceptStep ⟨false, avail, acc⟩ =
      ⟨false, avail, acc ++ ms.map (fun m => (m.1, avail.map (fun _ => 0)))⟩
  | [], acc => by simp
  | m :: ms, acc => by
    rw [List.foldl_cons]
    unfold acceptStep
    simp only [Bool.false_eq_true, if_false]
    have := acceptFold_none (avail := avail) ms (acc ++ [(m.1, avail.map (fun _ => 0))])
    unfold acceptStep at this
    simp only at this
    rw [this]
    simp

/-- if everything fits, with something to spare in the last dimension, everything is accepted -/
theorem acceptFold_all {avail : List Rat} (hne : avail ≠ []) : ∀ (ms : List (Nat × List Rat)) (st : Accept)
    (pre : List (Nat × List Rat)), AccInv avail pre st → st.isAvail = true → st.accept = pre →
    (∀ m ∈ ms, m.2.length = avail.length ∧ ∀ i, 0 ≤ m.2.getD i 0) →
    (∀ i, total i (pre ++ ms) ≤ avail.getD i 0) →
    total (avail.length - 1) (pre ++ ms) < avail.getD (avail.length - 1) 0 →
    (ms.foldl acceptStep st).accept = pre ++ ms
  | [], st, pre, _, _, he, _, _, _ => by simpa using he
  | m :: ms, st, pre, h, ha, he, hm, hs, hl => by
    have hms : ∀ i, 0 ≤ total i ms := by
      intro i
      apply List.sum_nonneg
      intro x hx
      obtain ⟨y, hy, rfl⟩ := List.mem_map.mp hx
      exact (hm y (by simp [hy])).2 i
    have hsplit : ∀ i, total i (pre ++ m :: ms) = total i pre + m.2.getD i 0 + total i ms := by
      intro i
      rw [show pre ++ m :: ms = pre ++ [m] ++ ms by simp, total_append, total_append, total_single]
    have hfit : ∀ i, m.2.getD i 0 ≤ st.avail.getD i 0 := by
      intro i
      have h1 := h.sum i
      have h2 := hs i
      have h3 := hms i
      rw [hsplit] at h2
      rw [he] at h1
      linarith
    have hm1 := (hm m (by simp)).1
    have hstep : acceptStep st m = ⟨(takeAll st.isAvail st.avail m.2).2, (takeAll st.isAvail st.avail m.2).1,
        st.accept ++ [(m.1, m.2)]⟩ := by
      unfold acceptStep
      rw [if_pos ha]
      simp only [if_pos ((zip_all_iff (by rw [h.len, hm1])).mpr hfit)]
    have hinv := acceptStep_inv h hm1 (hm m (by simp)).2
    rw [List.foldl_cons]
    have hflag : (acceptStep st m).isAvail = true := by
      rw [hstep]
      simp only
      rw [takeAll_flag _ _ _ (by rw [h.len, hm1]) (by
        intro hc; have := h.len; rw [hc] at this; exact hne (List.eq_nil_of_length_eq_zero this.symm))]
      rw [h.len]
      apply decide_eq_true
      have h1 := h.sum (avail.length - 1)
      have h3 := hms (avail.length - 1)
      rw [hsplit] at hl
      rw [he] at h1
      linarith
    have := acceptFold_all hne ms (acceptStep st m) (pre ++ [m]) hinv hflag (by rw [hstep]; simp [he])
      (fun x hx => hm x (by simp [hx])) (by simpa using hs) (by simpa using hl)
    rw [this]; simp

theorem avail_start (avail : List Rat) (h : avail.all (fun a => decide (0 ≤ a)) = true) :
    AccInv avail [] ⟨true, avail, []⟩ := by
  refine ⟨rfl, rfl, by simp, ?_, ?_, by simp⟩
  · intro i; simp [total]
  · intro i
    simp only
    rw [List.getD_eq_getElem?_getD]
    cases hi : avail[i]? with
    | none => simp
    | some a =>
      rw [List.all_eq_true] at h
      simpa using h a (List.mem_of_getElem? hi)

/-- the total accepted in every dimension stays within the room there is; nothing negative is accepted -/
theorem accept_spec (avail : List Rat) (ms : List (Nat × List Rat))
    (hm : ∀ m ∈ ms, m.2.length = avail.length ∧ ∀ i, 0 ≤ m.2.getD i 0) :
    let acc := acceptWeight ms (avail.all (fun a => decide (0 ≤ a))) avail
    acc.map Prod.fst = ms.map Prod.fst ∧ (∀ a ∈ acc, a.2.length = avail.length ∧ ∀ i, 0 ≤ a.2.getD i 0) ∧
      ∀ i, total i acc ≤ max 0 (avail.getD i 0) := by
  intro acc
  cases hb : avail.all (fun a => decide (0 ≤ a)) with
  | true =>
    have := acceptFold_inv ms [] _ (avail_start avail hb) hm
    have hacc : acc = (ms.foldl acceptStep ⟨true, avail, []⟩).accept := by
      simp only [acc, acceptWeight, hb]
    rw [hacc]
    refine ⟨by simpa using this.ids, fun a ha => ⟨this.lens a ha, this.nonneg a ha⟩, ?_⟩
    intro i
    have h1 := this.sum i
    have h2 := this.left i
    exact le_max_of_le_right (by linarith)
  | false =>
    have hacc : acc = ms.map (fun m => (m.1, avail.map (fun _ => 0))) := by
      simp only [acc, acceptWeight, hb, acceptFold_none, List.nil_append]
    have hz : ∀ i, (avail.map (fun _ => (0 : Rat))).getD i 0 = 0 := by
      intro i
      rw [List.getD_eq_getElem?_getD, List.getElem?_map]
      cases avail[i]? <;> rfl
    rw [hacc]
    refine ⟨by simp, ?_, ?_⟩
    · intro a ha
      obtain ⟨m, -, rfl⟩ := List.mem_map.mp ha
      exact ⟨by simp, fun i => by simp only; rw [hz i]⟩
    · intro i
      have : total i (ms.map (fun m => (m.1, avail.map (fun _ => (0 : Rat))))) = 0 := by
        unfold total
        rw [List.map_map]
        apply List.sum_eq_zero
        intro x hx
        obtain ⟨m, -, rfl⟩ := List.mem_map.mp hx
        exact hz i
      rw [this]
      exact le_max_left _ _

theorem accept_all (avail : List Rat) (hne : avail ≠ []) (ms : List (Nat × List Rat))
    (hm : ∀ m ∈ ms, m.2.length = avail.length ∧ ∀ i, 0 ≤ m.2.getD i 0)
    (hs : ∀ i, total i ms ≤ avail.getD i 0)
    (hl : total (avail.length - 1) ms < avail.getD (avail.length - 1) 0) :
    acceptWeight ms (avail.all (fun a => decide (0 ≤ a))) avail = ms := by
  have hb : avail.all (fun a => decide (0 ≤ a)) = true := by
    rw [List.all_eq_true]
    intro a ha
    obtain ⟨i, hi, rfl⟩ := List.mem_iff_getElem.mp ha
    have h1 := hs i
    have h2 : 0 ≤ total i ms := by
      apply List.sum_nonneg
      intro x hx
      obtain ⟨y, hy, rfl⟩ := List.mem_map.mp hx
      exact (hm y hy).2 i
    rw [List.getD_eq_getElem?_getD, List.getElem?_eq_getElem hi] at h1
    simp at h1 ⊢
    linarith
  unfold acceptWeight
  rw [hb]
  have := acceptFold_all hne ms _ [] (avail_start avail hb) rfl rfl hm (by simpa using hs) (by simpa using hl)
  simpa using this

/-! ## the ordered set of offers -/

theorem migrLt_ok {a b : Nat × List Rat} (ha : a.2 ≠ []) (hb : b.2 ≠ []) :
    migrLt a b = .ok (decide (a.2.getD 0 0 < b.2.getD 0 0 ∨ (a.2.getD 0 0 = b.2.getD 0 0 ∧ a.1 < b.1))) := by
  unfold migrLt
  have h1 := List.length_pos_of_ne_nil ha
  have h2 := List.length_pos_of_ne_nil hb
  rw [rd_ok h1, Outcome.bind_ok, rd_ok h2, Outcome.bind_ok]
  rw [List.getD_eq_getElem?_getD, List.getElem?_eq_getElem h1, List.getD_eq_getElem?_getD, List.getElem?_eq_getElem h2]
  rfl

/-- offers of different parts are all kept -/
theorem insertMigr_perm {m : Nat × List Rat} (hm : m.2 ≠ []) : ∀ (l : List (Nat × List Rat)),
    (∀ b ∈ l, b.2 ≠ [] ∧ b.1 ≠ m.1) → ∃ l', insertMigr m l = .ok l' ∧ l'.Perm (l ++ [m])
  | [], _ => ⟨[m], rfl, by simp⟩
  | b :: l, h => by
    have hb := h b (by simp)
    unfold insertMigr
    rw [migrLt_ok hm hb.1, Outcome.bind_ok]
    by_cases h1 : m.2.getD 0 0 < b.2.getD 0 0 ∨ (m.2.getD 0 0 = b.2.getD 0 0 ∧ m.1 < b.1)
    · simp only [h1, decide_true, if_true]
      exact ⟨_, rfl, (List.perm_append_singleton m (b :: l)).symm⟩
    · simp only [h1, decide_false, Bool.false_eq_true, if_false]
      rw [migrLt_ok hb.1 hm, Outcome.bind_ok]
      have h2 : b.2.getD 0 0 < m.2.getD 0 0 ∨ (b.2.getD 0 0 = m.2.getD 0 0 ∧ b.1 < m.1) := by
        push Not at h1
        rcases lt_trichotomy (b.2.getD 0 0) (m.2.getD 0 0) with h' | h' | h'
        · exact .inl h'
        · right
          refine ⟨h', ?_⟩
          have := h1.2 h'.symm
          have := hb.2
          omega
        · exact absurd h' (not_lt.mpr h1.1)
      simp only [h2, decide_true, if_true]
      obtain ⟨l', e, hp⟩ := insertMigr_perm hm l (fun x hx => h x (by simp [hx]))
      rw [e]
      exact ⟨_, rfl, hp.cons b⟩

theorem receive_perm {n : Nat} (hn : 0 < n) (hn5 : n ≤ 5) : ∀ (ms pre : List (Nat × List Rat)) (inc : List (Nat × List Rat)),
    inc.Perm pre → (∀ m ∈ pre ++ ms, m.2.length = n) → ((pre ++ ms).map Prod.fst).Nodup →
    ∃ inc', ms.foldlM receiveMigr inc = .ok inc' ∧ inc'.Perm (pre ++ ms)
  | [], pre, inc, h, _, _ => ⟨inc, rfl, by simpa using h⟩
  | m :: ms, pre, inc, h, hl, hd => by
    have hm := hl m (by simp)
    have hne : ∀ b : Nat × List Rat, b.2.length = n → b.2 ≠ [] := by
      intro b hb hc; rw [hc] at hb; simp at hb; omega
    obtain ⟨l', e, hp⟩ := insertMigr_perm (hne m hm) inc (by
      intro b hb
      have hb' := h.mem_iff.mp hb
      refine ⟨hne b (hl b (by simp [hb'])), ?_⟩
      rw [List.map_append, List.nodup_append] at hd
      exact hd.2.2 _ (List.mem_map.mpr ⟨b, hb', rfl⟩) _ (by simp))
    obtain ⟨inc', e', hp'⟩ := receive_perm hn hn5 ms (pre ++ [m]) l' (hp.trans (h.append_right _))
      (by simpa using hl) (by simpa using hd)
    refine ⟨inc', ?_, by simpa using hp'⟩
    rw [List.foldlM_cons]
    unfold receiveMigr at e' ⊢
    rw [if_neg (by omega), e, Outcome.bind_ok]
    exact e'

end Verif.Part
