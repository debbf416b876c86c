import Verif.Pcu.AAModel
set_option linter.unusedSimpArgs false
namespace Verif.Pcu.AA

variable {α : Type}

/-- Andersson's balance invariant -/
def Inv : AA α → Prop
  | nil => True
  | node lv l _ r => Inv l ∧ Inv r ∧ l.level + 1 = lv ∧ (r.level = lv ∨ r.level + 1 = lv) ∧
      r.right.level < lv

@[simp] theorem level_nil : (nil : AA α).level = 0 := rfl
@[simp] theorem level_node {lv : Nat} {l r : AA α} {x : α} : (node lv l x r).level = lv := rfl
@[simp] theorem right_nil : (nil : AA α).right = nil := rfl
@[simp] theorem right_node {lv : Nat} {l r : AA α} {x : α} : (node lv l x r).right = r := rfl

theorem Inv.pos {lv : Nat} {l r : AA α} {x : α} (h : Inv (node lv l x r)) : 1 ≤ lv := by
  have := h.2.2.1; omega

theorem Inv.right_le {t : AA α} (h : Inv t) : t.right.level ≤ t.level := by
  cases t with
  | nil => simp
  | node lv l x r => have := h.2.2.2.1; simp; omega

/-! ## in-order contents are preserved by the rotations -/

theorem toList_skew {t t' : AA α} (h : skew t = .ok t') : t'.toList = t.toList := by
  unfold skew at h
  split at h
  · cases h; rfl
  · split at h <;> cases h; rfl
  · split at h <;> cases h <;> simp [toList]

theorem toList_split {t t' : AA α} (h : split t = .ok t') : t'.toList = t.toList := by
  unfold split at h
  split at h
  · cases h
  · split at h <;> cases h; rfl
  · split at h <;> cases h <;> simp [toList]

theorem toList_onRight {f : AA α → Outcome (AA α)} (hf : ∀ t t', f t = .ok t' → t'.toList = t.toList)
    {t t' : AA α} (h : onRight f t = .ok t') : t'.toList = t.toList := by
  cases t with
  | nil =>
    simp only [onRight] at h
    cases e : f nil <;> simp [e] at h
    subst h; rfl
  | node lv l x r =>
    simp only [onRight] at h
    cases e : f r <;> simp [e] at h
    subst h
    simp [toList, hf _ _ e]

theorem bind_eq_ok {β γ : Type} {o : Outcome β} {f : β → Outcome γ} {c : γ} (h : (o >>= f) = .ok c) :
    ∃ b, o = .ok b ∧ f b = .ok c := by
  cases o with
  | ok b => exact ⟨b, rfl, h⟩
  | fail => cases h
  | ub => cases h

theorem toList_rebalance {t t' : AA α} (h : rebalance t = .ok t') : t'.toList = t.toList := by
  cases t with
  | nil => cases h; rfl
  | node lv l x r =>
    simp only [rebalance] at h
    split at h
    · obtain ⟨r', h1, h⟩ := bind_eq_ok h
      obtain ⟨t1, h2, h⟩ := bind_eq_ok h
      obtain ⟨t2, h3, h⟩ := bind_eq_ok h
      obtain ⟨t3, h4, h⟩ := bind_eq_ok h
      obtain ⟨t4, h5, h⟩ := bind_eq_ok h
      have hr : r'.toList = r.toList := by
        unfold lowerRight at h1
        split at h1
        · cases r with
          | nil => cases h1
          | node => simp [setLevel] at h1; subst h1; rfl
        · cases h1; rfl
      have hsk := fun t t' (h : skew (α := α) t = .ok t') => toList_skew h
      have hsp := fun t t' (h : split (α := α) t = .ok t') => toList_split h
      rw [toList_onRight hsp h, toList_split h5,
        toList_onRight (fun _ _ h => toList_onRight hsk h) h4, toList_onRight hsk h3, toList_skew h2]
      simp [toList, hr]
    · cases h; rfl

/-! ## insertion keeps the balance invariant -/

/-- how an insertion may change the level of a subtree -/
def InsRel (t t' : AA α) : Prop :=
  t'.level = t.level ∨
    (t'.level = t.level + 1 ∧ t'.right.level < t'.level ∧ t.right.level = t.level)

theorem fix_left {lv : Nat} {l l' r : AA α} {x : α} (h : Inv (node lv l x r)) (hl : Inv l')
    (hr : InsRel l l') :
    ∃ t1 t2, skew (node lv l' x r) = .ok t1 ∧ split t1 = .ok t2 ∧ Inv t2 ∧
      InsRel (node lv l x r) t2 := by
  obtain ⟨h1, h2, h3, h4, h5⟩ := h
  unfold InsRel at *
  rcases l' with _ | ⟨ll, a, y, b⟩
  · rcases r with _ | ⟨rl, c, z, d⟩
    · simp [skew, split, Inv] at *
      have : ¬ 0 = lv := by omega
      simp [this, Inv]; omega
    · simp [skew, split, Inv] at *
      have : ¬ 0 = lv := by omega
      have e : ¬ d.level = lv := by omega
      simp [this, e, Inv, h2]; omega
  · by_cases e : ll = lv
    · subst e
      rcases r with _ | ⟨rl, c, z, d⟩
      · simp [skew, split, Inv] at *
        have : ¬ 0 = ll := by omega
        simp [this, Inv, hl]; omega
      · by_cases e2 : rl = ll
        · subst e2
          simp [skew, split, Inv] at *
          simp [hl, h2, Inv]; omega
        · simp [skew, split, Inv] at *
          simp [e2, hl, h2, Inv]; omega
    · rcases r with _ | ⟨rl, c, z, d⟩
      · simp [skew, split, Inv] at *
        have : ¬ 0 = lv := by omega
        simp [this, e, Inv, hl]; omega
      · simp [skew, split, Inv] at *
        have e2 : ¬ d.level = lv := by omega
        simp [e, e2, Inv, hl, h2]; omega

theorem fix_right {lv : Nat} {l r r' : AA α} {x : α} (h : Inv (node lv l x r)) (hr' : Inv r')
    (hr : InsRel r r') :
    ∃ t1 t2, skew (node lv l x r') = .ok t1 ∧ split t1 = .ok t2 ∧ Inv t2 ∧
      InsRel (node lv l x r) t2 := by
  obtain ⟨h1, h2, h3, h4, h5⟩ := h
  unfold InsRel at *
  have hsk : skew (node lv l x r') = .ok (node lv l x r') := by
    rcases l with _ | ⟨ll, a, y, b⟩
    · simp at h3; simp [skew]; omega
    · simp at h3; simp [skew]; omega
  refine ⟨node lv l x r', ?_⟩
  rcases r' with _ | ⟨rl, c, z, d⟩
  · have : ¬ 0 = lv := by omega
    simp [hsk, split, this, Inv, h1] at *; omega
  · obtain ⟨hc, hd, hcl, hdl, hdr⟩ := hr'
    have hcr := hc.right_le
    simp only [level_node, right_node] at hr
    by_cases e : d.level = lv
    · refine ⟨node (rl + 1) (node lv l x c) z d, hsk, by simp [split, e], ?_⟩
      simp only [Inv, level_node, right_node, h1, hc, hd, true_and, true_or, or_true, and_true]
      omega
    · refine ⟨node lv l x (node rl c z d), hsk, by simp [split, e], ?_⟩
      simp only [Inv, level_node, right_node, h1, hc, hd, true_and, true_or, or_true, and_true]
      omega

theorem fix_same {lv : Nat} {l r : AA α} {x : α} (h : Inv (node lv l x r)) :
    ∃ t1 t2, skew (node lv l x r) = .ok t1 ∧ split t1 = .ok t2 ∧ Inv t2 ∧
      InsRel (node lv l x r) t2 :=
  fix_left h h.1 (Or.inl rfl)

theorem insert_inv (key : α → Int) (x : α) (t : AA α) (h : Inv t) :
    ∃ res t', insert key x t = .ok (res, t') ∧ Inv t' ∧ InsRel t t' := by
  induction t with
  | nil => exact ⟨x, _, rfl, by simp [Inv], by simp [InsRel]⟩
  | node lv l y r ihl ihr =>
    simp only [insert]
    split
    · obtain ⟨res, l', e, hi, hr⟩ := ihl h.1
      obtain ⟨t1, t2, e1, e2, hi2, hr2⟩ := fix_left h hi hr
      exact ⟨res, t2, by simp [e, e1, e2], hi2, hr2⟩
    · split
      · obtain ⟨res, r', e, hi, hr⟩ := ihr h.2.1
        obtain ⟨t1, t2, e1, e2, hi2, hr2⟩ := fix_right h hi hr
        exact ⟨res, t2, by simp [e, e1, e2], hi2, hr2⟩
      · obtain ⟨t1, t2, e1, e2, hi2, hr2⟩ := fix_same h
        exact ⟨y, t2, by simp [e1, e2], hi2, hr2⟩

/-! ## removal keeps the balance invariant -/

/-- how a removal may change the level of a subtree -/
def RemRel (t t' : AA α) : Prop :=
  (t'.level = t.level ∨ t'.level + 1 = t.level) ∧
    (t'.level ≠ t.level ∨ t.level ≤ t.right.level ∨ t'.right.level < t'.level)

theorem RemRel.refl (t : AA α) : RemRel t t := ⟨Or.inl rfl, by omega⟩

theorem skew_id {lv : Nat} {l r : AA α} {x : α} (h : l.level ≠ lv) :
    skew (node lv l x r) = .ok (node lv l x r) := by
  cases l with
  | nil => simp at h; simp [skew, h]
  | node => simp at h; simp [skew, h]

theorem skew_rot {lv : Nat} {a b r : AA α} {x y : α} :
    skew (node lv (node lv a y b) x r) = .ok (node lv a y (node lv b x r)) := by simp [skew]

theorem split_id {lv : Nat} {l r : AA α} {x : α} (h : r.right.level ≠ lv) :
    split (node lv l x r) = .ok (node lv l x r) := by
  cases r with
  | nil => simp at h; simp [split, h]
  | node => simp at h; simp [split, h]

theorem split_rot {lv lr : Nat} {l a b : AA α} {x y : α} (h : b.level = lv) :
    split (node lv l x (node lr a y b)) = .ok (node (lr + 1) (node lv l x a) y b) := by
  simp [split, h]

theorem skew_inv_id {t : AA α} (h : Inv t) : skew t = .ok t := by
  cases t with
  | nil => rfl
  | node lv l x r => exact skew_id (by have := h.2.2.1; omega)

@[simp] theorem onRight_node {f : AA α → Outcome (AA α)} {lv : Nat} {l r : AA α} {x : α} :
    onRight f (node lv l x r) = (f r >>= fun r' => .ok (node lv l x r')) := rfl

theorem lowerRight_id {lv : Nat} {r : AA α} (h : r.level ≤ lv) : lowerRight lv r = .ok r := by
  simp [lowerRight, Nat.not_lt.mpr h]

theorem rebalance_id {lv : Nat} {l r : AA α} {x : α} (h1 : lv ≤ l.level + 1) (h2 : lv ≤ r.level + 1) :
    rebalance (node lv l x r) = .ok (node lv l x r) := by
  have : ¬ (l.level + 1 < lv ∨ r.level + 1 < lv) := by omega
  simp [rebalance, this]

theorem rebalance_left {lv : Nat} {l l' r : AA α} {x : α} (h : Inv (node lv l x r)) (hl : Inv l')
    (hr : RemRel l l') :
    ∃ t, rebalance (node lv l' x r) = .ok t ∧ Inv t ∧ RemRel (node lv l x r) t := by
  obtain ⟨h1, h2, h3, h4, h5⟩ := h
  obtain ⟨hr1, hr2⟩ := hr
  by_cases e : l'.level + 1 < lv
  · -- the left child dropped: lv ≥ 2
    obtain ⟨m, rfl⟩ : ∃ m, lv = m + 2 := ⟨lv - 2, by omega⟩
    have hl' : l'.level = m := by omega
    rcases r with _ | ⟨rl, a, y, b⟩
    · simp at h4 h5
    · obtain ⟨ha, hb, hal, hbl, hbr⟩ := h2
      simp only [level_node, right_node] at h4 h5
      have har := ha.right_le
      have hbr' := hb.right_le
      have hsk : ∀ s, skew (node (m + 1) l' x s) = .ok (node (m + 1) l' x s) :=
        fun s => skew_id (by omega)
      rcases h4 with rfl | h4
      · -- right child horizontal
        have hal' : a.level = m + 1 := by omega
        have hbl' : b.level = m + 1 := by omega
        rcases a with _ | ⟨al, a1, z, a2⟩
        · simp at hal'
        simp only [level_node] at hal'
        subst hal'
        obtain ⟨ha1, ha2, ha1l, ha2l, ha2r⟩ := ha
        have hlow : lowerRight (m + 1) (node (m + 2) (node (m + 1) a1 z a2) y b) =
            .ok (node (m + 1) (node (m + 1) a1 z a2) y b) := by
          simp [lowerRight, setLevel]
        rcases ha2l with ha2l | ha2l
        · rcases a2 with _ | ⟨a2l, c1, v, c2⟩
          · simp at ha2l
          simp only [level_node] at ha2l
          subst ha2l
          obtain ⟨hc1, hc2, hc1l, hc2l, hc2r⟩ := ha2
          simp only [right_node] at ha2r
          have hc1r := hc1.right_le
          have ha1r := ha1.right_le
          have hc2r' := hc2.right_le
          refine ⟨node (m + 2) (node (m + 1) l' x a1) z
            (node (m + 2) (node (m + 1) c1 v c2) y b), ?_, ?_⟩
          · simp only [rebalance, e, true_or, if_true, Nat.add_sub_cancel,
              show m + 2 - 1 = m + 1 from rfl, hlow, Outcome.bind_ok, hsk, onRight_node, skew_rot]
            rw [split_rot (by rfl)]
            simp only [Outcome.bind_ok, onRight_node]
            rw [split_rot hbl']
            rfl
          · simp only [RemRel, Inv, level_node, right_node, hl, ha1, hc1, hc2, hb, true_and, true_or]
            omega
        · have ha2r := ha2.right_le
          have ha1r := ha1.right_le
          by_cases e2 : b.right.level = m + 1
          · rcases b with _ | ⟨bl, b1, w, b2⟩
            · simp at hbl'
            simp only [level_node] at hbl'
            subst hbl'
            obtain ⟨hb1, hb2, hb1l, hb2l, hb2r⟩ := hb
            have hb1r := hb1.right_le
            simp only [right_node] at e2
            refine ⟨node (m + 2) (node (m + 1) l' x a1) z
              (node (m + 2) (node (m + 1) a2 y b1) w b2), ?_, ?_⟩
            · simp only [rebalance, e, true_or, if_true, Nat.add_sub_cancel,
                show m + 2 - 1 = m + 1 from rfl, hlow, Outcome.bind_ok, hsk, onRight_node, skew_rot]
              rw [skew_id (by omega)]
              simp only [Outcome.bind_ok]
              rw [split_rot (by rfl)]
              simp only [Outcome.bind_ok, onRight_node]
              rw [split_rot e2]
              rfl
            · simp only [RemRel, Inv, level_node, right_node, hl, ha1, ha2, hb1, hb2, true_and, true_or, or_true, and_true]
              omega
          · refine ⟨node (m + 2) (node (m + 1) l' x a1) z (node (m + 1) a2 y b), ?_, ?_⟩
            · simp only [rebalance, e, true_or, if_true, Nat.add_sub_cancel,
                show m + 2 - 1 = m + 1 from rfl, hlow, Outcome.bind_ok, hsk, onRight_node, skew_rot]
              rw [skew_id (by omega)]
              simp only [Outcome.bind_ok]
              rw [split_rot (by rfl)]
              simp only [Outcome.bind_ok, onRight_node]
              rw [split_id e2]
              rfl
            · simp only [RemRel, Inv, level_node, right_node, hl, ha1, ha2, hb, true_and, true_or, or_true, and_true]
              omega
      · have hrl : rl = m + 1 := by omega
        subst hrl
        have hlow : lowerRight (m + 1) (node (m + 1) a y b) = .ok (node (m + 1) a y b) :=
          lowerRight_id (by simp)
        have hska : skew (node (m + 1) a y b) = .ok (node (m + 1) a y b) := skew_id (by omega)
        rcases hbl with hbl | hbl
        · have hbsplit : split b = .ok b := by
            rcases b with _ | ⟨bl, b1, w, b2⟩
            · simp at hbl
            · simp only [level_node] at hbl
              subst hbl
              obtain ⟨hb1, hb2, hb1l, hb2l, hb2r⟩ := hb
              exact split_id (by omega)
          refine ⟨node (m + 2) (node (m + 1) l' x a) y b, ?_, ?_⟩
          · simp only [rebalance, e, true_or, if_true, Nat.add_sub_cancel,
              show m + 2 - 1 = m + 1 from rfl, hlow, Outcome.bind_ok, hsk, onRight_node, hska,
              skew_inv_id hb]
            rw [split_rot hbl]
            simp only [Outcome.bind_ok, onRight_node, hbsplit]
          · simp only [RemRel, Inv, level_node, right_node, hl, ha, hb, true_and, true_or]
            omega
        · refine ⟨node (m + 1) l' x (node (m + 1) a y b), ?_, ?_⟩
          · simp only [rebalance, e, true_or, if_true, Nat.add_sub_cancel,
              show m + 2 - 1 = m + 1 from rfl, hlow, Outcome.bind_ok, hsk, onRight_node, hska,
              skew_inv_id hb]
            rw [split_id (by simp; omega)]
            simp only [Outcome.bind_ok, onRight_node]
            rw [split_id (by omega)]
            rfl
          · simp only [RemRel, Inv, level_node, right_node, hl, ha, hb, true_and, true_or, or_true, and_true]
            omega
  · refine ⟨node lv l' x r, rebalance_id (by omega) (by omega), ?_⟩
    simp only [RemRel, Inv, level_node, right_node, hl, h2, true_and, true_or, or_true, and_true]
    omega

theorem rebalance_right {lv : Nat} {l r r' : AA α} {x : α} (h : Inv (node lv l x r)) (hr' : Inv r')
    (hr : RemRel r r') :
    ∃ t, rebalance (node lv l x r') = .ok t ∧ Inv t ∧ RemRel (node lv l x r) t := by
  obtain ⟨h1, h2, h3, h4, h5⟩ := h
  obtain ⟨hr1, hr2⟩ := hr
  have hrr := h2.right_le
  have hrr' := hr'.right_le
  by_cases e : r'.level + 1 < lv
  · obtain ⟨m, rfl⟩ : ∃ m, lv = m + 2 := ⟨lv - 2, by omega⟩
    have hrl : r'.level = m := by omega
    have hlow : lowerRight (m + 1) r' = .ok r' := lowerRight_id (by omega)
    rcases l with _ | ⟨ll, a, y, b⟩
    · simp at h3
    have hll : ll = m + 1 := by simp at h3; omega
    subst hll
    obtain ⟨ha, hb, hal, hbl, hbr⟩ := h1
    have hbr' := hb.right_le
    rcases hbl with hbl | hbl
    · rcases b with _ | ⟨bl, b1, z, b2⟩
      · simp at hbl
      simp only [level_node] at hbl
      subst hbl
      obtain ⟨hb1, hb2, hb1l, hb2l, hb2r⟩ := hb
      simp only [right_node] at hbr
      have hb1r := hb1.right_le
      have hb2r' := hb2.right_le
      refine ⟨node (m + 2) (node (m + 1) a y b1) z (node (m + 1) b2 x r'), ?_, ?_⟩
      · simp only [rebalance, e, or_true, if_true,
          show m + 2 - 1 = m + 1 from rfl, hlow, Outcome.bind_ok, onRight_node, skew_rot]
        rw [skew_id (by omega)]
        simp only [Outcome.bind_ok]
        rw [split_rot (by rfl)]
        simp only [Outcome.bind_ok, onRight_node]
        rw [split_id (by omega)]
        rfl
      · simp only [RemRel, Inv, level_node, right_node, ha, hb1, hb2, hr', true_and, true_or, or_true, and_true]
        omega
    · refine ⟨node (m + 1) a y (node (m + 1) b x r'), ?_, ?_⟩
      · simp only [rebalance, e, or_true, if_true,
          show m + 2 - 1 = m + 1 from rfl, hlow, Outcome.bind_ok, onRight_node, skew_rot]
        rw [skew_id (by omega)]
        simp only [Outcome.bind_ok, onRight_node, skew_inv_id hr']
        rw [split_id (by simp; omega)]
        simp only [Outcome.bind_ok, onRight_node]
        rw [split_id (by omega)]
        rfl
      · simp only [RemRel, Inv, level_node, right_node, ha, hb, hr', true_and, true_or, or_true, and_true]
        omega
  · refine ⟨node lv l x r', rebalance_id (by omega) (by omega), ?_⟩
    simp only [RemRel, Inv, level_node, right_node, h1, hr', true_and, true_or, or_true, and_true]
    omega

end Verif.Pcu.AA
