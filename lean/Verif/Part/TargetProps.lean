import Verif.Part.TargetLemmas
/-!
# Property C33: targets
-/
namespace Verif.Part
open Verif.Agi

theorem sum_pos_of {es : List HEdge} {P : HEdge → Bool} {w : HEdge → Int} (hw : ∀ e ∈ es, 0 < w e) {e : HEdge}
    (he : e ∈ es) (hp : P e = true) : 0 < ((es.filter P).map w).sum := by
  have hnn : ∀ l : List HEdge, (∀ e ∈ l, e ∈ es) → 0 ≤ (l.map w).sum := by
    intro l
    induction l with
    | nil => intro _; simp
    | cons a l ih =>
      intro h
      have h1 := ih (fun e he => h e (by simp [he]))
      have h2 := hw a (h a (by simp))
      simp only [List.map_cons, List.sum_cons]
      omega
  have hm : e ∈ es.filter P := List.mem_filter.mpr ⟨he, hp⟩
  obtain ⟨l1, l2, hl⟩ := List.append_of_mem hm
  have hsub : ∀ x ∈ es.filter P, x ∈ es := fun x hx => (List.mem_filter.mp hx).1
  rw [hl] at hsub ⊢
  have h1 := hnn l1 (fun x hx => hsub x (by simp [hx]))
  have h2 := hnn l2 (fun x hx => hsub x (by simp [hx]))
  have h3 := hw e he
  simp only [List.map_append, List.map_cons, List.sum_append, List.sum_cons]
  omega

theorem filter_sum_le {es : List HEdge} {P Q : HEdge → Bool} {w : HEdge → Int} (hw : ∀ e ∈ es, 0 < w e)
    (h : ∀ e ∈ es, P e = true → Q e = true) : ((es.filter P).map w).sum ≤ ((es.filter Q).map w).sum := by
  induction es with
  | nil => simp
  | cons a l ih =>
    have h1 := ih (fun e he => hw e (by simp [he])) (fun e he => h e (by simp [he]))
    have h2 := hw a (by simp)
    have h3 := h a (by simp)
    cases hp : P a with
    | true =>
      have hq := h3 hp
      simp only [List.filter_cons, hp, hq, if_true, List.map_cons, List.sum_cons]
      omega
    | false =>
      cases hq : Q a with
      | true =>
        simp only [List.filter_cons, hp, hq, if_true, Bool.false_eq_true, if_false, List.map_cons, List.sum_cons]
        omega
      | false =>
        simp only [List.filter_cons, hp, hq, Bool.false_eq_true, if_false]
        exact h1

theorem shared_pos {es : List HEdge} {own : Gid → Nat} {w : HEdge → Int} (hw : ∀ e ∈ es, 0 < w e) {p q : Int}
    (h : ∃ e ∈ es, Touches own p e ∧ Touches own q e) : 0 < sharedWeight es own w p q := by
  obtain ⟨e, he, h⟩ := h
  exact sum_pos_of hw he (by simpa using h)

theorem shared_le_cut {es : List HEdge} {own : Gid → Nat} {w : HEdge → Int} (hw : ∀ e ∈ es, 0 < w e) {p q : Int}
    (h : q ≠ p) : sharedWeight es own w p q ≤ cutWeight es own w p := by
  apply filter_sum_le hw
  intro e _ he
  simp only [decide_eq_true_eq] at he ⊢
  refine ⟨he.1, ?_⟩
  obtain ⟨v, hv, e1⟩ := he.2
  exact ⟨v, hv, by rw [e1]; exact h⟩

/-- the amount part `p` is to send to a neighbour `k`: the excess over `k`, times the share of `k` in the cut of
`p`, times the step factor -/
def amount (es : List HEdge) (own : Gid → Nat) (w : HEdge → Int) (W : Nat → Rat) (sf : Rat) (p k : Nat) : Rat :=
  (W p - W k) * ((sharedWeight es own w p k : Rat) / (cutWeight es own w p : Rat)) * sf

theorem amount_bounds {es : List HEdge} {own : Gid → Nat} {w : HEdge → Int} (hw : ∀ e ∈ es, 0 < w e) {W : Nat → Rat}
    {sf : Rat} (hsf : 0 < sf) {p k : Nat} (hpk : k ≠ p) (h : ∃ e ∈ es, Touches own p e ∧ Touches own k e)
    (hlt : W k < W p) : 0 < amount es own w W sf p k ∧ amount es own w W sf p k ≤ sf * (W p - W k) := by
  have h1 : 0 < sharedWeight es own w p k := shared_pos hw h
  have h2 : sharedWeight es own w p k ≤ cutWeight es own w p := shared_le_cut hw (by exact_mod_cast hpk)
  have h1' : (0 : Rat) < (sharedWeight es own w p k : Rat) := by exact_mod_cast h1
  have h3' : (0 : Rat) < (cutWeight es own w p : Rat) := by exact_mod_cast lt_of_lt_of_le h1 h2
  have h2' : (sharedWeight es own w p k : Rat) ≤ (cutWeight es own w p : Rat) := by exact_mod_cast h2
  have h4 : 0 < W p - W k := by linarith
  have h5 : (sharedWeight es own w p k : Rat) / (cutWeight es own w p : Rat) ≤ 1 := (div_le_one h3').mpr h2'
  have h6 : 0 < (sharedWeight es own w p k : Rat) / (cutWeight es own w p : Rat) := div_pos h1' h3'
  unfold amount
  refine ⟨by positivity, ?_⟩
  calc (W p - W k) * ((sharedWeight es own w p k : Rat) / (cutWeight es own w p : Rat)) * sf
      ≤ (W p - W k) * 1 * sf := by
        apply mul_le_mul_of_nonneg_right _ hsf.le
        exact mul_le_mul_of_nonneg_left h5 h4.le
    _ = sf * (W p - W k) := by ring

/-- the targets of part `p` of `n` parts with weights `W` are these: the other parts that share a hyperedge with
`p`, to which sending is allowed (the side is within the tolerance, or there are only two parts, and the part is
below the tolerance in every completed dimension `done`) and that are strictly lighter; the total recorded is the
sum of the entries -/
structure TargetsOf (es : List HEdge) (own : Gid → Nat) (w : HEdge → Int) (n : Nat) (W : Nat → Rat) (sf : Rat)
    (sideTol : Int) (done : List (Cont Rat × Rat)) (p : Nat) (T : Cont Rat) : Prop where
  total : T.total = (T.d.map Prod.snd).sum
  keys : (T.d.map Prod.fst).Nodup
  entries : ∀ q x, T.find q = some x ↔ ∃ k : Nat, q = (k : Int) ∧ k < n ∧ k ≠ p ∧
    (∃ e ∈ es, Touches own p e ∧ Touches own k e) ∧
    (sharedWeight es own w p k ≤ sideTol ∨ n = 2) ∧
    (∀ d ∈ done, d.1.get (k : Int) < d.2) ∧ W k < W p ∧ x = amount es own w W sf p k

/-- the targets of the parts of a distributed hypergraph, whenever the graphs represent it -/
theorem targets_world {H : List (List HEdge)} {ins : List Input} {own : Gid → Nat} (hd : HDist H ins own)
    {gs' : List Graph} (hw : World gs' ins own) {o3 : Nat → List Nat} (ho3 : Orders ins.length o3)
    (t : Nat) (ht : t < H.length) (w : HEdge → Int) (hwt : ∀ e ∈ H[t], e.w = (w e : Rat)) (hwp : ∀ e ∈ H[t], 0 < w e)
    (dim : Int) (cg : Bool) (W : Nat → Rat) (hW : ∀ p (_ : p < gs'.length), getWeight gs'[p] dim cg = .ok (W p)) :
    ∃ ss ws, gs'.mapM (fun g => sides g t) = .ok ss ∧ makeWeights gs' ss dim cg o3 = .ok ws ∧
        ss.length = ins.length ∧ ws.length = ins.length ∧
      ∀ p (_ : p < ss.length) (_ : p < ws.length) (sf : Rat), 0 < sf →
      ∀ (sideTol : Int) (done : List (Cont Rat × Rat)) (order : List (Int × Int)), order.Perm ss[p].d →
      ∃ T, targets true ins.length sf ss[p] ws[p] sideTol done order = .ok T ∧
        TargetsOf H[t] own w ins.length W sf sideTol done p T ∧
        (∀ (k : Nat) x, T.find (k : Int) = some x → W k < W p ∧ 0 < x ∧ x ≤ sf * (W p - W k)) := by
  obtain ⟨ss, es, hsl, hss⟩ := mapM_idx (f := fun g => sides g t) (fun p s => SidesOf H[t] own w p s) gs' (by
    intro p hp
    have hp' : p < ins.length := by rw [← hw.1]; exact hp
    obtain ⟨ghosts, hr⟩ := hw.2 p hp hp'
    exact sidesOf_part hd hp' hr ht hwt)
  -- neighbours are parts
  have hpart : ∀ (q : Int) (es' : HEdge), es' ∈ H[t] → Touches own q es' → ∃ k : Nat, q = k ∧ k < ins.length := by
    rintro q e he ⟨v, hv, rfl⟩
    obtain ⟨h1, -⟩ := hd.pins _ (List.getElem_mem ht) e he v hv
    exact ⟨own v, rfl, h1⟩
  have hkeys : ∀ p (hp : p < ss.length) (q : Int), q ∈ ss[p].d.map Prod.fst ↔
      q ≠ (p : Int) ∧ ∃ e ∈ H[t], Touches own p e ∧ Touches own q e := by
    intro p hp q
    have hs := hss p hp
    constructor
    · intro h
      have := (lookup_isSome ss[p].d q).mpr h
      rw [Option.isSome_iff_exists] at this
      obtain ⟨v, hv⟩ := this
      have := (hs.side q v).mp hv
      exact ⟨this.1, this.2.1⟩
    · rintro ⟨h1, h2⟩
      have : ss[p].find q = some _ := (hs.side q _).mpr ⟨h1, h2, rfl⟩
      rw [← lookup_isSome]
      unfold Cont.find at this
      rw [this]; rfl
  obtain ⟨ws, ew, hwl, hws⟩ := makeWeights_spec (ord := o3) hsl (by rw [hw.1]; exact ho3) hW (by
    intro p hp x hx
    obtain ⟨-, e, h1, -, h2⟩ := (hkeys p hp x.1).mp (List.mem_map.mpr ⟨x, hx, rfl⟩)
    obtain ⟨k, h3, h4⟩ := hpart _ e h1 h2
    rw [h3, hw.1]; omega)
  refine ⟨ss, ws, es, ew, by rw [hsl, hw.1], by rw [hwl, hw.1], ?_⟩
  intro p hp hpw sf hsf sideTol done order hord
  have hs := hss p hp
  obtain ⟨hmine, hget⟩ := hws p hpw
  have hlen : ss.length = ins.length := by rw [hsl, hw.1]
  have hwget : ∀ k (hk : k < ss.length), (k : Int) ∈ ss[p].d.map Prod.fst → ws[p].c.get (k : Int) = W k := by
    intro k hk hkk
    unfold Cont.get
    rw [hget k hk, if_pos]
    · rfl
    · obtain ⟨h1, e, h2, h3, h4⟩ := (hkeys p hp _).mp hkk
      exact (hkeys k hk _).mpr ⟨Ne.symm h1, e, h2, h4, h3⟩
  -- the result, from the characterisation of the entries
  have main : ∃ T, targets true ins.length sf ss[p] ws[p] sideTol done order = .ok T ∧ Sound T ∧
      ∀ q x, T.find q = some x ↔ ∃ v, (q, v) ∈ ss[p].d ∧ IsTarget true ins.length sf ss[p] ws[p] sideTol done q v x := by
    by_cases htot : ss[p].total = 0
    · have hd0 : ss[p].d = [] := by
        cases hdd : ss[p].d with
        | nil => rfl
        | cons a l =>
          exfalso
          have hk : a.1 ∈ ss[p].d.map Prod.fst := by rw [hdd]; simp
          obtain ⟨h1, h2⟩ := (hkeys p hp _).mp hk
          have h3 := shared_pos hwp h2
          have h4 := shared_le_cut (own := own) (w := w) (es := H[t]) hwp h1
          have h5 := hs.total
          omega
      have ho0 : order = [] := by rw [hd0] at hord; exact hord.eq_nil
      refine ⟨Cont.new, by rw [ho0]; rfl, sound_new, ?_⟩
      intro q x
      rw [find_new, hd0]; simp
    · obtain ⟨T, e1, h1, h2⟩ := targets_spec true ins.length sf ss[p] ws[p] sideTol done htot order Cont.new sound_new
        ((hord.map Prod.fst).nodup_iff.mpr hs.keys) (fun e _ => find_new _)
      refine ⟨T, e1, h1, ?_⟩
      intro q x
      rw [h2 q x, find_new]
      simp only [reduceCtorEq, false_or, hord.mem_iff]
  obtain ⟨T, eT, hT, hfind⟩ := main
  have hchar : ∀ q x, T.find q = some x ↔ ∃ k : Nat, q = (k : Int) ∧ k < ins.length ∧ k ≠ p ∧
          (∃ e ∈ H[t], Touches own p e ∧ Touches own k e) ∧
          (sharedWeight H[t] own w p k ≤ sideTol ∨ ins.length = 2) ∧
          (∀ d ∈ done, d.1.get (k : Int) < d.2) ∧ W k < W p ∧ x = amount H[t] own w W sf p k := by
    intro q x
    rw [hfind q x]
    constructor
    · rintro ⟨v, hv, hc, hlt, hx⟩
      have hkq : q ∈ ss[p].d.map Prod.fst := List.mem_map.mpr ⟨_, hv, rfl⟩
      obtain ⟨h1, h2⟩ := (hkeys p hp q).mp hkq
      obtain ⟨e0, he0, h3, h4⟩ := h2
      obtain ⟨k, rfl, hk⟩ := hpart q e0 he0 h4
      have hfv : ss[p].find (k : Int) = some v := (lookup_iff_mem _ hs.keys _ _).mpr hv
      have hv' := ((hs.side _ _).mp hfv).2.2
      have hwk := hwget k (by omega) hkq
      rw [hwk, hmine] at hlt hx
      unfold canSend at hc
      simp only [Bool.not_true, Bool.false_or, Bool.and_eq_true, Bool.or_eq_true, decide_eq_true_eq,
        List.all_eq_true] at hc
      refine ⟨k, rfl, hk, by rintro rfl; exact h1 rfl, ⟨e0, he0, h3, h4⟩, ?_, hc.2, hlt, ?_⟩
      · rcases hc.1 with h | h
        · left
          unfold Cont.get at h
          rw [hfv, hv'] at h
          exact h
        · exact .inr h
      · rw [hx, hv', hs.total]; rfl
    · rintro ⟨k, rfl, hk, hkp, hsh, hside, hdone, hlt, hx⟩
      have hne : (k : Int) ≠ (p : Int) := by exact_mod_cast hkp
      have hkq : (k : Int) ∈ ss[p].d.map Prod.fst := (hkeys p hp _).mpr ⟨hne, hsh⟩
      have hfv : ss[p].find (k : Int) = some (sharedWeight H[t] own w p k) := (hs.side _ _).mpr ⟨hne, hsh, rfl⟩
      have hwk := hwget k (by omega) hkq
      refine ⟨_, (lookup_iff_mem _ hs.keys _ _).mp hfv, ?_, ?_, ?_⟩
      · unfold canSend
        simp only [Bool.not_true, Bool.false_or, Bool.and_eq_true, Bool.or_eq_true, decide_eq_true_eq,
          List.all_eq_true]
        refine ⟨?_, hdone⟩
        rcases hside with h | h
        · left; unfold Cont.get; rw [hfv]; exact h
        · exact .inr h
      · rw [hwk, hmine]; exact hlt
      · rw [hwk, hmine, hx, hs.total]; rfl
  refine ⟨T, eT, ⟨hT.total, hT.keys, hchar⟩, ?_⟩
  intro k x hx
  obtain ⟨k', hkk, hk, hkp, hsh, -, -, hlt, rfl⟩ := (hchar _ _).mp hx
  have : k' = k := by exact_mod_cast hkk.symm
  subst this
  exact ⟨hlt, amount_bounds hwp hsf hkp hsh hlt⟩

/-- **C33**, the targets of hypergraphs: for every distributed hypergraph with positive integer edge weights
(of the type the sides are computed with), every dimension with part weights `W`, every step factor, side
tolerance, completed dimensions and delivery and hash order, the targets of part `p` are `TargetsOf`, and every
target is to a lighter part, positive and at most `sf` times the excess over that part. -/
theorem c33_targets (H : List (List HEdge)) (ins : List Input) (own : Gid → Nat) (hd : HDist H ins own)
    (owns : List (GMap Part)) (ho : OwnMaps ins own owns) (o1 o2 o3 : Nat → List Nat)
    (ho1 : Orders ins.length o1) (ho2 : Orders ins.length o2) (ho3 : Orders ins.length o3) :
    ∃ gs gs', buildAll ins = .ok gs ∧ constructGhosts gs owns o1 o2 = .ok gs' ∧ gs'.length = ins.length ∧
      ∀ t (_ : t < H.length) (w : HEdge → Int), (∀ e ∈ H[t], e.w = (w e : Rat)) → (∀ e ∈ H[t], 0 < w e) →
      ∀ (dim : Int) (cg : Bool) (W : Nat → Rat), (∀ p (_ : p < gs'.length), getWeight gs'[p] dim cg = .ok (W p)) →
      ∃ ss ws, gs'.mapM (fun g => sides g t) = .ok ss ∧ makeWeights gs' ss dim cg o3 = .ok ws ∧
        ss.length = ins.length ∧ ws.length = ins.length ∧
      ∀ p (_ : p < ss.length) (_ : p < ws.length) (sf : Rat), 0 < sf →
      ∀ (sideTol : Int) (done : List (Cont Rat × Rat)) (order : List (Int × Int)), order.Perm ss[p].d →
      ∃ T, targets true ins.length sf ss[p] ws[p] sideTol done order = .ok T ∧
        TargetsOf H[t] own w ins.length W sf sideTol done p T ∧
        (∀ (k : Nat) x, T.find (k : Int) = some x → W k < W p ∧ 0 < x ∧ x ≤ sf * (W p - W k)) := by
  obtain ⟨gs, e, hb⟩ := buildAll_spec ins hd.wf
  obtain ⟨gs', e', hw, -⟩ := constructGhosts_spec hb hd.dist (hdist_uniform hd) ho ho1 ho2
  refine ⟨gs, gs', e, e', hw.1, fun t ht w hwt hwp dim cg W hW =>
    targets_world hd hw ho3 t ht w hwt hwp dim cg W hW⟩

/-! ## the sum of the targets -/

theorem shared_cons (a : HEdge) (es : List HEdge) (own : Gid → Nat) (w : HEdge → Int) (p q : Int) :
    sharedWeight (a :: es) own w p q =
      (if Touches own p a ∧ Touches own q a then w a else 0) + sharedWeight es own w p q := by
  unfold sharedWeight
  rw [List.filter_cons]
  by_cases h : Touches own p a ∧ Touches own q a
  · simp [h]
  · simp [h]

theorem cut_cons (a : HEdge) (es : List HEdge) (own : Gid → Nat) (w : HEdge → Int) (p : Int) :
    cutWeight (a :: es) own w p =
      (if Touches own p a ∧ TouchesOther own p a then w a else 0) + cutWeight es own w p := by
  unfold cutWeight
  rw [List.filter_cons]
  by_cases h : Touches own p a ∧ TouchesOther own p a
  · simp [h]
  · simp [h]

/-- no hyperedge reaches more than two parts -/
def TwoParts (es : List HEdge) (own : Gid → Nat) : Prop :=
  ∀ e ∈ es, ∀ a ∈ e.pins, ∀ b ∈ e.pins, ∀ c ∈ e.pins, own a = own b ∨ own a = own c ∨ own b = own c

theorem sum_ite_le {P : Int → Prop} [DecidablePred P] {x : Int} (hx : 0 ≤ x)
    (huniq : ∀ q q', P q → P q' → q = q') : ∀ (K : List Int), K.Nodup →
    (K.map (fun q => if P q then x else 0)).sum ≤ (if ∃ q ∈ K, P q then x else 0)
  | [], _ => by simp
  | a :: K, h => by
    rw [List.nodup_cons] at h
    have ih := sum_ite_le hx huniq K h.2
    rw [List.map_cons, List.sum_cons]
    by_cases ha : P a
    · have : ∀ q ∈ K, ¬ P q := by
        intro q hq hpq
        rw [huniq a q ha hpq] at h
        exact h.1 hq
      rw [if_neg (by push Not; exact this)] at ih
      rw [if_pos ha, if_pos ⟨a, by simp, ha⟩]
      omega
    · rw [if_neg ha]
      have : (∃ q ∈ a :: K, P q) ↔ ∃ q ∈ K, P q := by simp [ha]
      simp only [this]
      omega

theorem sum_shared_le {own : Gid → Nat} {w : HEdge → Int} {p : Int} {K : List Int} (hK : K.Nodup) (hp : p ∉ K) :
    ∀ (es : List HEdge), (∀ e ∈ es, 0 < w e) → TwoParts es own →
    (K.map (fun q => sharedWeight es own w p q)).sum ≤ cutWeight es own w p
  | [], _, _ => by
    have : K.map (fun q => sharedWeight [] own w p q) = K.map (fun _ => 0) := rfl
    rw [this]; simp [cutWeight]
  | a :: es, hw, h2 => by
    have ih := sum_shared_le hK hp es (fun e he => hw e (by simp [he])) (fun e he => h2 e (by simp [he]))
    have hwa := hw a (by simp)
    have hsum : (K.map (fun q => sharedWeight (a :: es) own w p q)).sum =
        (K.map (fun q => if q ≠ p ∧ Touches own p a ∧ Touches own q a then w a else 0)).sum +
          (K.map (fun q => sharedWeight es own w p q)).sum := by
      clear ih hK
      induction K with
      | nil => simp
      | cons q K ihK =>
        have hqp : q ≠ p := by rintro rfl; exact hp (by simp)
        have := ihK (fun h => hp (by simp [h]))
        simp only [List.map_cons, List.sum_cons]
        rw [this, shared_cons]
        simp only [ne_eq, hqp, not_false_eq_true, true_and]
        ring
    rw [hsum, cut_cons]
    have h3 := sum_ite_le (P := fun q => q ≠ p ∧ Touches own p a ∧ Touches own q a) (x := w a) hwa.le (by
      rintro q q' ⟨hq, ⟨x, hx, ex⟩, y, hy, ey⟩ ⟨hq', -, z, hz, ez⟩
      rcases h2 a (by simp) x hx y hy z hz with h | h | h
      · exact absurd (by rw [← ey, ← ex, h]) hq
      · exact absurd (by rw [← ez, ← ex, h]) hq'
      · rw [← ey, ← ez, h]) K hK
    have h4 : (if ∃ q ∈ K, q ≠ p ∧ Touches own p a ∧ Touches own q a then w a else 0) ≤
        if Touches own p a ∧ TouchesOther own p a then w a else 0 := by
      by_cases hex : ∃ q ∈ K, q ≠ p ∧ Touches own p a ∧ Touches own q a
      · rw [if_pos hex]
        obtain ⟨q, -, hqp, ht, v, hv, ev⟩ := hex
        rw [if_pos ⟨ht, v, hv, by rw [ev]; exact hqp⟩]
      · rw [if_neg hex]
        split <;> omega
    omega

/-- **C33**, the sum, restricted: if no hyperedge reaches more than two parts, the targets of a part add up to
at most the step factor times the largest excess over a neighbour it sends to.  Missing compared to C33:
hyperedges that reach three or more parts; for those it is false (`c33_sum_exceeds_excess`). -/
theorem c33_sum_bound_partial (es : List HEdge) (own : Gid → Nat) (w : HEdge → Int) (hw : ∀ e ∈ es, 0 < w e)
    (h2 : TwoParts es own) (n : Nat) (W : Nat → Rat) (sf : Rat) (hsf : 0 < sf) (sideTol : Int)
    (done : List (Cont Rat × Rat)) (p : Nat) (T : Cont Rat) (hT : TargetsOf es own w n W sf sideTol done p T)
    (M : Rat) (hM : 0 ≤ M) (hmax : ∀ k : Nat, (T.find (k : Int)).isSome → W p - W k ≤ M) :
    T.total ≤ sf * M := by
  rw [hT.total]
  have hent : ∀ e ∈ T.d, ∃ k : Nat, e.1 = (k : Int) ∧ k ≠ p ∧ W k < W p ∧ W p - W k ≤ M ∧
      0 < sharedWeight es own w p k ∧ e.2 = amount es own w W sf p k := by
    intro e he
    have hf : T.find e.1 = some e.2 := (lookup_iff_mem _ hT.keys _ _).mpr he
    obtain ⟨k, h3, -, h4, h5, -, -, h6, h7⟩ := (hT.entries _ _).mp hf
    exact ⟨k, h3, h4, h6, hmax k (by rw [← h3, hf]; rfl), shared_pos hw h5, h7⟩
  have hsl := sum_shared_le (own := own) (w := w) (p := (p : Int)) hT.keys (by
    intro h
    obtain ⟨e, he, hep⟩ := List.mem_map.mp h
    obtain ⟨k, h3, h4, -⟩ := hent e he
    exact h4 (by have : (k : Int) = (p : Int) := by rw [← h3, hep]
                 exact_mod_cast this)) es hw h2
  rw [List.map_map] at hsl
  by_cases hne : T.d = []
  · rw [hne]; simp; positivity
  · have hpos : 0 < cutWeight es own w p := by
      obtain ⟨e, l, hd⟩ := List.exists_cons_of_ne_nil hne
      obtain ⟨k, h3, h4, -, -, h5, -⟩ := hent e (by rw [hd]; simp)
      have := shared_le_cut (own := own) (w := w) (es := es) (p := (p : Int)) (q := (k : Int)) hw (by exact_mod_cast h4)
      omega
    have hposr : (0 : Rat) < (cutWeight es own w p : Rat) := by exact_mod_cast hpos
    have hle : (T.d.map Prod.snd).sum ≤
        sf * M * (((T.d.map (fun e => sharedWeight es own w p e.1)).sum : Int) : Rat) / (cutWeight es own w p : Rat) := by
      have : ∀ l : List (Int × Rat), (∀ e ∈ l, e ∈ T.d) → (l.map Prod.snd).sum ≤
          sf * M * (((l.map (fun e => sharedWeight es own w p e.1)).sum : Int) : Rat) / (cutWeight es own w p : Rat) := by
        intro l
        induction l with
        | nil => intro _; simp
        | cons e l ih =>
          intro hl
          have ih' := ih (fun x hx => hl x (by simp [hx]))
          obtain ⟨k, h3, h4, h5, h6, h7, h8⟩ := hent e (hl e (by simp))
          simp only [List.map_cons, List.sum_cons]
          push_cast
          have h7' : (0 : Rat) < (sharedWeight es own w p k : Rat) := by exact_mod_cast h7
          have hx : e.2 ≤ sf * M * (sharedWeight es own w p e.1 : Rat) / (cutWeight es own w p : Rat) := by
            rw [h8, h3]
            unfold amount
            have hq : 0 < (sharedWeight es own w p k : Rat) / (cutWeight es own w p : Rat) := div_pos h7' hposr
            have : (W p - W k) * ((sharedWeight es own w p k : Rat) / (cutWeight es own w p : Rat)) * sf ≤
                M * ((sharedWeight es own w p k : Rat) / (cutWeight es own w p : Rat)) * sf := by
              apply mul_le_mul_of_nonneg_right _ hsf.le
              exact mul_le_mul_of_nonneg_right h6 hq.le
            refine le_trans this (le_of_eq ?_)
            ring
          have hadd : sf * M * ((sharedWeight es own w p e.1 : Rat) +
              (((l.map (fun e => sharedWeight es own w p e.1)).sum : Int) : Rat)) / (cutWeight es own w p : Rat) =
              sf * M * (sharedWeight es own w p e.1 : Rat) / (cutWeight es own w p : Rat) +
              sf * M * (((l.map (fun e => sharedWeight es own w p e.1)).sum : Int) : Rat) / (cutWeight es own w p : Rat) := by
            ring
          rw [hadd]
          linarith
      exact this T.d (fun _ h => h)
    refine le_trans hle ?_
    rw [div_le_iff₀ hposr]
    apply mul_le_mul_of_nonneg_left _ (by positivity)
    exact_mod_cast hsl

/-! ## examples and defects -/

/-- three parts with one vertex each and one hyperedge joining all three -/
def threeWorld : List Input :=
  [{ hyper := true, verts := [1], wgts := [5], types := [⟨[100], [[1, 2, 3]], []⟩] },
   { hyper := true, verts := [2], wgts := [1], types := [⟨[100], [[1, 2, 3]], []⟩] },
   { hyper := true, verts := [3], wgts := [1], types := [⟨[100], [[1, 2, 3]], []⟩] }]
def threeOwn : Gid → Nat := fun v => (v - 1).toNat
def threeHG : List (List HEdge) := [[⟨100, [1, 2, 3], 1⟩]]

theorem threeWorld_dist : HDist threeHG threeWorld threeOwn := by
  refine ⟨?_, by decide, ?_, ?_, by decide, ?_, ?_⟩
  · intro i hi
    simp only [threeWorld, List.mem_cons, List.not_mem_nil, or_false] at hi
    rcases hi with rfl | rfl | rfl
    all_goals
      refine ⟨by decide, by decide, ?_⟩
      intro e he
      simp only [List.mem_cons, List.not_mem_nil, or_false] at he
      subst he; exact ⟨by decide, by decide, by decide⟩
  · decide
  · decide
  · decide
  · intro p hp t ht ht'
    have h1 : p = 0 ∨ p = 1 ∨ p = 2 := by simp [threeWorld] at hp; omega
    have h2 : t = 0 := by simp [threeHG] at ht'; exact ht'
    subst h2
    rcases h1 with rfl | rfl | rfl <;> decide +revert

/-- all steps for part 0: sides of edge type 0, vertex weights, targets with step factor `sf` -/
def targetsOf0 (ins : List Input) (own : Gid → Nat) (hyper : Bool) (sf : Rat) (sideTol : Int) :
    Outcome (List (Int × Rat)) := do
  let gs ← buildAll ins
  let gs ← constructGhosts gs (List.replicate ins.length (fun v => some (own v : Int)))
    (fun _ => List.range ins.length) (fun _ => List.range ins.length)
  let ss ← gs.mapM (fun g => sides g 0)
  let ws ← makeWeights gs ss (-1) false (fun _ => List.range ins.length)
  let s ← rd ss 0
  let w ← rd ws 0
  let T ← targets hyper ins.length sf s w sideTol [] s.d
  return T.d

/-- **Defect** (C33): a hyperedge over three parts counts fully in the side of each neighbour but once in the
total.  Part 0 of weight 5 exceeds its two neighbours by 4 and asks each of them to take 4/2; with step factor
1/2 the sum 4 is twice the bound `1/2 * 4`. -/
theorem c33_sum_exceeds_excess : HDist threeHG threeWorld threeOwn ∧
    targetsOf0 threeWorld threeOwn true (1 / 2) 10 = .ok [(1, 2), (2, 2)] ∧
    ¬ ((2 : Rat) + 2 ≤ 1 / 2 * (5 - 1)) :=
  ⟨threeWorld_dist, by decide +kernel, by decide +kernel⟩

/-- **Defect** (C33): the weight of a neighbour arrives only if that neighbour has a side with this part.  In a
directed graph the edges of part 0 may lead to part 1 without any leading back: part 0 (weight 1) then takes
the weight of part 1 (5) for 0 and asks it to take more. -/
theorem c33_sends_to_heavier :
    targetsOf0 [⟨false, [1], [1], [⟨[0], [[1, 2]], []⟩]⟩, ⟨false, [2], [5], [⟨[], [], []⟩]⟩] sampleOwn false (1 / 10) 0 =
      .ok [(1, 1 / 10)] := by
  decide +kernel

/-- **Defect** (C33): if the truncated sides are all 0 (edge weights below 1), the share of a side is 0/0 -/
theorem c33_zero_total_ub :
    targetsOf0 [⟨true, [1], [5], [⟨[100], [[1, 2]], [1 / 2]⟩]⟩, ⟨true, [2], [1], [⟨[100], [[1, 2]], [1 / 2]⟩]⟩]
      sampleOwn true (1 / 10) 1 = .ub := by
  decide +kernel

/-- the other way round in the sample world: part 0 (weight 3) is lighter than part 1 (weight 9): no target;
the hypotheses of `c33_targets` are met by it -/
example : HDist sampleHG sampleWorld sampleOwn ∧ (∀ e ∈ (sampleHG.getD 0 []), e.w = ((1 : Int) : Rat)) ∧
    targetsOf0 sampleWorld sampleOwn true (1 / 10) 1 = .ok [] :=
  ⟨sampleWorld_dist, by decide +kernel, by decide +kernel⟩

/-- and with part 0 heavier there is one, of the whole excess times the step factor; the hyperedges reach
two parts only -/
example : targetsOf0 [⟨true, [1], [30], [⟨[100, 101], [[1, 2], [1]], []⟩]⟩,
      ⟨true, [2, 3], [4, 5], [⟨[102, 100], [[2, 3], [1, 2]], []⟩]⟩] sampleOwn true (1 / 10) 1 =
      .ok [(1, 21 / 10)] ∧ TwoParts (sampleHG.getD 0 []) sampleOwn :=
  ⟨by decide +kernel, by unfold TwoParts; decide⟩

end Verif.Part
