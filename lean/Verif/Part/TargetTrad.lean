import Verif.Part.TargetProps
import Verif.Part.WSelTrad
/-!
# C33 for traditional graphs: targets

The specification counts edges between parts.
-/
namespace Verif.Part
open Verif.Agi

/-- how many edges of type `t` go from part `p` to part `q` -/
def arcsBetween (ins : List Input) (t : Nat) (own : Gid → Nat) (p q : Nat) : Nat :=
  ((arcsOf ins t).filter (fun e => decide (e.pins.map own = [p, q]))).length

/-- how many edges of type `t` leave part `p` -/
def arcsLeaving (ins : List Input) (t : Nat) (own : Gid → Nat) (p : Nat) : Nat :=
  ((arcsOf ins t).filter (fun e => decide ((e.pins.map own).head? = some p ∧ e.pins.map own ≠ [p, p]))).length

/-- the edges of type `t` that part `p` passes all weigh `a p`, a positive integer -/
structure EqualWeights (ins : List Input) (t : Nat) (a : Nat → Int) : Prop where
  pos : ∀ p, 0 < a p
  eq : ∀ p (_ : p < ins.length) e, ins[p].types[t]? = some e → ∀ x ∈ e.edges, x.w = (a p : Rat)

/-- two parts are neighbours of each other, or not at all -/
def Mutual (ins : List Input) (t : Nat) (own : Gid → Nat) : Prop :=
  ∀ p q, 0 < arcsBetween ins t own p q → 0 < arcsBetween ins t own q p

/-- the amount part `p` is to send to a neighbour `k`: the excess over `k`, times the share of the edges to `k` in those
that leave `p`, times the step factor -/
def amountTrad (ins : List Input) (t : Nat) (own : Gid → Nat) (W : Nat → Rat) (sf : Rat) (p k : Nat) : Rat :=
  (W p - W k) * ((arcsBetween ins t own p k : Rat) / (arcsLeaving ins t own p : Rat)) * sf

/-- the targets of part `p` of a traditional graph: the other parts that an edge of `p` reaches, below the tolerance in
every completed dimension and strictly lighter -/
structure TargetsOfTrad (ins : List Input) (t : Nat) (own : Gid → Nat) (W : Nat → Rat) (sf : Rat)
    (done : List (Cont Rat × Rat)) (p : Nat) (T : Cont Rat) : Prop where
  total : T.total = (T.d.map Prod.snd).sum
  keys : (T.d.map Prod.fst).Nodup
  entries : ∀ q x, T.find q = some x ↔ ∃ k : Nat, q = (k : Int) ∧ k < ins.length ∧ k ≠ p ∧
    0 < arcsBetween ins t own p k ∧ (∀ d ∈ done, d.1.get (k : Int) < d.2) ∧ W k < W p ∧ x = amountTrad ins t own W sf p k

/-! ## proof -/

section
variable {ins : List Input} {own : Gid → Nat} {T t : Nat}

theorem arcs_part (hd : TradDist ins own T) {p : Nat} (hp : p < ins.length) (htp : t < ins[p].types.length)
    (P : List Nat → Bool) (hP : ∀ l, P l = true → l.head? = some p) :
    ((arcsOf ins t).filter (fun e => P (e.pins.map own))).length =
      (ins[p].types[t].pins.filter (fun e => P (e.map own))).length := by
  have hwf := (hd.dist.wf _ (List.getElem_mem hp)).edges _ (List.getElem_mem htp)
  rw [arcsOf_split hp htp, List.filter_append, List.filter_append, List.length_append, List.length_append]
  have hz : ∀ (js : List Input), (∀ j ∈ js, ∃ q, ∃ h : q < ins.length, q ≠ p ∧ j = ins[q]) →
      ((arcsOf js t).filter (fun e => P (e.pins.map own))) = [] := by
    intro js hjs
    rw [List.filter_eq_nil_iff]
    intro x hx hPx
    obtain ⟨j, hj, hx⟩ := List.mem_flatMap.mp hx
    obtain ⟨q, hq, hqp, rfl⟩ := hjs j hj
    cases he : ins[q].types[t]? with
    | none => simp [he] at hx
    | some e =>
      rw [he] at hx
      obtain ⟨u, hu, w', -, he'⟩ := hd.sources _ (List.getElem_mem hq) e (List.mem_of_getElem? he) _ (edge_pins_mem hx)
      have h1 := hP _ hPx
      rw [he'] at h1
      simp only [List.map_cons, List.head?_cons, Option.some.injEq] at h1
      exact hqp ((hd.dist.verts q hq u hu).symm.trans h1)
  rw [hz (ins.take p), hz (ins.drop (p + 1))]
  · simp only [List.length_nil, Nat.zero_add, Nat.add_zero]
    rw [← edges_pins hwf, List.filter_map, List.length_map]
    rfl
  · intro j hj
    obtain ⟨k, hk, rfl⟩ := List.mem_iff_getElem.mp hj
    rw [List.length_drop] at hk
    exact ⟨p + 1 + k, by omega, by omega, by rw [List.getElem_drop]⟩
  · intro j hj
    obtain ⟨k, hk, rfl⟩ := List.mem_iff_getElem.mp hj
    rw [List.length_take] at hk
    exact ⟨k, by omega, by omega, by rw [List.getElem_take]⟩

theorem between_part (hd : TradDist ins own T) {p : Nat} (hp : p < ins.length) (htp : t < ins[p].types.length) (q : Nat) :
    arcsBetween ins t own p q = (ins[p].types[t].pins.filter (fun e => decide (e.map own = [p, q]))).length :=
  arcs_part hd hp htp (fun l => decide (l = [p, q])) (by
    intro l hl
    rw [decide_eq_true_eq] at hl
    rw [hl]; rfl)

theorem leaving_part (hd : TradDist ins own T) {p : Nat} (hp : p < ins.length) (htp : t < ins[p].types.length) :
    arcsLeaving ins t own p =
      (ins[p].types[t].pins.filter (fun e => decide ((e.map own).head? = some p ∧ e.map own ≠ [p, p]))).length :=
  arcs_part hd hp htp (fun l => decide (l.head? = some p ∧ l ≠ [p, p])) (by
    intro l hl
    rw [decide_eq_true_eq] at hl
    exact hl.1)

/-- the sides of a part of a traditional graph -/
structure TradSides (ins : List Input) (t : Nat) (own : Gid → Nat) (a : Int) (p : Nat) (s : Cont Int) : Prop where
  keys : (s.d.map Prod.fst).Nodup
  side : ∀ q v, s.find q = some v ↔ ∃ k : Nat, q = (k : Int) ∧ k < ins.length ∧ k ≠ p ∧ 0 < arcsBetween ins t own p k ∧
    v = a * (arcsBetween ins t own p k : Int)
  total : s.total = a * (arcsLeaving ins t own p : Int)

theorem wsum_const (P : List Gid → Prop) [DecidablePred P] (l : List (List Gid)) (w : Int) :
    wsum P (l.map (fun p => (p, w))) = w * ((l.filter (fun p => decide (P p))).length : Int) := by
  unfold wsum
  rw [List.filter_map, List.map_map]
  have : ∀ l : List (List Gid), (l.map (Prod.snd ∘ fun p => (p, w))).sum = w * (l.length : Int) := by
    intro l
    induction l with
    | nil => simp
    | cons a l ih => rw [List.map_cons, List.sum_cons, ih]; simp; ring
  rw [this]
  rfl

theorem tradSides_part (hd : TradDist ins own T) {g : Graph} {p n : Nat} (hp : p < ins.length) {ghosts : List Gid}
    (hr : PartRep g p n ins[p] own ghosts) (htp : t < ins[p].types.length) {a : Nat → Int} (ha : EqualWeights ins t a) :
    ∃ s, sides g t = .ok s ∧ TradSides ins t own (a p) p s := by
  have hc := hr.core
  rw [hd.uniform.hyper _ (List.getElem_mem hp)] at hc
  have hwfi := hd.dist.wf _ (List.getElem_mem hp)
  have hwf := hwfi.edges _ (List.getElem_mem htp)
  have hs : ∀ x ∈ ins[p].types[t].pins, ∃ u ∈ ins[p].verts, ∃ w, u ≠ w ∧ x = [u, w] :=
    hd.sources _ (List.getElem_mem hp) _ (List.getElem_mem htp)
  have hW : ∀ x ∈ ins[p].types[t].weights, x = ((a p : Int) : Rat) := by
    intro x hx
    rw [← (edges_zip htp hwf (fun _ => 0)).2] at hx
    obtain ⟨e, he, rfl⟩ := List.mem_map.mp hx
    exact ha.eq p hp _ (List.getElem?_eq_getElem htp) e he
  obtain ⟨s, e1, h⟩ := sides_trad hc hr.owners htp (by
    intro x hx
    obtain ⟨u, hu, w, -, rfl⟩ := hs x hx
    exact hu) hwfi.nodup hW (weights_length hwf)
  rw [ownerOf_trad hd.dist hp hr, hr.rank] at h
  -- the edges of the part
  have hcut : ∀ x ∈ ins[p].types[t].pins, ∀ k : Nat, k ≠ p →
      (CutTo (fun v => (own v : Int)) (k : Int) x ↔ x.map own = [p, k]) := by
    intro x hx k hk
    obtain ⟨u, hu, w, -, rfl⟩ := hs x hx
    have hou := hd.dist.verts p hp u hu
    simp only [CutTo, CutE, List.mem_cons, List.not_mem_nil, or_false, exists_eq_or_imp, exists_eq_left, List.map_cons,
      List.map_nil, List.cons.injEq, and_true, hou, true_and]
    constructor
    · rintro ⟨-, h | h⟩
      · exact absurd (by exact_mod_cast h.symm) hk
      · exact_mod_cast h
    · intro h
      rw [h]
      refine ⟨?_, .inr rfl⟩
      left; right
      intro h'
      exact hk (by exact_mod_cast h'.symm)
  have hcutE : ∀ x ∈ ins[p].types[t].pins,
      (CutE (fun v => (own v : Int)) x ↔ (x.map own).head? = some p ∧ x.map own ≠ [p, p]) := by
    intro x hx
    obtain ⟨u, hu, w, -, rfl⟩ := hs x hx
    have hou := hd.dist.verts p hp u hu
    simp only [CutE, List.mem_cons, List.not_mem_nil, or_false, exists_eq_or_imp, exists_eq_left, List.map_cons,
      List.map_nil, List.head?_cons, hou, true_and]
    constructor
    · rintro h h'
      simp only [List.cons.injEq, and_true, true_and] at h'
      rw [h'] at h
      simp at h
    · intro h
      left; right
      intro h'
      apply h
      have : own w = p := by exact_mod_cast h'.symm
      rw [this]
  refine ⟨s, e1, h.keys, ?_, ?_⟩
  · intro q v
    rw [h.side q v, wsum_const]
    constructor
    · rintro ⟨hq, ⟨x', hx', hx2⟩, hv⟩
      obtain ⟨x, hx, rfl⟩ := List.mem_map.mp hx'
      have hx3 := hx2
      obtain ⟨-, y, hy, hyq⟩ := hx2
      have hyp : y ∈ ins[p].allPins := by
        exact List.mem_flatMap.mpr ⟨_, List.getElem_mem htp, List.mem_flatten.mpr ⟨x, hx, hy⟩⟩
      obtain ⟨hlt, -⟩ := hd.dist.pins p hp y hyp
      have hyq' : q = (own y : Int) := hyq.symm
      subst hyq'
      have hk : own y ≠ p := by intro h; exact hq (by rw [h])
      refine ⟨own y, rfl, hlt, hk, ?_, ?_⟩
      · rw [between_part hd hp htp]
        apply List.length_pos_of_mem (a := x)
        rw [List.mem_filter, decide_eq_true_eq]
        refine ⟨hx, (hcut x hx _ hk).mp hx3⟩
      · rw [hv, between_part hd hp htp]
        congr 2
        apply congrArg
        apply List.filter_congr
        intro x hx
        simp only [hcut x hx _ hk]
    · rintro ⟨k, rfl, hlt, hk, hpos, rfl⟩
      rw [between_part hd hp htp] at hpos ⊢
      obtain ⟨x, hx⟩ := List.exists_mem_of_length_pos hpos
      rw [List.mem_filter, decide_eq_true_eq] at hx
      refine ⟨by exact_mod_cast hk, ⟨_, List.mem_map.mpr ⟨x, hx.1, rfl⟩, (hcut x hx.1 k hk).mpr hx.2⟩, ?_⟩
      congr 2
      apply congrArg
      apply List.filter_congr
      intro x hx
      simp only [hcut x hx _ hk]
  · rw [h.total, wsum_const, leaving_part hd hp htp]
    congr 2
    apply congrArg
    apply List.filter_congr
    intro x hx
    simp only [hcutE x hx]

theorem between_le_leaving (ins : List Input) (t : Nat) (own : Gid → Nat) {p k : Nat} (hk : k ≠ p) :
    arcsBetween ins t own p k ≤ arcsLeaving ins t own p := by
  unfold arcsBetween arcsLeaving
  apply List.Sublist.length_le
  apply List.monotone_filter_right
  intro x hx
  rw [decide_eq_true_eq] at hx ⊢
  rw [hx]
  refine ⟨rfl, ?_⟩
  simp [hk]

theorem amountTrad_bounds {W : Nat → Rat} {sf : Rat} (hsf : 0 < sf) {p k : Nat} (hpk : k ≠ p)
    (h : 0 < arcsBetween ins t own p k) (hlt : W k < W p) :
    0 < amountTrad ins t own W sf p k ∧ amountTrad ins t own W sf p k ≤ sf * (W p - W k) := by
  have h2 := between_le_leaving ins t own hpk
  have h1' : (0 : Rat) < (arcsBetween ins t own p k : Rat) := by exact_mod_cast h
  have h3' : (0 : Rat) < (arcsLeaving ins t own p : Rat) := by exact_mod_cast lt_of_lt_of_le h h2
  have h2' : (arcsBetween ins t own p k : Rat) ≤ (arcsLeaving ins t own p : Rat) := by exact_mod_cast h2
  have h4 : 0 < W p - W k := by linarith
  have h5 : (arcsBetween ins t own p k : Rat) / (arcsLeaving ins t own p : Rat) ≤ 1 := (div_le_one h3').mpr h2'
  have h6 : 0 < (arcsBetween ins t own p k : Rat) / (arcsLeaving ins t own p : Rat) := div_pos h1' h3'
  unfold amountTrad
  refine ⟨by positivity, ?_⟩
  calc (W p - W k) * ((arcsBetween ins t own p k : Rat) / (arcsLeaving ins t own p : Rat)) * sf
      ≤ (W p - W k) * 1 * sf := by
        apply mul_le_mul_of_nonneg_right _ hsf.le
        exact mul_le_mul_of_nonneg_left h5 h4.le
    _ = sf * (W p - W k) := by ring

/-- the targets of the parts of a traditional graph -/
theorem targets_trad (hd : TradDist ins own T) {gs' : List Graph} (hw : World gs' ins own) {o3 : Nat → List Nat}
    (ho3 : Orders ins.length o3) (ht : t < T) {a : Nat → Int} (ha : EqualWeights ins t a) (hm : Mutual ins t own)
    (dim : Int) (cg : Bool) (W : Nat → Rat) (hW : ∀ p (_ : p < gs'.length), getWeight gs'[p] dim cg = .ok (W p)) :
    ∃ ss ws, gs'.mapM (fun g => sides g t) = .ok ss ∧ makeWeights gs' ss dim cg o3 = .ok ws ∧
        ss.length = ins.length ∧ ws.length = ins.length ∧
      ∀ p (_ : p < ss.length) (_ : p < ws.length) (sf : Rat), 0 < sf →
      ∀ (sideTol : Int) (done : List (Cont Rat × Rat)) (order : List (Int × Int)), order.Perm ss[p].d →
      ∃ T, targets false ins.length sf ss[p] ws[p] sideTol done order = .ok T ∧
        TargetsOfTrad ins t own W sf done p T ∧
        (∀ (k : Nat) x, T.find (k : Int) = some x → W k < W p ∧ 0 < x ∧ x ≤ sf * (W p - W k)) := by
  obtain ⟨ss, es, hsl, hss⟩ := mapM_idx (f := fun g => sides g t) (fun p s => TradSides ins t own (a p) p s) gs' (by
    intro p hp
    have hp' : p < ins.length := by rw [← hw.1]; exact hp
    obtain ⟨ghosts, hr⟩ := hw.2 p hp hp'
    exact tradSides_part hd hp' hr (by rw [hd.uniform.types _ (List.getElem_mem hp')]; exact ht) ha)
  have hkeys : ∀ p (hp : p < ss.length) (q : Int), q ∈ ss[p].d.map Prod.fst ↔
      ∃ k : Nat, q = (k : Int) ∧ k < ins.length ∧ k ≠ p ∧ 0 < arcsBetween ins t own p k := by
    intro p hp q
    have hs := hss p hp
    constructor
    · intro h
      have := (lookup_isSome ss[p].d q).mpr h
      rw [Option.isSome_iff_exists] at this
      obtain ⟨v, hv⟩ := this
      obtain ⟨k, h1, h2, h3, h4, -⟩ := (hs.side q v).mp hv
      exact ⟨k, h1, h2, h3, h4⟩
    · rintro ⟨k, h1, h2, h3, h4⟩
      have : ss[p].find q = some _ := (hs.side q _).mpr ⟨k, h1, h2, h3, h4, rfl⟩
      rw [← lookup_isSome]
      unfold Cont.find at this
      rw [this]; rfl
  obtain ⟨ws, ew, hwl, hws⟩ := makeWeights_spec (ord := o3) hsl (by rw [hw.1]; exact ho3) hW (by
    intro p hp x hx
    obtain ⟨k, h1, h2, -⟩ := (hkeys p hp x.1).mp (List.mem_map.mpr ⟨x, hx, rfl⟩)
    rw [h1, hw.1]; omega)
  refine ⟨ss, ws, es, ew, by rw [hsl, hw.1], by rw [hwl, hw.1], ?_⟩
  intro p hp hpw sf hsf sideTol done order hord
  have hs := hss p hp
  obtain ⟨hmine, hget⟩ := hws p hpw
  have hlen : ss.length = ins.length := by rw [hsl, hw.1]
  have hwget : ∀ k (hk : k < ss.length), k ≠ p → 0 < arcsBetween ins t own p k → ws[p].c.get (k : Int) = W k := by
    intro k hk hkp hkk
    unfold Cont.get
    rw [hget k hk, if_pos]
    · rfl
    · exact (hkeys k hk _).mpr ⟨p, rfl, by omega, Ne.symm hkp, hm _ _ hkk⟩
  have main : ∃ T, targets false ins.length sf ss[p] ws[p] sideTol done order = .ok T ∧ Sound T ∧
      ∀ q x, T.find q = some x ↔ ∃ v, (q, v) ∈ ss[p].d ∧ IsTarget false ins.length sf ss[p] ws[p] sideTol done q v x := by
    by_cases htot : ss[p].total = 0
    · have hd0 : ss[p].d = [] := by
        cases hdd : ss[p].d with
        | nil => rfl
        | cons b l =>
          exfalso
          have hk : b.1 ∈ ss[p].d.map Prod.fst := by rw [hdd]; simp
          obtain ⟨k, -, -, h1, h2⟩ := (hkeys p hp _).mp hk
          have h3 := between_le_leaving ins t own h1
          have h5 := hs.total
          have h6 := ha.pos p
          rw [htot] at h5
          rcases mul_eq_zero.mp h5.symm with h7 | h7
          · omega
          · have : arcsLeaving ins t own p = 0 := by exact_mod_cast h7
            omega
      have ho0 : order = [] := by rw [hd0] at hord; exact hord.eq_nil
      refine ⟨Cont.new, by rw [ho0]; rfl, sound_new, ?_⟩
      intro q x
      rw [find_new, hd0]; simp
    · obtain ⟨T, e1, h1, h2⟩ := targets_spec false ins.length sf ss[p] ws[p] sideTol done htot order Cont.new sound_new
        ((hord.map Prod.fst).nodup_iff.mpr hs.keys) (fun e _ => find_new _)
      refine ⟨T, e1, h1, ?_⟩
      intro q x
      rw [h2 q x, find_new]
      simp only [reduceCtorEq, false_or, hord.mem_iff]
  obtain ⟨T, eT, hT, hfind⟩ := main
  have hap : ((a p : Int) : Rat) ≠ 0 := by
    have := ha.pos p
    exact_mod_cast (ne_of_gt this)
  have hamt : ∀ k, (W p - W k) * (((a p * (arcsBetween ins t own p k : Int) : Int) : Rat) /
      ((a p * (arcsLeaving ins t own p : Int) : Int) : Rat)) * sf = amountTrad ins t own W sf p k := by
    intro k
    unfold amountTrad
    push_cast
    rw [mul_div_mul_left _ _ hap]
  have hcs : ∀ q, canSend false ins.length ss[p] sideTol done q = true ↔ ∀ d ∈ done, d.1.get q < d.2 := by
    intro q
    unfold canSend
    simp
  have hchar : ∀ q x, T.find q = some x ↔ ∃ k : Nat, q = (k : Int) ∧ k < ins.length ∧ k ≠ p ∧
      0 < arcsBetween ins t own p k ∧ (∀ d ∈ done, d.1.get (k : Int) < d.2) ∧ W k < W p ∧
      x = amountTrad ins t own W sf p k := by
    intro q x
    rw [hfind q x]
    constructor
    · rintro ⟨v, hv, hc, hlt, hx⟩
      have hfv : ss[p].find q = some v := (lookup_iff_mem _ hs.keys _ _).mpr hv
      obtain ⟨k, rfl, h2, h3, h4, h5⟩ := (hs.side _ _).mp hfv
      rw [hwget k (by omega) h3 h4, hmine] at hlt hx
      refine ⟨k, rfl, h2, h3, h4, (hcs _).mp hc, hlt, ?_⟩
      rw [hx, h5, hs.total, hamt]
    · rintro ⟨k, rfl, hk, hkp, hpos, hdone, hlt, hx⟩
      have hfv : ss[p].find (k : Int) = some (a p * (arcsBetween ins t own p k : Int)) :=
        (hs.side _ _).mpr ⟨k, rfl, hk, hkp, hpos, rfl⟩
      refine ⟨_, (lookup_iff_mem _ hs.keys _ _).mp hfv, (hcs _).mpr hdone, ?_, ?_⟩
      · rw [hwget k (by omega) hkp hpos, hmine]; exact hlt
      · rw [hwget k (by omega) hkp hpos, hmine, hs.total, hamt, hx]
  refine ⟨T, eT, ⟨hT.total, hT.keys, hchar⟩, ?_⟩
  intro k x hx
  obtain ⟨k', hkk, hk, hkp, hsh, -, hlt, rfl⟩ := (hchar _ _).mp hx
  have : k' = k := by exact_mod_cast hkk.symm
  subst this
  exact ⟨hlt, amountTrad_bounds hsf hkp hsh hlt⟩

end
end Verif.Part
