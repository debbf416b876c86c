import Verif.Part.TrimPart
/-!
# Property C35: what is accepted and kept fits the receiving part
-/
namespace Verif.Part
open Verif.Agi

section
variable {H : List (List HEdge)} {ins : List Input} {own : Gid → Nat}

theorem sum_add_range (n : Nat) (f g : Nat → Rat) : ((List.range n).map (fun p => f p + g p)).sum =
    ((List.range n).map f).sum + ((List.range n).map g).sum := by
  induction n with
  | zero => simp
  | succ n ih => simp only [List.range_succ, List.map_append, List.sum_append, ih]; simp; ring

theorem sum_range_nonneg {n : Nat} {f : Nat → Rat} (h : ∀ p, p < n → 0 ≤ f p) : 0 ≤ ((List.range n).map f).sum := by
  apply List.sum_nonneg
  intro x hx
  obtain ⟨p, hp, rfl⟩ := List.mem_map.mp hx
  exact h p (List.mem_range.mp hp)

theorem le_sum_range {n : Nat} {f : Nat → Rat} (h : ∀ p, p < n → 0 ≤ f p) {p : Nat} (hp : p < n) :
    f p ≤ ((List.range n).map f).sum := by
  induction n with
  | zero => omega
  | succ n ih =>
    rw [List.range_succ, List.map_append, List.sum_append]
    have h1 : 0 ≤ ((List.range n).map f).sum := sum_range_nonneg (fun p hp => h p (by omega))
    have h2 := h n (by omega)
    simp only [List.map_cons, List.map_nil, List.sum_cons, List.sum_nil]
    by_cases hpn : p = n
    · subst hpn; linarith
    · have := ih (fun p hp => h p (by omega)) (by omega); linarith

theorem sum_filter_nonneg {es : List HEdge} (hw : ∀ e ∈ es, 0 ≤ e.w) (P : HEdge → Bool) :
    0 ≤ ((es.filter P).map HEdge.w).sum := by
  apply List.sum_nonneg
  intro x hx
  obtain ⟨e, he, rfl⟩ := List.mem_map.mp hx
  exact hw e (List.mem_filter.mp he).1

/-- union bound for edges -/
theorem edge_bound {n : Nat} {P Q : HEdge → Bool} {R : Nat → HEdge → Bool} : ∀ {es : List HEdge},
    (∀ e ∈ es, 0 ≤ e.w) → (∀ e ∈ es, P e = true → Q e = true ∨ ∃ p, p < n ∧ R p e = true) →
    ((es.filter P).map HEdge.w).sum ≤ ((es.filter Q).map HEdge.w).sum +
      ((List.range n).map (fun p => ((es.filter (R p)).map HEdge.w).sum)).sum := by
  intro es
  induction es with
  | nil => intro _ _; simp
  | cons e es ih =>
    intro hw h
    have ih := ih (fun x hx => hw x (by simp [hx])) (fun x hx => h x (by simp [hx]))
    have hwe := hw e (by simp)
    have hcons : ∀ S : HEdge → Bool, (((e :: es).filter S).map HEdge.w).sum =
        (if S e = true then e.w else 0) + ((es.filter S).map HEdge.w).sum := by
      intro S
      rw [List.filter_cons]
      cases S e <;> simp
    have hfun : (fun p => (((e :: es).filter (R p)).map HEdge.w).sum) =
        (fun p => (if R p e = true then e.w else 0) + ((es.filter (R p)).map HEdge.w).sum) := by
      funext p; exact hcons (R p)
    rw [hcons, hcons, hfun, sum_add_range]
    have hnn : ∀ p, p < n → 0 ≤ (if R p e = true then e.w else 0) := by
      intro p _; split
      · exact hwe
      · exact le_refl _
    have h0 := sum_range_nonneg hnn
    have h1 : (if P e = true then e.w else 0) ≤ (if Q e = true then e.w else 0) +
        ((List.range n).map (fun p => if R p e = true then e.w else 0)).sum := by
      by_cases hP : P e = true
      · rw [if_pos hP]
        rcases h e (by simp) hP with hQ | ⟨p, hp, hR⟩
        · rw [if_pos hQ]; linarith
        · have := le_sum_range hnn hp
          rw [if_pos hR] at this
          have : 0 ≤ (if Q e = true then e.w else 0) := by
            split
            · exact hwe
            · exact le_refl _
          linarith
      · rw [if_neg hP]
        have : 0 ≤ (if Q e = true then e.w else 0) := by
          split
          · exact hwe
          · exact le_refl _
        linarith
    linarith

theorem flatten_filter_sum (P : Gid → Bool) (F : Gid → Rat) : ∀ (L : List (List Gid)),
    ((L.flatten.filter P).map F).sum = (L.map (fun l => ((l.filter P).map F).sum)).sum
  | [] => by simp
  | l :: L => by
    rw [List.flatten_cons, List.filter_append, List.map_append, List.sum_append, flatten_filter_sum P F L]
    rfl

theorem mem_allVerts {v : Gid} : v ∈ allVerts ins ↔ ∃ p, ∃ h : p < ins.length, v ∈ ins[p].verts := by
  unfold allVerts
  rw [List.mem_flatten]
  constructor
  · rintro ⟨l, hl, hv⟩
    obtain ⟨i, hi, rfl⟩ := List.mem_map.mp hl
    obtain ⟨p, hp, rfl⟩ := List.mem_iff_getElem.mp hi
    exact ⟨p, hp, hv⟩
  · rintro ⟨p, hp, hv⟩
    exact ⟨_, List.mem_map.mpr ⟨_, List.getElem_mem hp, rfl⟩, hv⟩

theorem vertexLoad_parts (own' : Gid → Nat) (q : Nat) : vertexLoad ins own own' q =
    ((List.range ins.length).map (fun p => (((ins.getD p ⟨true, [], [], []⟩).verts.filter
      (fun v => decide (own' v = q))).map (weightOf ins own)).sum)).sum := by
  have h : ∀ F : Gid → Rat, ((((ins.map Input.verts).flatten).filter (fun v => decide (own' v = q))).map F).sum =
      ((List.range ins.length).map (fun p => (((ins.getD p ⟨true, [], [], []⟩).verts.filter
        (fun v => decide (own' v = q))).map F).sum)).sum := by
    intro F
    rw [flatten_filter_sum]
    conv_lhs => rw [list_range ins ⟨true, [], [], []⟩]
    rw [List.map_map, List.map_map]
    rfl
  exact h _

theorem getD_ins {p : Nat} (hp : p < ins.length) (d : Input) : ins.getD p d = ins[p] := by
  rw [List.getD_eq_getElem?_getD, List.getElem?_eq_getElem hp]; rfl

/-- moving vertices makes a part heavier by at most what they bring -/
theorem partWeight_bound (hd : HDist H ins own) (hnn : NonNeg H ins own) {dim : Int}
    (hdim : -1 ≤ dim ∧ dim < (H.length : Int)) {own' : Gid → Nat} {q : Nat} {M : Nat → List Gid}
    (hM : ∀ p (hp : p < ins.length), ∀ v ∈ M p, v ∈ ins[p].verts)
    (hcov : ∀ p (hp : p < ins.length), ∀ v ∈ ins[p].verts, own' v = q → own v ≠ q → v ∈ M p) :
    partWeight H ins own own' dim q ≤ partWeight H ins own own dim q +
      ((List.range ins.length).map (fun p => bringWeight H ins own dim q (M p))).sum := by
  unfold partWeight bringWeight
  by_cases h1 : dim = -1
  · simp only [if_pos h1]
    rw [vertexLoad_parts, vertexLoad_parts, ← sum_add_range]
    apply List.sum_le_sum
    intro p hp
    have hp := List.mem_range.mp hp
    rw [getD_ins hp]
    have hwn : ∀ v ∈ ins[p].verts, 0 ≤ weightOf ins own v := fun v hv => hnn.verts v (mem_allVerts.mpr ⟨p, hp, hv⟩)
    have hnd := (hd.wf _ (List.getElem_mem hp)).nodup
    by_cases hpq : p = q
    · have ha : (((ins[p].verts).filter (fun v => decide (own' v = q))).map (weightOf ins own)).sum ≤
          (((ins[p].verts).filter (fun v => decide (own v = q))).map (weightOf ins own)).sum := by
        apply sum_subset (hnd.filter _)
        · intro v hv
          have hv1 := (List.mem_filter.mp hv).1
          exact List.mem_filter.mpr ⟨hv1, by simp [hd.verts p hp v hv1, hpq]⟩
        · intro v hv; exact hwn v (List.mem_filter.mp hv).1
      have hb : 0 ≤ ((M p).map (weightOf ins own)).sum := by
        apply List.sum_nonneg
        intro x hx
        obtain ⟨v, hv, rfl⟩ := List.mem_map.mp hx
        exact hwn v (hM p hp v hv)
      linarith
    · have ha : (((ins[p].verts).filter (fun v => decide (own' v = q))).map (weightOf ins own)).sum ≤
          ((M p).map (weightOf ins own)).sum := by
        apply sum_subset (hnd.filter _)
        · intro v hv
          obtain ⟨hv1, hv2⟩ := List.mem_filter.mp hv
          exact hcov p hp v hv1 (by simpa using hv2) (by rw [hd.verts p hp v hv1]; exact hpq)
        · intro v hv; exact hwn v (hM p hp v hv)
      have hb : 0 ≤ (((ins[p].verts).filter (fun v => decide (own v = q))).map (weightOf ins own)).sum := by
        apply List.sum_nonneg
        intro x hx
        obtain ⟨v, hv, rfl⟩ := List.mem_map.mp hx
        exact hwn v (List.mem_filter.mp hv).1
      linarith
  · simp only [if_neg h1]
    have ht : dim.toNat < H.length := by omega
    have hHt : H.getD dim.toNat [] = H[dim.toNat] := by rw [List.getD_eq_getElem?_getD, List.getElem?_eq_getElem ht]; rfl
    rw [hHt]
    unfold edgeLoad
    apply edge_bound (hnn.edges _ (List.getElem_mem ht))
    intro e he hP
    simp only [decide_eq_true_eq] at hP ⊢
    by_cases hT : Touches own (q : Int) e
    · exact .inl hT
    · right
      obtain ⟨v, hv, ev⟩ := hP
      obtain ⟨hpv, hvv⟩ := hd.pins _ (List.getElem_mem ht) e he v hv
      refine ⟨own v, hpv, ⟨v, hcov _ hpv v hvv (by exact_mod_cast ev) ?_, hv⟩, hT⟩
      intro hc
      exact hT ⟨v, hv, by rw [hc]⟩

theorem getWeight_ge (hd : HDist H ins own) (hnn : NonNeg H ins own) {gs' : List Graph} (hw : World gs' ins own)
    (hgw : 1 < ins.length → ∀ p (h : p < gs'.length) (hi : p < ins.length), ∃ ghosts,
      PartRep gs'[p] p ins.length ins[p] own ghosts ∧ gs'[p].ghostWeights = some (Mem.ofList (ghosts.map (weightOf ins own))))
    {cg : Bool} (hcg : cg = true → 1 < ins.length) {p : Nat} (hp : p < gs'.length) {dim : Int}
    (hdim : -1 ≤ dim ∧ dim < (H.length : Int)) :
    ∃ w, getWeight gs'[p] dim cg = .ok w ∧ partWeight H ins own own dim p ≤ w ∧ (dim ≠ -1 ∨ cg = false → w = partWeight H ins own own dim p) := by
  have hp' : p < ins.length := by rw [← hw.1]; exact hp
  obtain ⟨gh, hr⟩ := hw.2 p hp hp'
  have hwv := weightOf_verts hd.verts (fun i hi => (hd.wf i hi).nodup) hp'
  have hvl : vertexLoad ins own own p = (ins[p].verts.map (weightOf ins own)).sum := by
    rw [vertexLoad_parts]
    have : ∀ k, k < ins.length → ((((ins.getD k ⟨true, [], [], []⟩).verts.filter (fun v => decide (own v = p))).map (weightOf ins own)).sum =
        if k = p then (ins[p].verts.map (weightOf ins own)).sum else 0) := by
      intro k hk
      rw [getD_ins hk]
      split
      · rename_i hkp
        subst hkp
        rw [List.filter_eq_self.mpr]
        intro v hv; simp [hd.verts k hk v hv]
      · rename_i hkp
        rw [List.filter_eq_nil_iff.mpr]
        · simp
        · intro v hv; simp [hd.verts k hk v hv, hkp]
    rw [List.map_congr_left (fun k hk => this k (List.mem_range.mp hk))]
    rw [List.sum_map_ite_eq, List.count_eq_one_of_mem List.nodup_range (List.mem_range.mpr hp')]
    simp
  unfold partWeight
  by_cases h1 : dim = -1
  · subst h1
    rw [if_pos rfl]
    cases cg with
    | false =>
      refine ⟨_, getWeight_verts hr.core.v hr.weights (vertWeights_length _ _), ?_, fun _ => ?_⟩
      · rw [hvl, hwv]
      · rw [hvl, hwv]
    | true =>
      obtain ⟨gh2, hr2, hg2⟩ := hgw (hcg rfl) p hp hp'
      refine ⟨_, getWeight_ghosts hr2.core.v hr2.weights (vertWeights_length _ _) hg2 (by simp), ?_, fun h => by simp at h⟩
      rw [hvl, hwv]
      have : 0 ≤ (gh2.map (weightOf ins own)).sum := by
        apply List.sum_nonneg
        intro x hx
        obtain ⟨v, hv, rfl⟩ := List.mem_map.mp hx
        have hv' := ((hr2.mem_ghosts v).mp hv).1
        obtain ⟨hq, hvq⟩ := hd.dist.pins p hp' v hv'
        exact hnn.verts v (mem_allVerts.mpr ⟨_, hq, hvq⟩)
      linarith
  · rw [if_neg h1]
    obtain ⟨t, rfl⟩ : ∃ t : Nat, dim = (t : Int) := ⟨dim.toNat, by omega⟩
    rw [Int.toNat_natCast]
    have ht : t < H.length := by omega
    have htt : t < ins[p].types.length := by rw [hd.types p hp']; exact ht
    have hwf := (hd.wf _ (List.getElem_mem hp')).edges _ (List.getElem_mem htt)
    have hHt : H.getD t [] = H[t] := by rw [List.getD_eq_getElem?_getD, List.getElem?_eq_getElem ht]; rfl
    have he : ins[p].types[t].weights.sum = edgeLoad (H.getD t []) own p := by
      rw [hHt, ← (edges_zip htt hwf (fun _ => 0)).2, ((hd.edges p hp' t htt ht).map HEdge.w).sum_eq]
      unfold edgeLoad
      congr 2
      apply List.filter_congr
      intro e _
      rw [Bool.eq_iff_iff]
      simp [Touches]
    refine ⟨_, getWeight_edges hr.core htt (weights_length hwf) cg, ?_, fun _ => he⟩
    rw [he]

/-- the vertices of part `p` whose last planned destination is `q` -/
def plannedTo (ins : List Input) (ops : Nat → List GOp) (p q : Nat) : List Gid :=
  ((ins.getD p ⟨true, [], [], []⟩).verts).filter (fun v => decide (plannedG v (ops p).reverse = some (q : Int)))

theorem bring_perm {a b : List Gid} (h : a.Perm b) (dim : Int) (q : Nat) :
    bringWeight H ins own dim q a = bringWeight H ins own dim q b := by
  unfold bringWeight
  split
  · exact (h.map _).sum_eq
  · have : ∀ e : HEdge, (∃ v ∈ a, v ∈ e.pins) ↔ ∃ v ∈ b, v ∈ e.pins := by
      intro e; simp only [h.mem_iff]
    simp only [this]

end

/-- **C35.**  For every distributed hypergraph with non-negative weights, every plan the parts may have filled
(any calls, any destinations), every set of one to five completed dimensions with any limits, counting ghosts or
not, and all delivery orders: `trim` followed by `cancel` succeeds; each vertex either keeps its planned
destination or is dropped from the plan; and if the vertices were placed as the remaining plans say, no part would
in any completed dimension weigh more than the larger of what it weighed before and the limit of that dimension.
Moreover nothing is dropped needlessly: the vertices going to a part all stay planned if what they bring fits the
room that part has (strictly, in the last dimension).  Missing compared to C35: traditional graphs, and more than five
completed dimensions, where the claim is false (`c35_six_dimensions_ub`). -/
theorem c35_within_limits_partial (H : List (List HEdge)) (ins : List Input) (own : Gid → Nat) (hd : HDist H ins own)
    (hnn : NonNeg H ins own) (owns : List (GMap Part)) (ho : OwnMaps ins own owns) (o1 o2 o3 o4 : Nat → List Nat)
    (ho1 : Orders ins.length o1) (ho2 : Orders ins.length o2) (ho3 : Orders ins.length o3) (ho4 : Orders ins.length o4)
    (ops : Nat → List GOp) (hops : ∀ p (hp : p < ins.length), ∀ v d, GOp.insert v d ∈ ops p →
      v ∈ ins[p].verts ∧ 0 ≤ d ∧ d < (ins.length : Int))
    (dims : List Int) (limits : List Rat) (hpos : 0 < dims.length) (h5 : dims.length ≤ 5)
    (hlim : dims.length ≤ limits.length) (hdims : ∀ d ∈ dims, -1 ≤ d ∧ d < (H.length : Int))
    (cg : Bool) (hcg : cg = true → 1 < ins.length) :
    ∃ gs gs' plans plans' own', buildAll ins = .ok gs ∧ constructGhosts gs owns o1 o2 = .ok gs' ∧
      gs'.zipIdx.mapM (fun x => x.1.planG (ops x.2)) = .ok plans ∧
      trimCancel gs' plans dims limits cg o3 o4 = .ok plans' ∧
      gs'.length = ins.length ∧ plans'.length = ins.length ∧
      (∀ p (hp : p < ins.length) (hg : p < gs'.length) (hpl : p < plans'.length), ∀ v ∈ ins[p].verts, ∃ h,
        gs'[p].findGID v = .ok h ∧
        ((gs'[p].planGet plans'[p] h = .ok (-1) ∧ own' v = own v) ∨
          (plannedG v (ops p).reverse = some ((own' v : Nat) : Int) ∧
            gs'[p].planGet plans'[p] h = .ok ((own' v : Nat) : Int)))) ∧
      (∀ q, q < ins.length → ∀ i (hi : i < dims.length) (hl : i < limits.length),
        partWeight H ins own own' dims[i] q ≤ max (partWeight H ins own own dims[i] q) limits[i]) ∧
      (dims.Nodup → ∀ q (hq : q < gs'.length),
        (∀ i (hi : i < dims.length) (hl : i < limits.length), ∀ w, getWeight gs'[q] dims[i] cg = .ok w →
          ((List.range ins.length).map (fun p => bringWeight H ins own dims[i] q (plannedTo ins ops p q))).sum ≤ limits[i] - w ∧
          (i = dims.length - 1 →
            ((List.range ins.length).map (fun p => bringWeight H ins own dims[i] q (plannedTo ins ops p q))).sum < limits[i] - w)) →
        ∀ p (_ : p < ins.length), ∀ v ∈ plannedTo ins ops p q, own' v = q) := by
  obtain ⟨gs, e, hb⟩ := buildAll_spec ins hd.wf
  obtain ⟨gs', e', hw, hrr⟩ := constructGhosts_spec hb hd.dist (hdist_uniform hd) ho ho1 ho2
  have hgl := hw.1
  have hb1 := hb.1
  have hgw : 1 < ins.length → ∀ p (h : p < gs'.length) (hi : p < ins.length), ∃ ghosts,
      PartRep gs'[p] p ins.length ins[p] own ghosts ∧ gs'[p].ghostWeights = some (Mem.ofList (ghosts.map (weightOf ins own))) :=
    fun h1 p h hi => (hrr p h (by omega) hi).2.2.2.2 h1
  -- the plans
  have hview : ∀ p, ∃ x : PartView, ∃ gh : List Gid, ∀ (hp : p < ins.length) (hg : p < gs'.length),
      x.g = gs'[p] ∧ x.vs = ins[p].verts ∧ x.hnd = (fun v => getVertex (ins[p].verts.idxOf v)) ∧
      x.wt = weightOf ins own ∧ x.inc = incOf gs'[p] ins[p] gh ∧ x.res = resOf gs'[p] ∧ x.ew = ewOf gs'[p] ∧
      x.f = (fun v => plannedG v (ops p).reverse) ∧ PartRep gs'[p] p ins.length ins[p] own gh ∧
      gs'[p].planG (ops p) = .ok x.plan ∧ x.Ok dims ins.length := by
    intro p
    by_cases hp : p < ins.length
    swap
    · exact ⟨⟨emptyGraph 0 0, ⟨none, []⟩, [], fun _ => 0, fun _ => 0, fun _ _ => [], fun _ _ => false, fun _ => 0, [], fun _ => none⟩,
        [], fun h => absurd h hp⟩
    have hg : p < gs'.length := by omega
    obtain ⟨gh, hr⟩ := hw.2 p hg hp
    obtain ⟨plan, s, e1, hpr⟩ := planG_rep hr.core.v (ops p) (fun v d h => by
      have := hops p hp v d h; exact ⟨this.1, by omega⟩)
    refine ⟨⟨gs'[p], plan, ins[p].verts, fun v => getVertex (ins[p].verts.idxOf v), weightOf ins own,
      incOf gs'[p] ins[p] gh, resOf gs'[p], ewOf gs'[p], s, fun v => plannedG v (ops p).reverse⟩, gh, fun _ _ =>
      ⟨rfl, rfl, rfl, rfl, rfl, rfl, rfl, rfl, hr, e1, ?_⟩⟩
    have hrange : ∀ (l : List GOp), (∀ v d, GOp.insert v d ∈ l → 0 ≤ d ∧ d < (ins.length : Int)) → ∀ v d,
        plannedG v l = some d → 0 ≤ d ∧ d < (ins.length : Int) := by
      intro l
      induction l with
      | nil => intro _ v d h; simp [plannedG] at h
      | cons a l ih =>
        intro hl v d h
        cases a with
        | clear => simp [plannedG] at h
        | insert v' d' =>
          unfold plannedG at h
          split at h
          · cases h; exact hl v' d (by simp)
          · exact ih (fun v d h => hl v d (by simp [h])) v d h
    refine ⟨facts_part hd hnn hp hr hdims, ?_, fun e => ewOf_nonneg _ e, hr.core.v.nl,
      (hd.wf _ (List.getElem_mem hp)).nodup, fun v _ => rfl, hpr, ?_⟩
    · intro v hv; exact hnn.verts v (mem_allVerts.mpr ⟨p, hp, hv⟩)
    · intro v hv
      obtain ⟨hv1, hv2⟩ := (hpr.mem v).mp hv
      obtain ⟨d, hdd⟩ := Option.ne_none_iff_exists'.mp hv2
      unfold PartView.dest
      simp only [hdd, Option.getD_some]
      exact hrange _ (fun v d h => (hops p hp v d (by simpa using h)).2) v d hdd
  choose X gh hX using hview
  have hXo : ∀ p, p < ins.length → (X p).Ok dims ins.length := fun p hp => (hX p hp (by omega)).2.2.2.2.2.2.2.2.2.2
  have hWex : ∀ p, ∃ W : Nat → Rat, ∀ (hp : p < gs'.length), ∀ i (hi : i < dims.length),
      getWeight gs'[p] dims[i] cg = .ok (W i) ∧ partWeight H ins own own dims[i] p ≤ W i := by
    intro p
    by_cases hp : p < gs'.length
    swap
    · exact ⟨fun _ => 0, fun h => absurd h hp⟩
    have : ∀ i, ∃ w, ∀ (hi : i < dims.length), getWeight gs'[p] dims[i] cg = .ok w ∧ partWeight H ins own own dims[i] p ≤ w := by
      intro i
      by_cases hi : i < dims.length
      · obtain ⟨w, h1, h2, -⟩ := getWeight_ge hd hnn hw hgw hcg hp (hdims _ (List.getElem_mem hi))
        exact ⟨w, fun _ => ⟨h1, h2⟩⟩
      · exact ⟨0, fun h => absurd h hi⟩
    choose W hW using this
    exact ⟨W, fun _ i hi => hW i hi⟩
  choose W hW using hWex
  have hgd : ∀ i (hi : i < dims.length), dims.getD i 0 = dims[i] := by
    intro i hi; rw [List.getD_eq_getElem?_getD, List.getElem?_eq_getElem hi]; rfl
  have hld : ∀ i (hi : i < limits.length), limits.getD i 0 = limits[i] := by
    intro i hi; rw [List.getD_eq_getElem?_getD, List.getElem?_eq_getElem hi]; rfl
  obtain ⟨plans', kept, hrun, hk, hfit, hall⟩ := trimCancel_spec (n := ins.length) (X := X) (dims := dims) (limits := limits)
    (cg := cg) hXo hpos h5 hlim (W := W)
    (by
      intro p hp i hi
      obtain ⟨x1, -⟩ := hX p hp (by omega)
      rw [x1, hgd i hi]
      exact (hW p (by omega) i hi).1) ho3 ho4
  have hgs : (List.range ins.length).map (fun p => (X p).g) = gs' := by
    apply List.ext_getElem
    · simp [hgl]
    · intro p h1 h2
      simp only [List.getElem_map, List.getElem_range]
      exact (hX p (by omega) h2).1
  rw [hgs] at hrun
  let own' : Gid → Nat := fun v => if v ∈ kept (own v) then ((X (own v)).dest v).toNat else own v
  have hks : ∀ p (hp : p < ins.length), ∀ v ∈ kept p, v ∈ (X p).s ∧ v ∈ ins[p].verts := by
    intro p hp v hv
    have h1 := (hk p hp).1.subset hv
    have h2 := (((hXo p hp).plan.mem v).mp h1).1
    rw [(hX p hp (by omega)).2.1] at h2
    exact ⟨h1, h2⟩
  have hload : ∀ p (hp : p < ins.length), ∀ i (hi : i < dims.length), ∀ (q : Nat) (us : List Gid), (∀ v ∈ us, v ∈ ins[p].verts) →
      load (X p).wt (X p).inc (X p).res (X p).ew dims[i] q us = bringWeight H ins own dims[i] q us := by
    intro p hp i hi q us hus
    obtain ⟨x1, x2, x3, x4, x5, x6, x7, x8, x9, -⟩ := hX p hp (by omega)
    rw [x4, x5, x6, x7]
    exact load_part hd hnn hp x9 (hdims _ (List.getElem_mem hi)) q hus
  refine ⟨gs, gs', (List.range ins.length).map (fun p => (X p).plan), (List.range ins.length).map plans', own', e, e', ?_, hrun, hgl,
    by simp, ?_, ?_, ?_⟩
  · have : gs'.zipIdx = (List.range ins.length).map (fun p => ((X p).g, p)) := by
      conv_lhs => rw [← hgs]
      exact zipIdx_range _ _
    rw [this]
    apply mapM_range
    intro p hp
    obtain ⟨x1, x2, x3, x4, x5, x6, x7, x8, x9, x10, -⟩ := hX p hp (by omega)
    simp only
    rw [x1]; exact x10
  · intro p hp hg hpl v hv
    obtain ⟨x1, x2, x3, x4, x5, x6, x7, x8, x9, x10, x11⟩ := hX p hp hg
    have hpr := (hk p hp).2
    rw [x2] at hpr
    refine ⟨getVertex (ins[p].verts.idxOf v), ?_, ?_⟩
    · have := findGID_eq x9.core.v (show v ∈ ins[p].verts ++ gh p by simp [hv])
      rwa [List.idxOf_append_of_mem hv] at this
    · simp only [List.getElem_map, List.getElem_range]
      rw [planGet_eq hpr (by exact x9.core.v.nl) hv]
      have hov := hd.verts p hp v hv
      simp only [own', hov]
      by_cases hin : v ∈ kept p
      · right
        obtain ⟨hs1, -⟩ := hks p hp v hin
        obtain ⟨d, hdd⟩ := Option.ne_none_iff_exists'.mp (((hXo p hp).plan.mem v).mp hs1).2
        have hr := (hXo p hp).range v hs1
        have hde : (X p).dest v = d := by unfold PartView.dest; rw [hdd]; rfl
        rw [hde] at hr
        rw [if_pos hin, if_pos hin, hdd, hde]
        have h2 : ((d.toNat : Nat) : Int) = d := by omega
        rw [h2]
        rw [x8] at hdd
        exact ⟨hdd, rfl⟩
      · left
        rw [if_neg hin, if_neg hin]
        exact ⟨rfl, rfl⟩
  · intro q hq i hi hl
    have hb1 := partWeight_bound (own' := own') (q := q) hd hnn (hdims _ (List.getElem_mem hi))
      (M := fun p => going (X p).dest (q : Int) (kept p)) (by
        intro p hp v hv
        exact (hks p hp v (List.mem_filter.mp hv).1).2)
      (by
        intro p hp v hv ho' hno
        have hov := hd.verts p hp v hv
        simp only [own', hov] at ho' hno
        by_cases hin : v ∈ kept p
        · rw [if_pos hin] at ho'
          refine List.mem_filter.mpr ⟨hin, ?_⟩
          have := (hXo p hp).range v (hks p hp v hin).1
          simp only [decide_eq_true_eq]; omega
        · rw [if_neg hin] at ho'; exact absurd ho' hno)
    have hb2 := hfit q hq i hi
    rw [hgd i hi, hld i hl] at hb2
    have hb3 : ((List.range ins.length).map (fun p => bringWeight H ins own dims[i] q (going (X p).dest (q : Int) (kept p)))).sum =
        ((List.range ins.length).map (fun p => (X p).load dims[i] q (kept p))).sum := by
      congr 1
      apply List.map_congr_left
      intro p hp
      have hp := List.mem_range.mp hp
      unfold PartView.load
      exact (hload p hp i hi q _ (fun v hv => (hks p hp v (List.mem_filter.mp hv).1).2)).symm
    rw [hb3] at hb1
    have hb4 := (hW q (by omega) i hi).2
    rcases le_total (limits[i] - W q i) 0 with h0 | h0
    · rw [max_eq_left h0] at hb2
      exact le_max_of_le_left (by linarith)
    · rw [max_eq_right h0] at hb2
      exact le_max_of_le_right (by linarith)
  · intro hnd q hq hroom p hp v hv
    have hq' : q < ins.length := by omega
    have hsp : ∀ p, (hp : p < ins.length) → (going (X p).dest (q : Int) (X p).s).Perm (plannedTo ins ops p q) := by
      intro p hp
      obtain ⟨x1, x2, x3, x4, x5, x6, x7, x8, x9, x10, x11⟩ := hX p hp (by omega)
      unfold going plannedTo
      rw [getD_ins hp]
      rw [List.perm_ext_iff_of_nodup (x11.plan.nodup.filter _) ((hd.wf _ (List.getElem_mem hp)).nodup.filter _)]
      intro v
      rw [List.mem_filter, List.mem_filter, x11.plan.mem v, x2, x8]
      simp only [decide_eq_true_eq, PartView.dest, x8]
      constructor
      · rintro ⟨⟨h1, h2⟩, h3⟩
        obtain ⟨d, hdd⟩ := Option.ne_none_iff_exists'.mp h2
        rw [hdd] at h3 ⊢
        exact ⟨h1, by rw [← h3]; rfl⟩
      · rintro ⟨h1, h2⟩
        rw [h2]
        exact ⟨⟨h1, by simp⟩, rfl⟩
    have hoff : ∀ i (hi : i < dims.length),
        ((List.range ins.length).map (fun p => (offerOf X dims p q).getD i 0)).sum =
        ((List.range ins.length).map (fun p => bringWeight H ins own dims[i] q (plannedTo ins ops p q))).sum := by
      intro i hi
      congr 1
      apply List.map_congr_left
      intro p hp
      have hp := List.mem_range.mp hp
      unfold offerOf
      have hlp := hload p hp i hi q (going (X p).dest (q : Int) (X p).s) (by
        intro v hv
        have := (((hXo p hp).plan.mem v).mp (List.mem_filter.mp hv).1).1
        rwa [(hX p hp (by omega)).2.1] at this)
      rw [offer_getD hi, hgd i hi, hlp, bring_perm (hsp p hp)]
      have hone : (if dims[i] = -1 then (dims.count (-1) : Rat) else 1) = 1 := by
        split
        · rename_i h1
          have : dims.count (-1) = 1 := by
            apply List.count_eq_one_of_mem hnd
            rw [← h1]; exact List.getElem_mem hi
          rw [this]; rfl
        · rfl
      rw [hone, one_mul]
    have hg := hall q hq' (by
        intro i hi
        rw [hoff i hi, hld i (by omega)]
        exact (hroom i hi (by omega) _ (hW q hq i hi).1).1)
      (by
        rw [hoff _ (by omega), hld _ (by omega)]
        exact (hroom _ (by omega) (by omega) _ (hW q hq _ (by omega)).1).2 rfl) p hp
    have hv1 := (hsp p hp).mem_iff.mpr hv
    rw [← hg] at hv1
    obtain ⟨hv2, hv3⟩ := List.mem_filter.mp hv1
    have hov := hd.verts p hp v (hks p hp v hv2).2
    simp only [own', hov]
    rw [if_pos hv2]
    simp only [decide_eq_true_eq] at hv3
    omega


/-- the plans of the parts after the calls `ops`, `trim` and `cancel`: for each part its vertices with their
remaining destination -/
def negotiate (ins : List Input) (own : Gid → Nat) (ops : Nat → List GOp) (dims : List Int) (limits : List Rat)
    (cg : Bool) : Outcome (List (List (Gid × Part))) := do
  let gs ← buildAll ins
  let o := fun _ : Nat => List.range ins.length
  let gs ← constructGhosts gs (ins.map (fun _ => fun v => some (own v : Int))) o o
  let plans ← gs.zipIdx.mapM (fun x => x.1.planG (ops x.2))
  let plans' ← trimCancel gs plans dims limits cg o o
  ((gs.zip plans').zip ins).mapM (fun x => x.2.verts.mapM (fun v => do
    let h ← x.1.1.findGID v
    let d ← x.1.1.planGet x.1.2 h
    return (v, d)))

/-- the hypotheses of C35 are met, and both outcomes occur: part 1 wants to send vertices 2 and 3 (weights 4 and 5)
to part 0 (weight 3, two hyperedges of weight 1).  With limits 8 and 4 only vertex 2 may go; the same with limits 13
and 4 when ghosts are counted; without ghosts both may go; with limits 13 and 2 neither, as vertex 2 brings the
hyperedge (2,3) -/
example : HDist sampleHG sampleWorld sampleOwn ∧ NonNeg sampleHG sampleWorld sampleOwn ∧
    negotiate sampleWorld sampleOwn (fun p => if p = 1 then [.insert 2 0, .insert 3 0] else []) [-1, 0] [8, 4] false =
      .ok [[(1, -1)], [(2, 0), (3, -1)]] ∧
    negotiate sampleWorld sampleOwn (fun p => if p = 1 then [.insert 2 0, .insert 3 0] else []) [-1, 0] [13, 4] true =
      .ok [[(1, -1)], [(2, 0), (3, -1)]] ∧
    negotiate sampleWorld sampleOwn (fun p => if p = 1 then [.insert 2 0, .insert 3 0] else []) [-1, 0] [13, 4] false =
      .ok [[(1, -1)], [(2, 0), (3, 0)]] ∧
    negotiate sampleWorld sampleOwn (fun p => if p = 1 then [.insert 2 0, .insert 3 0] else []) [-1, 0] [13, 2] false =
      .ok [[(1, -1)], [(2, -1), (3, -1)]] :=
  ⟨sampleWorld_dist, ⟨by decide +kernel, by decide +kernel⟩, by decide +kernel, by decide +kernel, by decide +kernel,
    by decide +kernel⟩

/-- two parts with five edge types -/
def fiveWorld : List Input :=
  [{ hyper := true, verts := [1], wgts := [], types := (List.range 5).map (fun _ => ⟨[100], [[1, 2]], []⟩) },
   { hyper := true, verts := [2], wgts := [], types := (List.range 5).map (fun _ => ⟨[100], [[1, 2]], []⟩) }]

/-- balancing vertices and five edge types: once all six are completed, an offer does not fit the five slots of the
receiver's buffer -/
theorem c35_six_dimensions_ub :
    negotiate fiveWorld sampleOwn (fun p => if p = 1 then [.insert 2 0] else []) [-1, 0, 1, 2, 3, 4]
      [9, 9, 9, 9, 9, 9] false = .ub ∧
    negotiate fiveWorld sampleOwn (fun p => if p = 1 then [.insert 2 0] else []) [-1, 0, 1, 2, 3]
      [9, 9, 9, 9, 9, 9] false = .ok [[(1, -1)], [(2, 0)]] := by
  constructor <;> decide +kernel

end Verif.Part
