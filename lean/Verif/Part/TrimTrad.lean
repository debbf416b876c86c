import Verif.Part.SelectTrad
/-!
# C35 for traditional graphs: loads

Specification: `arcsOf` (ParmetisSym) are the edges of all parts, `vertexLoad` (TrimSpec) the vertex weight of a part.
An edge is stored with its source, so the weight of a part in an edge dimension is that of the edges leaving its vertices.
-/
namespace Verif.Part
open Verif.Agi

/-! ## specification -/

/-- total weight of the edges of type `t` that leave the vertices of part `q` when the vertices are placed by `own'` -/
def arcLoad (ins : List Input) (t : Nat) (own' : Gid → Nat) (q : Nat) : Rat :=
  (((arcsOf ins t).filter (fun e => decide (e.pins.head?.map own' = some q))).map HEdge.w).sum

/-- the weight of part `q` in dimension `dim` (-1: vertices, otherwise an edge type) when the vertices are placed by `own'` -/
def partWeightT (ins : List Input) (own own' : Gid → Nat) (dim : Int) (q : Nat) : Rat :=
  if dim = -1 then vertexLoad ins own own' q else arcLoad ins dim.toNat own' q

/-- weight of the edges that come to part `q` with the vertices it receives and end at a vertex that `q` owns already;
nothing for vertex weights -/
def innerWeight (ins : List Input) (own own' : Gid → Nat) (dim : Int) (q : Nat) : Rat :=
  if dim = -1 then 0
  else (((arcsOf ins dim.toNat).filter (fun e => decide (e.pins.head?.map own' = some q ∧ e.pins.head?.map own ≠ some q ∧
    ∃ w ∈ e.pins, own w = q))).map HEdge.w).sum

/-- what the vertices `us` weigh for part `q` in dimension `dim`: the vertices themselves, or the edges that leave them and
do not end on `q` -/
def bringWeightT (ins : List Input) (own : Gid → Nat) (dim : Int) (q : Nat) (us : List Gid) : Rat :=
  if dim = -1 then (us.map (weightOf ins own)).sum
  else (((arcsOf ins dim.toNat).filter (fun e => decide ((∃ v ∈ us, e.pins.head? = some v) ∧ ¬ ∃ w ∈ e.pins, own w = q))).map
    HEdge.w).sum

/-! ## proof -/

theorem kept_zipQ {i : Input} (hnd : i.verts.Nodup) {e : EdgeInput} (hwf : e.WF false) (hs : ArcsOn i.verts e.pins)
    (hk : e.pins.Pairwise (fun p q => srcIdx i.verts p ≤ srcIdx i.verts q) ∨ ∀ x ∈ e.edges, ∀ y ∈ e.edges, x.w = y.w) :
    ((Io.grouped i.verts e.pins).zip e.weights).Perm (e.pins.zip e.weights) := by
  rcases hk with hk | hk
  · rw [grouped_sorted hnd hs hk]
  · have hperm := Io.grouped_perm hnd hs
    have hl1 := weights_length hwf
    have hi := hwf.ids_len
    have hx : ∀ k (hk : k < e.pins.length), (⟨e.ids[k]'(by omega), e.pins[k], e.weights[k]'(by omega)⟩ : HEdge) ∈ e.edges := by
      intro k hk
      unfold EdgeInput.edges
      refine List.mem_map.mpr ⟨(e.ids[k]'(by omega), e.pins[k], e.weights[k]'(by omega)), ?_, rfl⟩
      refine List.mem_iff_getElem.mpr ⟨k, by simp; omega, ?_⟩
      simp
    obtain ⟨c, hc⟩ : ∃ c, e.weights = List.replicate e.pins.length c := by
      by_cases h0 : 0 < e.pins.length
      · refine ⟨e.weights[0]'(by omega), ?_⟩
        rw [List.eq_replicate_iff]
        refine ⟨hl1, fun b hb => ?_⟩
        obtain ⟨k, hk', rfl⟩ := List.mem_iff_getElem.mp hb
        exact hk _ (hx k (by omega)) _ (hx 0 h0)
      · refine ⟨0, ?_⟩
        have : e.pins.length = 0 := by omega
        rw [this]
        simp only [List.replicate_zero]
        exact List.length_eq_zero_iff.mp (by omega)
    have hz : ∀ L : List (List Gid), L.length = e.pins.length → L.zip e.weights = L.map (fun x => (x, c)) := by
      intro L hL
      apply List.ext_getElem
      · simp [hL, hl1]
      · intro k h1 h2
        simp [hc]
    rw [hz _ hperm.length_eq, hz _ rfl]
    exact hperm.map _

/-- a sum over the positions of a list of pairs -/
theorem sum_zip_filter {α : Type} (P : α → Bool) : ∀ (a : List α) (b : List Rat), a.length = b.length →
    (((List.range a.length).filter (fun k => (a[k]?.map P).getD false)).map (fun k => b.getD k 0)).sum =
      (((a.zip b).filter (fun x => P x.1)).map Prod.snd).sum := by
  intro a
  induction a with
  | nil => intro b _; simp
  | cons x a ih =>
    intro b hb
    cases b with
    | nil => simp at hb
    | cons y b =>
      have ih := ih b (by simpa using hb)
      rw [List.length_cons, List.range_succ_eq_map, List.filter_cons, List.filter_map, List.zip_cons_cons, List.filter_cons]
      have hf : ((fun k => (((x :: a)[k]?).map P).getD false) ∘ Nat.succ) = (fun k => (a[k]?.map P).getD false) := by
        funext k; simp
      rw [hf]
      have hm : (((List.range a.length).filter (fun k => (a[k]?.map P).getD false)).map Nat.succ).map (fun k => (y :: b).getD k 0) =
          ((List.range a.length).filter (fun k => (a[k]?.map P).getD false)).map (fun k => b.getD k 0) := by
        rw [List.map_map]; apply List.map_congr_left; intro k _; simp
      have hh : (((x :: a)[0]?).map P).getD false = P x := rfl
      rw [hh]
      cases P x with
      | false => simp only [Bool.false_eq_true, if_false]; rw [hm, ih]
      | true => simp only [if_true, List.map_cons, List.sum_cons]; rw [hm, ih]; rfl

section
variable {ins : List Input} {own : Gid → Nat} {T : Nat}

theorem brought_trad (hd : TradDist ins own T) {g : Graph} {p n : Nat} (hp : p < ins.length) {ghosts : List Gid}
    (hr : PartRep g p n ins[p] own ghosts) {t : Nat} (ht : t < ins[p].types.length) (q : Nat) {us : List Gid}
    (hus : ∀ v ∈ us, v ∈ ins[p].verts) :
    (brought (incT g ins[p]) (resOf g) t q us).Perm
      (((List.range (Io.grouped ins[p].verts ins[p].types[t].pins).length).filter (fun k =>
        (((Io.grouped ins[p].verts ins[p].types[t].pins)[k]?).map (fun x : List Gid =>
          decide ((∃ v ∈ us, x.head? = some v) ∧ ¬ ∃ w ∈ x, own w = q))).getD false)).map (fun k => g.getEdge k t)) := by
  have hs : ∀ x ∈ ins[p].types[t].pins, ∃ u ∈ ins[p].verts, ∃ w, u ≠ w ∧ x = [u, w] :=
    hd.sources _ (List.getElem_mem hp) _ (List.getElem_mem ht)
  have hnd := (hd.dist.wf _ (List.getElem_mem hp)).nodup
  rw [List.perm_ext_iff_of_nodup (nodup_brought _ _ _ _ _)]
  swap
  · apply List.Nodup.map_on
    · intro a _ b _ hab
      exact getEdge_inj (by rw [hr.core.numTypes]; exact ht) hab
    · exact List.nodup_range.filter _
  intro h
  rw [mem_brought, List.mem_map]
  constructor
  · rintro ⟨⟨v, hv, hin⟩, hres⟩
    obtain ⟨k, w, rfl, -, ⟨hk, hg⟩, -, hr'⟩ := incT_mem hd hp hr ht (hus v hv) hin
    refine ⟨k, List.mem_filter.mpr ⟨List.mem_range.mpr hk, ?_⟩, rfl⟩
    rw [List.getElem?_eq_getElem hk, hg]
    unfold resOf at hres
    rw [hr' q] at hres
    simp only [decide_eq_false_iff_not] at hres
    simp only [Option.map_some, Option.getD_some, decide_eq_true_eq]
    refine ⟨⟨v, hv, rfl⟩, ?_⟩
    rintro ⟨x, hx, ex⟩
    exact hres ⟨x, hx, by rw [ex]⟩
  · rintro ⟨k, hk, rfl⟩
    obtain ⟨hk, hP⟩ := List.mem_filter.mp hk
    have hk := List.mem_range.mp hk
    rw [List.getElem?_eq_getElem hk] at hP
    simp only [Option.map_some, Option.getD_some, decide_eq_true_eq] at hP
    obtain ⟨⟨v, hv, hhead⟩, hno⟩ := hP
    have hvv := hus v hv
    have hin : g.getEdge k t ∈ incT g ins[p] v t := by
      unfold incT
      rw [getD_types ht]
      refine List.mem_map.mpr ⟨k, ?_, rfl⟩
      rw [Io.grouped_length] at hk
      obtain ⟨u, j, hu, hj, rfl⟩ := Io.offs_find _ _ _ hk
      have hjd : j < degOf false ins[p].types[t].pins ins[p].verts[u] := by
        rwa [List.getD_eq_getElem?_getD, List.getElem?_eq_getElem hu] at hj
      obtain ⟨hkl, w, -, hg, -⟩ := row_at hs hu (k := offT ins[p].verts ins[p].types[t].pins u + j) (by omega) (by omega)
      have hhead : [ins[p].verts[u], w].head? = some v := by rw [← hg]; exact hhead
      simp only [List.head?_cons, Option.some.injEq] at hhead
      subst hhead
      rw [hnd.idxOf_getElem u hu, List.mem_range'_1]
      omega
    refine ⟨⟨v, hv, hin⟩, ?_⟩
    obtain ⟨k', w, he, -, ⟨hk', hg⟩, -, hr'⟩ := incT_mem hd hp hr ht hvv hin
    have := getEdge_inj (by rw [hr.core.numTypes]; exact ht) he
    subst this
    unfold resOf
    rw [hr' q]
    simp only [decide_eq_false_iff_not]
    rintro ⟨x, hx, ex⟩
    apply hno
    rw [hg]
    exact ⟨x, hx, by exact_mod_cast ex⟩

theorem load_trad (hd : TradDist ins own T) (hnn : NonNegT ins own) {g : Graph} {p n : Nat} (hp : p < ins.length)
    {ghosts : List Gid} (hr : PartRep g p n ins[p] own ghosts) {dim : Int} (hdim : -1 ≤ dim ∧ dim < (T : Int))
    (hkept : dim ≠ -1 → WeightsKept ins dim.toNat) (q : Nat) {us : List Gid} (hus : ∀ v ∈ us, v ∈ ins[p].verts) :
    load (weightOf ins own) (incT g ins[p]) (resOf g) (ewOf g) dim q us = bringWeightT ins own dim q us := by
  unfold load bringWeightT
  by_cases h1 : dim = -1
  · rw [if_pos h1, if_pos h1]
  rw [if_neg h1, if_neg h1]
  obtain ⟨t, rfl⟩ : ∃ t : Nat, dim = (t : Int) := ⟨dim.toNat, by omega⟩
  rw [Int.toNat_natCast] at hkept ⊢
  have ht : t < ins[p].types.length := by rw [hd.uniform.types _ (List.getElem_mem hp)]; omega
  have hwf := (hd.dist.wf _ (List.getElem_mem hp)).edges _ (List.getElem_mem ht)
  rw [hd.uniform.hyper _ (List.getElem_mem hp)] at hwf
  have hs : ∀ x ∈ ins[p].types[t].pins, ∃ u ∈ ins[p].verts, ∃ w, u ≠ w ∧ x = [u, w] :=
    hd.sources _ (List.getElem_mem hp) _ (List.getElem_mem ht)
  have hnd := (hd.dist.wf _ (List.getElem_mem hp)).nodup
  have hkp := kept_zipQ hnd hwf hs (hkept h1 _ (List.getElem_mem hp) _ (List.getElem?_eq_getElem ht))
  have hgl := (Io.grouped_perm hnd hs).length_eq
  have hwl := weights_length hwf
  let P : List Gid → Bool := fun x => decide ((∃ v ∈ us, x.head? = some v) ∧ ¬ ∃ w ∈ x, own w = q)
  have e1 : ((brought (incT g ins[p]) (resOf g) t q us).map (ewOf g)).sum =
      ((ins[p].types[t].edges.filter (fun e => P e.pins)).map HEdge.w).sum := by
    rw [((brought_trad hd hp hr ht q hus).map (ewOf g)).sum_eq, List.map_map]
    have e2 : (((List.range (Io.grouped ins[p].verts ins[p].types[t].pins).length).filter (fun k =>
        (((Io.grouped ins[p].verts ins[p].types[t].pins)[k]?).map P).getD false)).map ((ewOf g) ∘ (fun k => g.getEdge k t))) =
        (((List.range (Io.grouped ins[p].verts ins[p].types[t].pins).length).filter (fun k =>
        (((Io.grouped ins[p].verts ins[p].types[t].pins)[k]?).map P).getD false)).map (fun k => ins[p].types[t].weights.getD k 0)) := by
      apply List.map_congr_left
      intro k hk
      have hk := List.mem_range.mp (List.mem_filter.mp hk).1
      have hkw : k < ins[p].types[t].weights.length := by omega
      simp only [Function.comp]
      rw [(ewOf_trad hd hnn hp hr ht hkw).2, List.getD_eq_getElem?_getD, List.getElem?_eq_getElem hkw]
      rfl
    rw [e2, sum_zip_filter P _ _ (by omega), ((hkp.filter (fun x => P x.1)).map Prod.snd).sum_eq]
    have e3 : ins[p].types[t].pins.zip ins[p].types[t].weights = ins[p].types[t].edges.map (fun e => (e.pins, e.w)) := by
      rw [← (edges_zip ht hwf (fun _ => 0)).2]
      conv_lhs => rw [← edges_pins hwf]
      rw [List.zip_map']
    rw [e3, List.filter_map, List.map_map]
    rfl
  rw [e1, arcsOf_split hp ht, List.filter_append, List.filter_append, List.map_append, List.map_append, List.sum_append,
    List.sum_append]
  have hz : ∀ L : List Input, (∀ i ∈ L, ∃ r, ∃ hr : r < ins.length, r ≠ p ∧ i = ins[r]) →
      (((arcsOf L t).filter (fun e => decide ((∃ v ∈ us, e.pins.head? = some v) ∧ ¬ ∃ w ∈ e.pins, own w = q))).map HEdge.w).sum = 0 := by
    intro L hL
    rw [List.filter_eq_nil_iff.mpr]
    · rfl
    · intro x hx
      obtain ⟨i, hi, hx⟩ := List.mem_flatMap.mp hx
      obtain ⟨r, hr', hne, rfl⟩ := hL i hi
      simp only [decide_eq_true_eq, not_and]
      rintro ⟨v, hv, hh⟩
      exfalso
      have htr : t < ins[r].types.length := by rw [hd.uniform.types _ (List.getElem_mem hr')]; omega
      have hx' := hx
      rw [List.getElem?_eq_getElem htr] at hx'
      obtain ⟨u, -, w, -, he⟩ := hd.sources _ (List.getElem_mem hr') _ (List.getElem_mem htr) _ (edge_pins_mem hx')
      rw [he] at hh
      simp only [List.head?_cons, Option.some.injEq] at hh
      subst hh
      exact foreign hd hp hr' hne hx (hus _ hv) he
  rw [hz (ins.take p) (by
      intro i hi
      obtain ⟨r, hr', rfl⟩ := List.mem_take_iff_getElem.mp hi
      exact ⟨r, by omega, by omega, rfl⟩),
    hz (ins.drop (p + 1)) (by
      intro i hi
      obtain ⟨r, hr', rfl⟩ := List.mem_drop_iff_getElem.mp hi
      exact ⟨p + 1 + r, by omega, by omega, rfl⟩), zero_add, add_zero]

theorem arcLoad_part (hd : TradDist ins own T) {p : Nat} (hp : p < ins.length) {t : Nat} (ht : t < ins[p].types.length) (htT : t < T) :
    arcLoad ins t own p = ins[p].types[t].weights.sum := by
  have hwf := (hd.dist.wf _ (List.getElem_mem hp)).edges _ (List.getElem_mem ht)
  have hsrc : ∀ r (hr : r < ins.length), ∀ x ∈ ((ins[r].types[t]?).map EdgeInput.edges).getD [], x.pins.head?.map own = some r := by
    intro r hr x hx
    have htr : t < ins[r].types.length := by rw [hd.uniform.types _ (List.getElem_mem hr)]; omega
    rw [List.getElem?_eq_getElem htr] at hx
    obtain ⟨u, hu, w, -, he⟩ := hd.sources _ (List.getElem_mem hr) _ (List.getElem_mem htr) _ (edge_pins_mem hx)
    rw [he]
    simp [hd.dist.verts r hr u hu]
  unfold arcLoad
  have hz : ∀ L : List Input, (∀ i ∈ L, ∃ r, ∃ hr : r < ins.length, r ≠ p ∧ i = ins[r]) →
      (((arcsOf L t).filter (fun e => decide (e.pins.head?.map own = some p))).map HEdge.w).sum = 0 := by
    intro L hL
    rw [List.filter_eq_nil_iff.mpr]
    · rfl
    · intro x hx
      obtain ⟨i, hi, hx⟩ := List.mem_flatMap.mp hx
      obtain ⟨r, hr', hne, rfl⟩ := hL i hi
      rw [hsrc r hr' x hx]
      simpa using hne
  rw [arcsOf_split hp ht, List.filter_append, List.filter_append, List.map_append, List.map_append, List.sum_append,
    List.sum_append, hz (ins.take p) (by
      intro i hi
      obtain ⟨r, hr', rfl⟩ := List.mem_take_iff_getElem.mp hi
      exact ⟨r, by omega, by omega, rfl⟩),
    hz (ins.drop (p + 1)) (by
      intro i hi
      obtain ⟨r, hr', rfl⟩ := List.mem_drop_iff_getElem.mp hi
      exact ⟨p + 1 + r, by omega, by omega, rfl⟩), zero_add, add_zero, ← (edges_zip ht hwf (fun _ => 0)).2,
    List.filter_eq_self.mpr]
  intro x hx
  rw [hsrc p hp x (by rw [List.getElem?_eq_getElem ht]; exact hx)]
  simp

theorem vertexLoad_bound (hd : Dist ins own) (hnn : ∀ v ∈ allVerts ins, 0 ≤ weightOf ins own v) {own' : Gid → Nat} {q : Nat}
    {M : Nat → List Gid}
    (hM : ∀ p (hp : p < ins.length), ∀ v ∈ M p, v ∈ ins[p].verts)
    (hcov : ∀ p (hp : p < ins.length), ∀ v ∈ ins[p].verts, own' v = q → own v ≠ q → v ∈ M p) :
    vertexLoad ins own own' q ≤ vertexLoad ins own own q +
      ((List.range ins.length).map (fun p => ((M p).map (weightOf ins own)).sum)).sum := by
  rw [vertexLoad_parts, vertexLoad_parts, ← sum_add_range]
  apply List.sum_le_sum
  intro p hp
  have hp := List.mem_range.mp hp
  rw [getD_ins hp]
  have hnd := (hd.wf _ (List.getElem_mem hp)).nodup
  have hwn : ∀ v ∈ ins[p].verts, 0 ≤ weightOf ins own v := fun v hv => hnn v (mem_allVerts.mpr ⟨p, hp, hv⟩)
  have hM0 : 0 ≤ ((M p).map (weightOf ins own)).sum := by
    apply List.sum_nonneg
    intro x hx
    obtain ⟨v, hv, rfl⟩ := List.mem_map.mp hx
    exact hwn v (hM p hp v hv)
  by_cases hpq : p = q
  · subst hpq
    have ha : (((ins[p].verts).filter (fun v => decide (own' v = p))).map (weightOf ins own)).sum ≤
        (((ins[p].verts).filter (fun v => decide (own v = p))).map (weightOf ins own)).sum := by
      apply sum_subset (hnd.filter _)
      · intro v hv
        have hv1 := (List.mem_filter.mp hv).1
        exact List.mem_filter.mpr ⟨hv1, by simp [hd.verts p hp v hv1]⟩
      · intro v hv; exact hwn v (List.mem_filter.mp hv).1
    linarith
  · have ha : (((ins[p].verts).filter (fun v => decide (own' v = q))).map (weightOf ins own)).sum ≤
        ((M p).map (weightOf ins own)).sum := by
      apply sum_subset (hnd.filter _)
      · intro v hv
        obtain ⟨hv1, hv2⟩ := List.mem_filter.mp hv
        exact hcov p hp v hv1 (by simpa using hv2) (by rw [hd.verts p hp v hv1]; exact hpq)
      · intro v hv; exact hwn v (hM p hp v hv)
    have hb : 0 ≤ (((ins[p].verts).filter (fun v => decide (own v = q))).map (weightOf ins own)).sum := by
      apply List.sum_nonneg
      intro x hx
      obtain ⟨v, hv, rfl⟩ := List.mem_map.mp hx
      exact hwn v (List.mem_filter.mp hv).1
    linarith

theorem filter_or_sum (P Q : HEdge → Bool) : ∀ es : List HEdge, (∀ e ∈ es, 0 ≤ e.w) →
    ((es.filter (fun e => P e || Q e)).map HEdge.w).sum ≤ ((es.filter P).map HEdge.w).sum + ((es.filter Q).map HEdge.w).sum := by
  intro es
  induction es with
  | nil => intro _; simp
  | cons e es ih =>
    intro h
    have ih := ih (fun x hx => h x (by simp [hx]))
    have he := h e (by simp)
    simp only [List.filter_cons]
    cases hP : P e <;> cases hQ : Q e <;> simp <;> linarith

theorem partWeightT_bound (hd : TradDist ins own T) (hnn : NonNegT ins own) {dim : Int}
    {own' : Gid → Nat} {q : Nat} {M : Nat → List Gid}
    (hM : ∀ p (hp : p < ins.length), ∀ v ∈ M p, v ∈ ins[p].verts)
    (hcov : ∀ p (hp : p < ins.length), ∀ v ∈ ins[p].verts, own' v = q → own v ≠ q → v ∈ M p) :
    partWeightT ins own own' dim q ≤ partWeightT ins own own dim q + innerWeight ins own own' dim q +
      ((List.range ins.length).map (fun p => bringWeightT ins own dim q (M p))).sum := by
  unfold partWeightT bringWeightT innerWeight
  by_cases h1 : dim = -1
  · simp only [if_pos h1]
    rw [add_zero]
    exact vertexLoad_bound hd.dist hnn.verts hM hcov
  · simp only [if_neg h1]
    unfold arcLoad
    have hw := hnn.edges dim.toNat
    refine le_trans (edge_bound (n := ins.length) (P := fun e => decide (e.pins.head?.map own' = some q))
      (Q := fun e => decide (e.pins.head?.map own = some q) || decide (e.pins.head?.map own' = some q ∧ e.pins.head?.map own ≠ some q ∧
        ∃ w ∈ e.pins, own w = q))
      (R := fun p e => decide ((∃ v ∈ M p, e.pins.head? = some v) ∧ ¬ ∃ w ∈ e.pins, own w = q)) hw ?_) ?_
    · intro e he hP
      simp only [decide_eq_true_eq, Bool.or_eq_true] at hP ⊢
      by_cases ho : e.pins.head?.map own = some q
      · exact .inl (.inl ho)
      by_cases hi : ∃ w ∈ e.pins, own w = q
      · exact .inl (.inr ⟨hP, ho, hi⟩)
      right
      obtain ⟨i, hi', hx⟩ := List.mem_flatMap.mp he
      obtain ⟨r, hr, rfl⟩ := List.mem_iff_getElem.mp hi'
      cases htr : ins[r].types[dim.toNat]? with
      | none => rw [htr] at hx; simp at hx
      | some et =>
        rw [htr] at hx
        obtain ⟨hlt, het⟩ := List.getElem?_eq_some_iff.mp htr
        obtain ⟨u, hu, w, -, hpe⟩ := hd.sources _ (List.getElem_mem hr) _ (List.getElem_mem hlt) _ (edge_pins_mem (by rw [het]; exact hx))
        have hP' : own' u = q := by rw [hpe] at hP; simpa using hP
        have ho' : own u ≠ q := by rw [hpe] at ho; simpa using ho
        exact ⟨r, hr, ⟨u, hcov r hr u hu hP' ho', by rw [hpe]; rfl⟩, hi⟩
    · have := filter_or_sum (fun e => decide (e.pins.head?.map own = some q))
        (fun e => decide (e.pins.head?.map own' = some q ∧ e.pins.head?.map own ≠ some q ∧ ∃ w ∈ e.pins, own w = q))
        (arcsOf ins dim.toNat) hw
      linarith

theorem getWeight_trad (hd : TradDist ins own T) (hnn : NonNegT ins own) {gs' : List Graph} (hw : World gs' ins own)
    (hgw : 1 < ins.length → ∀ p (h : p < gs'.length) (hi : p < ins.length), ∃ ghosts,
      PartRep gs'[p] p ins.length ins[p] own ghosts ∧ gs'[p].ghostWeights = some (Mem.ofList (ghosts.map (weightOf ins own))))
    {cg : Bool} (hcg : cg = true → 1 < ins.length) {p : Nat} (hp : p < gs'.length) {dim : Int}
    (hdim : -1 ≤ dim ∧ dim < (T : Int)) :
    ∃ w, getWeight gs'[p] dim cg = .ok w ∧ partWeightT ins own own dim p ≤ w ∧
      (dim ≠ -1 ∨ cg = false → w = partWeightT ins own own dim p) := by
  have hp' : p < ins.length := by rw [← hw.1]; exact hp
  obtain ⟨gh, hr⟩ := hw.2 p hp hp'
  have hwv := weightOf_verts hd.dist.verts (fun i hi => (hd.dist.wf i hi).nodup) hp'
  have hvl : vertexLoad ins own own p = (ins[p].verts.map (weightOf ins own)).sum := by
    rw [vertexLoad_parts]
    have : ∀ k, k < ins.length → ((((ins.getD k ⟨true, [], [], []⟩).verts.filter (fun v => decide (own v = p))).map (weightOf ins own)).sum =
        if k = p then (ins[p].verts.map (weightOf ins own)).sum else 0) := by
      intro k hk
      rw [getD_ins hk]
      split
      · rename_i hkp
        subst hkp
        rw [List.filter_eq_self.mpr]
        intro v hv; simp [hd.dist.verts k hk v hv]
      · rename_i hkp
        rw [List.filter_eq_nil_iff.mpr]
        · simp
        · intro v hv; simp [hd.dist.verts k hk v hv, hkp]
    rw [List.map_congr_left (fun k hk => this k (List.mem_range.mp hk))]
    rw [List.sum_map_ite_eq, List.count_eq_one_of_mem List.nodup_range (List.mem_range.mpr hp')]
    simp
  unfold partWeightT
  by_cases h1 : dim = -1
  · subst h1
    rw [if_pos rfl]
    cases cg with
    | false =>
      refine ⟨_, getWeight_verts hr.core.v hr.weights (vertWeights_length _ _), ?_, fun _ => ?_⟩
      · rw [hvl, hwv]
      · rw [hvl, hwv]
    | true =>
      obtain ⟨gh2, hr2, hg2⟩ := hgw (hcg rfl) p hp hp'
      refine ⟨_, getWeight_ghosts hr2.core.v hr2.weights (vertWeights_length _ _) hg2 (by simp), ?_, fun h => by simp at h⟩
      rw [hvl, hwv]
      have : 0 ≤ (gh2.map (weightOf ins own)).sum := by
        apply List.sum_nonneg
        intro x hx
        obtain ⟨v, hv, rfl⟩ := List.mem_map.mp hx
        have hv' := ((hr2.mem_ghosts v).mp hv).1
        obtain ⟨hq, hvq⟩ := hd.dist.pins p hp' v hv'
        exact hnn.verts v (mem_allVerts.mpr ⟨_, hq, hvq⟩)
      linarith
  · rw [if_neg h1]
    obtain ⟨t, rfl⟩ : ∃ t : Nat, dim = (t : Int) := ⟨dim.toNat, by omega⟩
    rw [Int.toNat_natCast]
    have htt : t < ins[p].types.length := by rw [hd.uniform.types _ (List.getElem_mem hp')]; omega
    have hwf := (hd.dist.wf _ (List.getElem_mem hp')).edges _ (List.getElem_mem htt)
    have he := arcLoad_part hd hp' htt (by omega)
    refine ⟨_, getWeight_edges hr.core htt (weights_length hwf) cg, ?_, fun _ => he.symm⟩
    rw [he]

end

end Verif.Part
