import Verif.Part.TrimWorld
import Verif.Part.TrimSpec
import Verif.Part.MetricsProps
/-!
# A part of a distributed hypergraph in the negotiation
-/
namespace Verif.Part
open Verif.Agi

/-! ## a part of a distributed hypergraph -/

theorem getEdge_inj {g : Graph} {t a b : Nat} (ht : t < g.numTypes) (h : g.getEdge a t = g.getEdge b t) : a = b := by
  unfold Graph.getEdge at h
  have : g.numTypes * a = g.numTypes * b := by omega
  exact Nat.eq_of_mul_eq_mul_left (by omega) this

/-- the edges of `v` of type `t` as handles -/
def incOf (g : Graph) (i : Input) (ghosts : List Gid) (v : Gid) (t : Nat) : List Handle :=
  (adjOf true (i.verts ++ ghosts) (i.types.getD t ⟨[], [], []⟩).pins v).map (fun l => g.getEdge l t)

def resOf (g : Graph) (e : Handle) (d : Part) : Bool :=
  match g.isResidentOn e d with
  | .ok b => b
  | _ => false

def ewOf (g : Graph) (e : Handle) : Rat :=
  match g.weightE e with
  | .ok w => if 0 ≤ w then w else 0
  | _ => 0

theorem ewOf_nonneg (g : Graph) (e : Handle) : 0 ≤ ewOf g e := by
  unfold ewOf
  split
  · split
    · assumption
    · exact le_refl _
  · exact le_refl _


section
variable {H : List (List HEdge)} {ins : List Input} {own : Gid → Nat}

theorem ownerOf_eq (hd : HDist H ins own) {g : Graph} {p n : Nat} (hp : p < ins.length) {ghosts : List Gid}
    (hr : PartRep g p n ins[p] own ghosts) :
    ownerOf g.self ins[p].verts (fun v => (own v : Int)) = fun v => (own v : Int) := by
  funext v
  unfold ownerOf
  split
  · rename_i hv
    rw [hr.rank, hd.verts p hp v hv]
  · rfl

theorem getD_types {i : Input} {t : Nat} (h : t < i.types.length) (d : EdgeInput) : i.types.getD t d = i.types[t] := by
  rw [List.getD_eq_getElem?_getD, List.getElem?_eq_getElem h]; rfl

theorem resOf_eq (hd : HDist H ins own) {g : Graph} {p n : Nat} (hp : p < ins.length) {ghosts : List Gid}
    (hr : PartRep g p n ins[p] own ghosts) {t : Nat} (ht : t < ins[p].types.length) {k : Nat}
    (hk : k < ins[p].types[t].pins.length) (d : Part) :
    g.isResidentOn (g.getEdge k t) d = .ok (decide (∃ v ∈ ins[p].types[t].pins[k], (own v : Int) = d)) := by
  have hc := hr.core
  rw [hd.hyper _ (List.getElem_mem hp)] at hc
  have := (residenceIs_hyper hc hr.owners ht hk).2.1 d
  rwa [ownerOf_eq hd hp hr] at this

theorem weight_nonneg (hd : HDist H ins own) (hnn : NonNeg H ins own) {p : Nat} (hp : p < ins.length) {t : Nat}
    (ht : t < ins[p].types.length) : ∀ e ∈ ins[p].types[t].edges, 0 ≤ e.w := by
  intro e he
  have ht' : t < H.length := by rw [← hd.types p hp]; exact ht
  exact hnn.edges _ (List.getElem_mem ht') e (List.mem_filter.mp ((hd.edges p hp t ht ht').mem_iff.mp he)).1

theorem edges_get {i : Input} {hyper : Bool} {t : Nat} (ht : t < i.types.length) (hwf : (i.types[t]).WF hyper)
    {k : Nat} (hk : k < i.types[t].pins.length) :
    ∃ (h : k < i.types[t].edges.length) (h' : k < i.types[t].weights.length),
      i.types[t].edges[k].pins = i.types[t].pins[k] ∧ i.types[t].edges[k].w = i.types[t].weights[k] := by
  have h1 := hwf.ids_len
  have h2 := weights_length hwf
  exact ⟨by simp [EdgeInput.edges]; omega, by omega, by simp [EdgeInput.edges], by simp [EdgeInput.edges]⟩

theorem ewOf_eq (hd : HDist H ins own) (hnn : NonNeg H ins own) {g : Graph} {p n : Nat} (hp : p < ins.length)
    {ghosts : List Gid} (hr : PartRep g p n ins[p] own ghosts) {t : Nat} (ht : t < ins[p].types.length) {k : Nat}
    (hk : k < ins[p].types[t].pins.length) (hk' : k < ins[p].types[t].edges.length) :
    g.weightE (g.getEdge k t) = .ok (ewOf g (g.getEdge k t)) ∧
      ewOf g (g.getEdge k t) = (ins[p].types[t].edges[k]).w := by
  have hwf := (hd.wf _ (List.getElem_mem hp)).edges _ (List.getElem_mem ht)
  obtain ⟨h1, h2, -, h4⟩ := edges_get ht hwf hk
  have h5 := weightE_eq hr.core ht h2
  have h6 := weight_nonneg hd hnn hp ht _ (List.getElem_mem h1)
  rw [← h4] at h5
  unfold ewOf
  rw [h5]
  simp only
  rw [if_pos h6]
  exact ⟨rfl, rfl⟩

theorem facts_part (hd : HDist H ins own) (hnn : NonNeg H ins own) {g : Graph} {p n : Nat} (hp : p < ins.length)
    {ghosts : List Gid} (hr : PartRep g p n ins[p] own ghosts) {dims : List Int}
    (hdims : ∀ d ∈ dims, -1 ≤ d ∧ d < (H.length : Int)) :
    Facts g ins[p].verts (fun v => getVertex (ins[p].verts.idxOf v)) dims (weightOf ins own)
      (incOf g ins[p] ghosts) (resOf g) (ewOf g) := by
  have hc := hr.core
  rw [hd.hyper _ (List.getElem_mem hp)] at hc
  have htl : ∀ t : Nat, (t : Int) ∈ dims → t < ins[p].types.length := by
    intro t ht
    have := (hdims _ ht).2
    rw [hd.types p hp]; omega
  refine ⟨?_, ?_, ?_, fun d h => (hdims d h).1⟩
  · intro v hv
    have hu := List.idxOf_lt_length_of_mem hv
    have hw := weightOf_verts hd.verts (fun i hi => (hd.wf i hi).nodup) hp
    rw [weight_local hc.v hr.weights hu (by rw [vertWeights_length]; exact hu)]
    simp only [hw, List.getElem_map, List.getElem_idxOf]
  · intro v hv t ht
    have htt := htl t ht
    have hu := List.idxOf_lt_length_of_mem hv
    have hy := yields_edges_hyper hc htt hu
    rw [List.getElem_idxOf] at hy
    unfold incOf
    rw [getD_types htt]
    refine ⟨hy, ?_⟩
    rw [List.length_map, adjOf_length]
    obtain ⟨e, he, hrr, -⟩ := hc.typ t htt
    have hb := bound_ge he
    have h1 : degOf true ins[p].types[t].pins v ≤ ins[p].types[t].pins.flatten.length := by
      unfold degOf; rw [if_pos rfl]; exact List.count_le_length
    have := hrr.numP
    omega
  · intro v hv t ht e he
    have htt := htl t ht
    unfold incOf at he
    rw [getD_types htt] at he
    obtain ⟨k, hk, rfl⟩ := List.mem_map.mp he
    obtain ⟨hk, -⟩ := mem_adjOf_hyper.mp hk
    have hwf := (hd.wf _ (List.getElem_mem hp)).edges _ (List.getElem_mem htt)
    obtain ⟨h1, -⟩ := edges_get htt hwf hk
    refine ⟨?_, (ewOf_eq hd hnn hp hr htt hk h1).1⟩
    intro d
    have := resOf_eq hd hp hr htt hk d
    unfold resOf
    rw [this]

/-- the load of a part, in terms of the hypergraph -/
theorem load_part (hd : HDist H ins own) (hnn : NonNeg H ins own) {g : Graph} {p n : Nat} (hp : p < ins.length)
    {ghosts : List Gid} (hr : PartRep g p n ins[p] own ghosts) {dim : Int}
    (hdim : -1 ≤ dim ∧ dim < (H.length : Int)) (q : Nat) {us : List Gid} (hus : ∀ v ∈ us, v ∈ ins[p].verts) :
    load (weightOf ins own) (incOf g ins[p] ghosts) (resOf g) (ewOf g) dim q us = bringWeight H ins own dim q us := by
  unfold load bringWeight
  by_cases hd1 : dim = -1
  · rw [if_pos hd1, if_pos hd1]
  rw [if_neg hd1, if_neg hd1]
  obtain ⟨t, rfl⟩ : ∃ t : Nat, dim = (t : Int) := ⟨dim.toNat, by omega⟩
  rw [Int.toNat_natCast]
  have ht : t < H.length := by omega
  have htt : t < ins[p].types.length := by rw [hd.types p hp]; exact ht
  have hwf := (hd.wf _ (List.getElem_mem hp)).edges _ (List.getElem_mem htt)
  have hHt : H.getD t [] = H[t] := by rw [List.getD_eq_getElem?_getD, List.getElem?_eq_getElem ht]; rfl
  rw [hHt]
  have hc := hr.core
  rw [hd.hyper _ (List.getElem_mem hp)] at hc
  have htn : t < g.numTypes := by rw [hc.numTypes]; exact htt
  set es := ins[p].types[t].edges with hes
  have hel : es.length = ins[p].types[t].pins.length := by
    rw [hes]; simp [EdgeInput.edges]; have := hwf.ids_len; have := weights_length hwf; omega
  let C : HEdge → Prop := fun e => (∃ v ∈ us, v ∈ e.pins) ∧ ¬ Touches own (q : Int) e
  have hperm : (brought (incOf g ins[p] ghosts) (resOf g) t q us).Perm
      (((List.range es.length).filter (fun k => decide (C (es.getD k ⟨0, [], 0⟩)))).map (fun k => g.getEdge k t)) := by
    rw [List.perm_ext_iff_of_nodup (nodup_brought _ _ _ _ _)]
    · intro h
      rw [mem_brought, List.mem_map]
      constructor
      · rintro ⟨⟨v, hv, hh⟩, hres⟩
        unfold incOf at hh
        rw [getD_types htt] at hh
        obtain ⟨k, hk, rfl⟩ := List.mem_map.mp hh
        obtain ⟨hk, hvk⟩ := mem_adjOf_hyper.mp hk
        obtain ⟨h1, h2, h3, h4⟩ := edges_get htt hwf hk
        refine ⟨k, List.mem_filter.mpr ⟨List.mem_range.mpr h1, ?_⟩, rfl⟩
        rw [List.getD_eq_getElem?_getD, List.getElem?_eq_getElem h1, Option.getD_some, decide_eq_true_iff]
        refine ⟨⟨v, hv, by rw [h3]; exact hvk⟩, ?_⟩
        rintro ⟨u, hu, eu⟩
        unfold resOf at hres
        rw [resOf_eq hd hp hr htt hk] at hres
        simp only [decide_eq_false_iff_not] at hres
        exact hres ⟨u, by rw [← h3]; exact hu, eu⟩
      · rintro ⟨k, hk, rfl⟩
        obtain ⟨h1, h2⟩ := List.mem_filter.mp hk
        have h1 := List.mem_range.mp h1
        rw [List.getD_eq_getElem?_getD, List.getElem?_eq_getElem h1, Option.getD_some, decide_eq_true_iff] at h2
        have hk' : k < ins[p].types[t].pins.length := by omega
        obtain ⟨_, _, h3, h4⟩ := edges_get htt hwf hk'
        obtain ⟨⟨v, hv, hvk⟩, hn⟩ := h2
        constructor
        · refine ⟨v, hv, ?_⟩
          unfold incOf
          rw [getD_types htt]
          exact List.mem_map.mpr ⟨k, mem_adjOf_hyper.mpr ⟨hk', by rw [← h3]; exact hvk⟩, rfl⟩
        · unfold resOf
          rw [resOf_eq hd hp hr htt hk']
          simp only [decide_eq_false_iff_not]
          rintro ⟨u, hu, eu⟩
          exact hn ⟨u, by rw [h3]; exact hu, eu⟩
    · apply List.Nodup.map_on
      · intro a _ b _ hab
        exact getEdge_inj htn hab
      · exact List.nodup_range.filter _
  rw [(hperm.map _).sum_eq, List.map_map]
  have h1 : ((List.range es.length).filter (fun k => decide (C (es.getD k ⟨0, [], 0⟩)))).map (ewOf g ∘ fun k => g.getEdge k t) =
      (es.filter (fun e => decide (C e))).map HEdge.w := by
    have h2 : es = (List.range es.length).map (fun k => es.getD k ⟨0, [], 0⟩) := list_range es _
    conv_rhs => rw [h2, List.filter_map, List.map_map]
    apply List.map_congr_left
    intro k hk
    have hk1 := List.mem_range.mp (List.mem_filter.mp hk).1
    simp only [Function.comp]
    rw [(ewOf_eq hd hnn hp hr htt (by omega) hk1).2, List.getD_eq_getElem?_getD, List.getElem?_eq_getElem hk1]
    rfl
  rw [h1, ((((hd.edges p hp t htt ht)).filter (fun e => decide (C e))).map HEdge.w).sum_eq, List.filter_filter]
  congr 2
  apply List.filter_congr
  intro e _
  rw [Bool.eq_iff_iff]
  simp only [Bool.and_eq_true, decide_eq_true_iff, C]
  constructor
  · exact fun h => h.1
  · intro h
    refine ⟨h, ?_⟩
    obtain ⟨⟨v, hv, hvk⟩, -⟩ := h
    exact ⟨v, hvk, hd.verts p hp v (hus v hv)⟩

end
end Verif.Part
