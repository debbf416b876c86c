import Verif.Part.SelectInv
import Verif.Part.TrimPart
import Verif.Part.QueueProps
/-!
# The selection on a part of a distributed hypergraph
-/
namespace Verif.Part
open Verif.Agi

/-- the pins of the edge of type 0 with this handle -/
def pinsOfE (g : Graph) (es : List (List Gid)) (h : Handle) : List Gid := es.getD ((h - 1) / g.numTypes) []

theorem pinsOfE_getEdge {g : Graph} {es : List (List Gid)} (hn : 0 < g.numTypes) {k : Nat} (hk : k < es.length) :
    pinsOfE g es (g.getEdge k 0) = es[k] := by
  unfold pinsOfE Graph.getEdge
  have : (g.numTypes * k + 0 + 1 - 1) / g.numTypes = k := by
    rw [Nat.add_zero, Nat.add_sub_cancel, Nat.mul_div_cancel_left _ hn]
  rw [this, List.getD_eq_getElem?_getD, List.getElem?_eq_getElem hk]
  rfl

theorem Facts.congr {g : Graph} {vs : List Gid} {hnd hnd' : Gid → Handle} {dims : List Int} {wt : Gid → Rat}
    {inc : Gid → Nat → List Handle} {res : Handle → Part → Bool} {ew : Handle → Rat}
    (h : Facts g vs hnd dims wt inc res ew) (hh : ∀ v ∈ vs, hnd' v = hnd v) : Facts g vs hnd' dims wt inc res ew := by
  refine ⟨?_, ?_, h.edge, h.isdim⟩
  · intro v hv; rw [hh v hv]; exact h.vweight v hv
  · intro v hv; rw [hh v hv]; exact h.edges v hv

section
variable {H : List (List HEdge)} {ins : List Input} {own : Gid → Nat}

theorem selFacts_part (hd : HDist H ins own) {g : Graph} {p n : Nat} (hp : p < ins.length)
    {ghosts : List Gid} (hr : PartRep g p n ins[p] own ghosts) (ht : 0 < ins[p].types.length) :
    SelFacts g ins[p].verts (ins[p].verts ++ ghosts) (fun v => getVertex ((ins[p].verts ++ ghosts).idxOf v))
      ((List.range ins[p].types[0].pins.length).map (fun k => g.getEdge k 0)) (pinsOfE g ins[p].types[0].pins)
      (fun v => (own v : Int)) (incOf g ins[p] ghosts) := by
  have hc := hr.core
  rw [hd.hyper _ (List.getElem_mem hp)] at hc
  have hn : 0 < g.numTypes := by rw [hc.numTypes]; exact ht
  obtain ⟨et, het, hrt, -⟩ := hc.typ 0 ht
  have hb := bound_ge het
  have hnP := hrt.numP
  refine ⟨hc.v.nl, (hd.wf _ (List.getElem_mem hp)).nodup, ?_, ?_, ?_, ?_, ?_⟩
  · intro v hv
    simp only [List.idxOf_append_of_mem hv]
  · intro e he
    obtain ⟨k, hk, rfl⟩ := List.mem_map.mp he
    rw [List.mem_range] at hk
    rw [pinsOfE_getEdge hn hk]
    refine ⟨yields_pins_hyper hc ht hk, ?_, ?_⟩
    · have h1 : (ins[p].types[0].pins[k]).length ≤ ins[p].types[0].pins.flatten.length := by
        rw [List.length_flatten]
        exact List.single_le_sum (by simp) _ (List.mem_map.mpr ⟨_, List.getElem_mem hk, rfl⟩)
      omega
    · intro v hv
      exact hc.pins 0 ht v (List.mem_flatten.mpr ⟨_, List.getElem_mem hk, hv⟩)
  · intro v hv
    have := owner_eq hc.v hr.owners hv
    rw [ownerOf_eq hd hp hr] at this
    exact this
  · intro v hv
    rw [hr.rank]
    constructor
    · intro h
      have h' : own v = p := by simpa using h
      rcases List.mem_append.mp hv with hv | hv
      · exact hv
      · exfalso
        obtain ⟨h1, h2⟩ := (hr.mem_ghosts v).mp hv
        unfold Input.allPins at h1
        rw [← List.flatMap_def, List.mem_flatMap] at h1
        obtain ⟨e, he, hve⟩ := h1
        obtain ⟨t, htl, rfl⟩ := List.mem_iff_getElem.mp he
        obtain ⟨ps, hps, hvp⟩ := List.mem_flatten.mp hve
        obtain ⟨k, hk, rfl⟩ := List.mem_iff_getElem.mp hps
        have hwf := (hd.wf _ (List.getElem_mem hp)).edges _ (List.getElem_mem htl)
        obtain ⟨q1, q2, q3, q4⟩ := edges_get htl hwf hk
        have ht' : t < H.length := by rw [← hd.types p hp]; exact htl
        have hm := (List.mem_filter.mp ((hd.edges p hp t htl ht').mem_iff.mp (List.getElem_mem q1))).1
        obtain ⟨hlt, hvv⟩ := hd.pins _ (List.getElem_mem ht') _ hm v (by rw [q3]; exact hvp)
        simp only [h'] at hvv
        exact h2 hvv
    · intro h
      rw [hd.verts p hp v h]
  · intro v hv
    have hu := List.idxOf_lt_length_of_mem hv
    have hy := yields_edges_hyper hc ht hu
    rw [List.getElem_idxOf] at hy
    simp only [List.idxOf_append_of_mem hv]
    unfold incOf
    rw [getD_types ht]
    refine ⟨hy, ?_, ?_⟩
    · rw [List.length_map, adjOf_length]
      have h1 : degOf true ins[p].types[0].pins v ≤ ins[p].types[0].pins.flatten.length := by
        unfold degOf; rw [if_pos rfl]; exact List.count_le_length
      omega
    · intro e he
      obtain ⟨k, hk, rfl⟩ := List.mem_map.mp he
      obtain ⟨hk, -⟩ := mem_adjOf_hyper.mp hk
      exact List.mem_map.mpr ⟨k, List.mem_range.mpr hk, rfl⟩

/-- the boundary edges of part `p`, as handles -/
def boundaryOf (g : Graph) (es : List (List Gid)) (own : Gid → Nat) : List Handle :=
  boundaryEdges (fun k => g.getEdge k 0) g.self (fun v => (own v : Int)) es

theorem queue_part (hd : HDist H ins own) {g : Graph} {p n : Nat} (hp : p < ins.length)
    {ghosts : List Gid} (hr : PartRep g p n ins[p] own ghosts) (ht : 0 < ins[p].types.length) :
    ∃ q, iterationQueue g = .ok q ∧ QRep q (boundaryOf g ins[p].types[0].pins own).length []
      (boundaryOf g ins[p].types[0].pins own) := by
  have hc := hr.core
  rw [hd.hyper _ (List.getElem_mem hp)] at hc
  obtain ⟨P, h1, h2⟩ := boundary_filter (g := g) (t := 0) (es := ins[p].types[0].pins)
    (own := ownerOf g.self ins[p].verts (fun v => (own v : Int)))
    (fun k hk => onBoundary_hyper hc hr.owners ht hk) (by rw [hc.numTypes]; exact ht)
  have hy := yields_edgeBegin hc ht
  obtain ⟨et, he, hrt, -⟩ := hc.typ 0 ht
  have hb := bound_ge he
  obtain ⟨q, e3, hq⟩ := iterationQueue_eq hy (by have := hrt.numE; simp; omega) h1
  rw [h2, ownerOf_eq hd hp hr] at hq
  exact ⟨q, e3, hq⟩

/-- an edge of the queue is a hyperedge of type 0 that touches the part and another one -/
theorem mem_boundaryOf (hd : HDist H ins own) {g : Graph} {p n : Nat} (hp : p < ins.length)
    {ghosts : List Gid} (hr : PartRep g p n ins[p] own ghosts) (ht : 0 < ins[p].types.length) (hH : 0 < H.length)
    {h : Handle} (hh : h ∈ boundaryOf g ins[p].types[0].pins own) :
    h ∈ (List.range ins[p].types[0].pins.length).map (fun k => g.getEdge k 0) ∧
    ∃ e ∈ H[0], pinsOfE g ins[p].types[0].pins h = e.pins ∧ (∃ v ∈ e.pins, own v = p) ∧ ∃ v ∈ e.pins, own v ≠ p := by
  unfold boundaryOf boundaryEdges at hh
  obtain ⟨k, hk, rfl⟩ := List.mem_map.mp hh
  obtain ⟨hk, hx⟩ := List.mem_filter.mp hk
  have hk := List.mem_range.mp hk
  refine ⟨List.mem_map.mpr ⟨k, List.mem_range.mpr hk, rfl⟩, ?_⟩
  have hn : 0 < g.numTypes := by rw [hr.core.numTypes]; exact ht
  have hwf := (hd.wf _ (List.getElem_mem hp)).edges _ (List.getElem_mem ht)
  obtain ⟨q1, q2, q3, q4⟩ := edges_get ht hwf hk
  have hm := List.mem_filter.mp ((hd.edges p hp 0 ht hH).mem_iff.mp (List.getElem_mem q1))
  refine ⟨_, hm.1, ?_, by simpa using hm.2, ?_⟩
  · rw [pinsOfE_getEdge hn hk, q3]
  · rw [List.getD_eq_getElem?_getD, List.getElem?_eq_getElem hk, Option.getD_some, decide_eq_true_iff, hr.rank] at hx
    obtain ⟨v, hv, hne⟩ := hx
    exact ⟨v, by rw [q3]; exact hv, fun h => hne (by simp [h])⟩

/-- and conversely -/
theorem boundaryOf_mem (hd : HDist H ins own) {g : Graph} {p n : Nat} (hp : p < ins.length)
    {ghosts : List Gid} (hr : PartRep g p n ins[p] own ghosts) (ht : 0 < ins[p].types.length) (hH : 0 < H.length)
    {e : HEdge} (he : e ∈ H[0]) (h1 : ∃ v ∈ e.pins, own v = p) (h2 : ∃ v ∈ e.pins, own v ≠ p) :
    ∃ h ∈ boundaryOf g ins[p].types[0].pins own, pinsOfE g ins[p].types[0].pins h = e.pins := by
  have hn : 0 < g.numTypes := by rw [hr.core.numTypes]; exact ht
  have hwf := (hd.wf _ (List.getElem_mem hp)).edges _ (List.getElem_mem ht)
  have hm := (hd.edges p hp 0 ht hH).mem_iff.mpr (List.mem_filter.mpr ⟨he, by simpa using h1⟩)
  obtain ⟨k, hk, hke⟩ := List.mem_iff_getElem.mp hm
  have hk' : k < ins[p].types[0].pins.length := by
    have : ins[p].types[0].edges.length ≤ ins[p].types[0].pins.length := by
      simp [EdgeInput.edges]
    omega
  obtain ⟨q1, q2, q3, q4⟩ := edges_get ht hwf hk'
  refine ⟨g.getEdge k 0, ?_, ?_⟩
  · unfold boundaryOf boundaryEdges
    refine List.mem_map.mpr ⟨k, List.mem_filter.mpr ⟨List.mem_range.mpr hk', ?_⟩, rfl⟩
    rw [List.getD_eq_getElem?_getD, List.getElem?_eq_getElem hk', Option.getD_some, decide_eq_true_iff, hr.rank]
    obtain ⟨v, hv, hne⟩ := h2
    exact ⟨v, by rw [← q3, hke]; exact hv, by simpa using hne⟩
  · rw [pinsOfE_getEdge hn hk', ← q3, hke]

end
end Verif.Part
