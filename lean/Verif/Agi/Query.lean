import Verif.Agi.IterLemmas
/-!
# Queries on a constructed graph
-/
namespace Verif.Agi
variable {g : Graph} {hyper : Bool} {verts ghosts : List Gid} {types : List EdgeInput}

theorem vidx_getVertex (l : Nat) : vidx (getVertex l) = .ok l := by
  simp [vidx, getVertex, fromPtr]

theorem findGID_eq (h : VRep g verts ghosts) {v : Gid} (hv : v ∈ verts ++ ghosts) :
    g.findGID v = .ok (getVertex ((verts ++ ghosts).idxOf v)) := by
  unfold Graph.findGID
  rw [h.map, lookup_of_mem hv]; rfl

theorem findGID_local (h : VRep g verts ghosts) {u : Nat} (hu : u < verts.length) :
    g.findGID verts[u] = .ok (getVertex u) := by
  rw [findGID_eq h (by simp)]
  rw [(idxOf_eq_iff h.nodup (by simp) hu).mpr rfl]

theorem globalID_idx (h : VRep g verts ghosts) {l : Nat} (hl : l < (verts ++ ghosts).length) :
    g.globalID (getVertex l) = .ok (verts ++ ghosts)[l] := by
  unfold Graph.globalID
  rw [vidx_getVertex, Outcome.bind_ok, h.nl]
  by_cases hlt : l < verts.length
  · rw [if_neg (by omega), h.loc, Mem.load_ofList hlt, List.getElem_append_left hlt]
  · rw [if_pos (by omega)]
    simp only [List.length_append] at hl
    rcases h.gho with ⟨h1, -⟩ | h1
    · rw [h1] at hl; simp at hl; omega
    · rw [h1]
      simp only [deref, Outcome.ofOption_some, Outcome.bind_ok]
      rw [Mem.load_ofList (by omega), List.getElem_append_right (by omega)]

theorem globalID_eq (h : VRep g verts ghosts) {v : Gid} (hv : v ∈ verts ++ ghosts) :
    g.globalID (getVertex ((verts ++ ghosts).idxOf v)) = .ok v := by
  rw [globalID_idx h (List.idxOf_lt_length_of_mem hv), List.getElem_idxOf]

theorem weightE_eq (h : CRep g hyper verts ghosts types) {t : Nat} (ht : t < types.length) {k : Nat}
    (hk : k < types[t].weights.length) : g.weightE (g.getEdge k t) = .ok types[t].weights[k] := by
  obtain ⟨e, he, hr, hw⟩ := h.typ t ht
  unfold Graph.weightE
  rw [decode_getEdge (by rw [h.numTypes]; exact ht), Outcome.bind_ok]
  simp only
  rw [Graph.slot_ok he, Outcome.bind_ok, hw, Mem.load_ofList hk]

theorem weights_length {e : EdgeInput} (h : e.WF hyper) : e.weights.length = e.pins.length := by
  unfold EdgeInput.weights
  split
  · simp [h.ids_len]
  · rename_i hz
    rcases h.wgts_len with h1 | h1
    · exact absurd h1 hz
    · rw [h1, h.ids_len]

theorem globalIDE_hyper (h : CRep g true verts ghosts types) {t : Nat} (ht : t < types.length) {k : Nat}
    (hk : k < types[t].ids.length) : g.globalIDE (g.getEdge k t) = .ok types[t].ids[k] := by
  obtain ⟨e, he, hr, hw⟩ := h.typ t ht
  unfold Graph.globalIDE
  rw [decode_getEdge (by rw [h.numTypes]; exact ht), Outcome.bind_ok]
  simp only
  rw [if_neg (by rw [h.hyp]; simp), Graph.slot_ok he, Outcome.bind_ok, hr.unmap, Mem.load_ofList hk]

/-- the far end of the `k`-th edge of local vertex `u` -/
theorem vOf_eq (h : CRep g false verts ghosts types) {t : Nat} (ht : t < types.length) {u : Nat}
    (hu : u < verts.length) {k : Nat}
    (hk : k < (adjOf false (verts ++ ghosts) types[t].pins verts[u]).length) :
    g.vOf (g.getEdge (offs (fun u => degOf false types[t].pins (verts.getD u 0)) u + k) t) =
      .ok (getVertex (adjOf false (verts ++ ghosts) types[t].pins verts[u])[k]) := by
  obtain ⟨e, he, hr, -⟩ := h.typ t ht
  unfold Graph.vOf
  rw [if_neg (by rw [h.hyp]; simp), if_neg (getEdge_pos _ _ _),
    decode_getEdge (by rw [h.numTypes]; exact ht), Outcome.bind_ok]
  simp only
  rw [Graph.slot_ok he, Outcome.bind_ok, Mem.load_ok (hr.adj u hu k hk)]
  rfl

theorem numEdges_eq (h : CRep g hyper verts ghosts types) {t : Nat} (ht : t < types.length) :
    g.numLocalEdges t = .ok types[t].pins.length := by
  obtain ⟨e, he, hr, -⟩ := h.typ t ht
  unfold Graph.numLocalEdges
  rw [Graph.slot_ok he, Outcome.bind_ok, hr.numE]; rfl

theorem numPins_eq (h : CRep g hyper verts ghosts types) {t : Nat} (ht : t < types.length) :
    g.numLocalPins t = .ok types[t].pins.flatten.length := by
  obtain ⟨e, he, hr, -⟩ := h.typ t ht
  unfold Graph.numLocalPins
  rw [Graph.slot_ok he, Outcome.bind_ok, hr.numP]; rfl

/-! ## pins of a traditional edge -/

theorem pins_trad (h : CRep g false verts ghosts types) {t : Nat} (ht : t < types.length) {u : Nat}
    (hu : u < verts.length) {k : Nat}
    (hk : k < (adjOf false (verts ++ ghosts) types[t].pins verts[u]).length) :
    g.pins (g.getEdge (offs (fun u => degOf false types[t].pins (verts.getD u 0)) u + k) t) =
      .ok ⟨t, getVertex u, getVertex (adjOf false (verts ++ ghosts) types[t].pins verts[u])[k]⟩ := by
  obtain ⟨e, he, hr, -⟩ := h.typ t ht
  have hk' : k < degOf false types[t].pins verts[u] := by rwa [adjOf_length] at hk
  unfold Graph.pins
  rw [decode_getEdge (by rw [h.numTypes]; exact ht), Outcome.bind_ok]
  simp only
  rw [Graph.slot_ok he, Outcome.bind_ok, if_pos h.hyp, uEdge_eq h ht hu hk', Outcome.bind_ok,
    Mem.load_ok (hr.adj u hu k hk)]
  rfl

/-- a traditional pin iterator yields source and destination, or the vertex once for a self-loop -/
theorem yields_pinIt_trad (hh : g.isHyper = false) (t : Nat) {a b : Nat} (ha : a ≠ 0) (hb : b ≠ 0) :
    Yields g.iterPin ⟨t, a, b⟩ (if a = b then [a] else [a, b]) := by
  split
  · rename_i heq
    subst heq
    refine ⟨ha, ⟨t, 0, 0⟩, ?_, ⟨t, 0, 0⟩, ?_⟩
    · simp [Graph.iterPin, hh]
    · simp [Graph.iterPin, hh]
  · rename_i hne
    refine ⟨ha, ⟨t, b, b⟩, ?_, hb, ⟨t, 0, 0⟩, ?_, ⟨t, 0, 0⟩, ?_⟩
    · simp [Graph.iterPin, hh, hne]
    · simp [Graph.iterPin, hh]
    · simp [Graph.iterPin, hh]

end Verif.Agi
