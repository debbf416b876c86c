import Verif.Agi.GraphModel
/-!
# C14 for the tags of whole values, with which the other models work (the tags of pictures, C61, C87; the ghost weights)
-/
namespace Verif.Agi

/-- **C14, values of edges.**  Setting the value of an existing edge of a type in a tag with a place for each of its edges succeeds; reading it gives the value,
reading any other edge of the type what it gave before; the tag has as many places. -/
theorem c14_edge_value {α : Type} (g : Graph) {t n : Nat} (ht : t < g.numTypes) (d : Mem α) (hd : d.length = n) {l : Nat} (hl : l < n) (a : α) :
    ∃ d', g.setEdgeTag d (g.getEdge l t) a = .ok d' ∧ d'.length = n ∧ g.getEdgeTag d' (g.getEdge l t) = .ok a ∧
      ∀ m, m ≠ l → g.getEdgeTag d' (g.getEdge m t) = g.getEdgeTag d (g.getEdge m t) := by
  have hdec : ∀ l, g.decodeEdge (g.getEdge l t) = .ok (t, l) := by
    intro l
    unfold Graph.decodeEdge Graph.getEdge
    rw [if_neg (by omega)]
    have h1 : (g.numTypes * l + t + 1 - 1) % g.numTypes = t := by
      rw [Nat.add_sub_cancel, Nat.mul_add_mod, Nat.mod_eq_of_lt ht]
    have h2 : (g.numTypes * l + t + 1 - 1) / g.numTypes = l := by
      rw [Nat.add_sub_cancel, Nat.mul_add_div (by omega), Nat.div_eq_of_lt ht]; simp
    rw [h1, h2]
  have hl' : l < d.length := by omega
  refine ⟨d.set l (some a), ?_, by rw [List.length_set, hd], ?_, ?_⟩
  · unfold Graph.setEdgeTag
    rw [hdec, Outcome.bind_ok]
    exact Mem.store_ok a hl'
  · unfold Graph.getEdgeTag
    rw [hdec, Outcome.bind_ok]
    exact Mem.load_ok (by rw [Mem.getElem?_set', if_pos rfl, if_pos hl'])
  · intro m hm
    unfold Graph.getEdgeTag
    rw [hdec, Outcome.bind_ok, Outcome.bind_ok]
    show Mem.load _ m = Mem.load _ m
    unfold Mem.load
    rw [Mem.getElem?_set', if_neg (Ne.symm hm)]

/-- **C14, values of local vertices.** -/
theorem c14_vertex_value {α : Type} (g : Graph) (d : Mem α) (hd : d.length = g.numLocal) {l : Nat} (hl : l < g.numLocal) (a : α) :
    ∃ d', Graph.setVtxTag d (getVertex l) a = .ok d' ∧ d'.length = g.numLocal ∧ g.getVtxTag d' (getVertex l) = .ok a ∧
      ∀ m, m < g.numLocal → m ≠ l → g.getVtxTag d' (getVertex m) = g.getVtxTag d (getVertex m) := by
  have hv : ∀ l, vidx (getVertex l) = .ok l := fun l => by simp [vidx, fromPtr, getVertex, Outcome.ofOption]
  have hl' : l < d.length := by omega
  refine ⟨d.set l (some a), ?_, by rw [List.length_set, hd], ?_, ?_⟩
  · unfold Graph.setVtxTag
    rw [hv, Outcome.bind_ok]
    exact Mem.store_ok a hl'
  · unfold Graph.getVtxTag
    rw [hv, Outcome.bind_ok, if_neg (by omega)]
    exact Mem.load_ok (by rw [Mem.getElem?_set', if_pos rfl, if_pos hl'])
  · intro m hm hne
    unfold Graph.getVtxTag
    rw [hv, Outcome.bind_ok, Outcome.bind_ok, if_neg (by omega)]
    unfold Mem.load
    rw [Mem.getElem?_set', if_neg (Ne.symm hne)]

/-- the hypotheses are met: three edges of type 1 of two types, the second one set -/
example : (({ emptyGraph 0 2 with numTypes := 2 } : Graph).setEdgeTag (Mem.ofList [5, 6, 7]) (({ emptyGraph 0 2 with numTypes := 2 } : Graph).getEdge 1 1) 9 :
    Outcome (Mem Nat)) = .ok (Mem.ofList [5, 9, 7]) ∧ (Mem.ofList [5, 6, 7]).length = 3 ∧ 1 < ({ emptyGraph 0 2 with numTypes := 2 } : Graph).numTypes := by
  decide +kernel

end Verif.Agi
