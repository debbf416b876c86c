import Verif.Vtk.VtkPart
/-!
# The file of a part of a traditional graph
-/
namespace Verif.Vtk
open Verif.Agi

section
variable {g : Graph} {V G : List Gid} {types : List EdgeInput} {own : Gid → Nat} {c : Gid → Coord} {p : Nat}

/-- the ends of the `k`-th edge -/
theorem VPart.ends (h : VPart g false V G types own c p)
    (hs : ∀ x ∈ (types[0]'h.one).pins, ∃ u ∈ V, ∃ w, u ≠ w ∧ x = [u, w]) {k : Nat}
    (hk : k < (Io.canon false V (types[0]'h.one)).length) :
    ∃ u w, u ∈ V ∧ w ∈ V ++ G ∧ (Io.canon false V (types[0]'h.one))[k].pins = [u, w] ∧
      g.uEdge (g.getEdge k 0) = .ok (getVertex (V.idxOf u)) ∧ g.vOf (g.getEdge k 0) = .ok (getVertex ((V ++ G).idxOf w)) := by
  have hnd := (List.nodup_append.mp h.core.v.nodup).1
  have hwf := h.core.wf _ (List.getElem_mem h.one)
  have hlen := Io.canon_length (verts := V) hwf
  have hperm := Io.grouped_perm hnd hs
  have hkg : k < (Io.grouped V (types[0]'h.one).pins).length := by rw [hperm.length_eq, ← hlen]; exact hk
  have hcp : (Io.canon false V (types[0]'h.one))[k].pins = (Io.grouped V (types[0]'h.one).pins)[k] := by
    simp only [Io.canon, Bool.false_eq_true, if_false, List.getElem_map, List.getElem_range]
    rw [List.getD_eq_getElem?_getD, List.getElem?_eq_getElem hkg, Option.getD_some]
  obtain ⟨u, j, hu, hj, hkk⟩ := Io.offs_find _ V.length k (by rw [← Io.grouped_length]; exact hkg)
  have hcu : degOf false (types[0]'h.one).pins (V.getD u 0) = degOf false (types[0]'h.one).pins V[u] := by
    rw [List.getD_eq_getElem?_getD, List.getElem?_eq_getElem hu, Option.getD_some]
  simp only [hcu] at hj
  have hj' : j < ((types[0]'h.one).pins.filter (fun p => p[0]? == some V[u])).length := by rw [← Io.degOf_filter]; exact hj
  have hja : j < (adjOf false (V ++ G) (types[0]'h.one).pins V[u]).length := by rw [adjOf_length]; exact hj
  have hat := Io.grouped_at hu hj'
  rw [← hkk, List.getElem?_eq_getElem hkg] at hat
  have hat' := Option.some.inj hat
  obtain ⟨hm1, hm2⟩ := List.mem_filter.mp (List.getElem_mem hj')
  obtain ⟨u', hu', w, hne, hx⟩ := hs _ hm1
  rw [hx] at hm2
  simp only [List.getElem?_cons_zero, beq_iff_eq, Option.some.injEq] at hm2
  subst hm2
  have hadj : (adjOf false (V ++ G) (types[0]'h.one).pins V[u])[j] = (V ++ G).idxOf w := by
    have : (adjOf false (V ++ G) (types[0]'h.one).pins V[u])[j]? = some ((V ++ G).idxOf w) := by
      unfold adjOf
      simp only [Bool.false_eq_true, if_false]
      rw [List.getElem?_map, List.getElem?_eq_getElem hj', hx]
      rfl
    rw [List.getElem?_eq_getElem hja] at this
    exact Option.some.inj this
  have e1 := uEdge_eq (t := 0) h.core h.one hu (k := j) hj
  have e2 := vOf_eq (t := 0) h.core h.one hu (k := j) hja
  rw [← hkk] at e1 e2
  have hw : w ∈ V ++ G := by
    apply h.core.pins 0 h.one
    rw [List.mem_flatten]
    exact ⟨_, hm1, by rw [hx]; simp⟩
  refine ⟨V[u], w, hu', hw, by rw [hcp, hat', hx], ?_, ?_⟩
  · rw [e1, hnd.idxOf_getElem]
  · rw [e2, hadj]

/-- **the file of a part of a traditional graph** -/
theorem VPart.fileT (h : VPart g false V G types own c p)
    (hs : ∀ x ∈ (types[0]'h.one).pins, ∃ u ∈ V, ∃ w, u ≠ w ∧ x = [u, w]) (gc : Mem Coord) (vals : Option (List Int))
    (t : TagOn) (hok : TagOk vals t V.length (types[0]'h.one).pins.length) :
    ∃ f, writePart g gc (vals.map Mem.ofList) t = .ok f ∧
      ShowsT f c vals t p V G ((Io.canon false V (types[0]'h.one)).map (HEdge.viewed own)) ∧
      (f.WF ↔ ∀ e ∈ (Io.canon false V (types[0]'h.one)).map (HEdge.viewed own), ∀ x ∈ e.pins, x.2 = (p : Int)) := by
  have hwf := h.core.wf _ (List.getElem_mem h.one)
  have hlen := Io.canon_length (verts := V) hwf
  have hnh : ¬ g.isHyper = true := by rw [h.core.hyp]; simp
  set es := Io.canon false V (types[0]'h.one) with hes
  have hconn : connectivity g = .ok ((List.range es.length).flatMap (fun k => ((es.getD k ⟨0, [], 0⟩).pins.map (fun v => (V ++ G).idxOf v)))) := by
    unfold connectivity
    rw [if_neg hnh, hlen]
    apply eachEdge_eq h.core h.one
    intro k hk
    have hk' : k < es.length := by rw [hlen]; exact hk
    obtain ⟨u, w, h1, h2, h3, h4, h5⟩ := h.ends hs hk'
    rw [h4, Outcome.bind_ok, h5, Outcome.bind_ok, vidx_getVertex, Outcome.bind_ok, vidx_getVertex, Outcome.bind_ok, getD_lt hk', h3]
    simp [List.idxOf_append_of_mem h1]
  have hmarks : cellMarks g = .ok ((List.range es.length).flatMap (fun _ => [()])) := by
    unfold cellMarks
    rw [if_neg hnh, hlen]
    exact eachEdge_eq h.core h.one (fun _ _ => rfl)
  have htag : tagData g (vals.map Mem.ofList) t = .ok (tagT vals t V.length) := by
    unfold tagData
    cases vals with
    | none => cases t <;> rfl
    | some d =>
      simp only [Option.map_some]
      rcases t with _ | _ | t
      · rw [if_neg (by simp)]; rfl
      · have hl := (hok d rfl).1 rfl
        rw [if_pos (by simp)]
        unfold tagVerts
        rw [eachVertex_eq h.core.v (F := fun v => [d.getD (V.idxOf v) 0])]
        · rw [Outcome.bind_ok, if_neg hnh, flat_one]
          simp only [Outcome.pure_eq, tagT]
          congr 2
          apply List.ext_getElem
          · simp [hl]
          · intro k h1 h2
            simp only [List.length_map] at h1
            rw [List.getElem_map, List.getElem_take, (List.nodup_append.mp h.core.v.nodup).1.idxOf_getElem, getD_lt (by omega)]
        · intro v hv
          have hlt := List.idxOf_lt_length_of_mem hv
          rw [if_pos rfl]
          unfold Graph.getVtxTag
          rw [vidx_getVertex, Outcome.bind_ok, List.idxOf_append_of_mem hv, if_neg (by rw [h.core.v.nl]; omega),
            Mem.load_ofList (by omega), getD_lt (by omega)]
          rfl
      · rw [if_neg (by simp [hnh])]; rfl
  have hpts : points g gc = .ok (V.map (fun v => some (c v))) := by
    unfold points ownPoints
    rw [eachVertex_eq h.core.v (F := fun v => [c v]) (by
      intro v hv
      rw [h.coord v hv]; rfl), Outcome.bind_ok, if_neg hnh, flat_one, List.map_map]
    rfl
  unfold writePart countPoints partData vorE getNumCells
  have c1 := eachVertex_const h.core.v g.self
  simp only [Outcome.pure_eq] at c1
  simp only [if_neg hnh, numEdges_eq h.core h.one, hpts, hconn, hmarks, c1, htag, Outcome.bind_ok, Outcome.pure_eq]
  refine ⟨_, rfl, ?_⟩
  -- the ends as pairs
  have hpair : ∀ k, k < es.length → ∃ x : Gid × Gid, (es.getD k ⟨0, [], 0⟩).pins = [x.1, x.2] ∧ x.1 ∈ V ∧ x.2 ∈ V ++ G := by
    intro k hk
    obtain ⟨u, w, h1, h2, h3, -, -⟩ := h.ends hs hk
    exact ⟨(u, w), by rw [getD_lt hk]; exact h3, h1, h2⟩
  obtain ⟨P, hP⟩ := choose_part hpair
  have hcf : (List.range es.length).flatMap (fun k => ((es.getD k ⟨0, [], 0⟩).pins.map (fun v => (V ++ G).idxOf v))) =
      ((List.range es.length).map (fun k => ((V ++ G).idxOf (P k).1, (V ++ G).idxOf (P k).2))).flatMap (fun x => [x.1, x.2]) := by
    rw [List.flatMap_map]
    apply List.flatMap_congr
    intro k hk
    rw [(hP k (List.mem_range.mp hk)).1]; rfl
  have hlines : ∀ f : File, f.connectivity = (List.range es.length).flatMap (fun k => ((es.getD k ⟨0, [], 0⟩).pins.map (fun v => (V ++ G).idxOf v))) →
      f.offsets = offsets ((List.range es.length).flatMap (fun _ => [()])) →
      f.types = ((List.range es.length).flatMap (fun _ => [()])).map (fun _ => 3) → f.numCells = (types[0]'h.one).pins.length →
      Lines f ((List.range es.length).map (fun k => ((V ++ G).idxOf (P k).1, (V ++ G).idxOf (P k).2))) := by
    intro f h1 h2 h3 h4
    refine ⟨?_, ?_, ?_, ?_⟩
    · rw [h1, hcf]
    · rw [h2, flat_one]; simp [offsets]
    · rw [h3, flat_one]; simp
    · rw [h4, ← hlen]; simp
  have hview : es.map (HEdge.viewed own) = (List.range es.length).map (fun k => ((es.getD k ⟨0, [], 0⟩).viewed own)) := by
    conv => lhs; rw [list_range es ⟨0, [], 0⟩, List.map_map]
    rfl
  have hidx : ∀ v ∈ V ++ G, (V ++ G)[(V ++ G).idxOf v]? = some v := by
    intro v hv
    rw [List.getElem?_eq_getElem (List.idxOf_lt_length_of_mem hv), List.getElem_idxOf]
  have hlt : ∀ v ∈ V ++ G, ((V ++ G).idxOf v < V.length ↔ own v = p) := by
    intro v hv
    rw [idxOf_lt_iff]
    constructor
    · exact h.mine v
    · intro ho
      rcases List.mem_append.mp hv with h1 | h1
      · exact h1
      · exact absurd ho (h.theirs v h1)
  constructor
  · refine ⟨rfl, h.core.v.nl, ?_, ?_, rfl, rfl⟩
    · rw [(hlines _ rfl rfl rfl rfl).cells, List.map_map, List.map_map, hview, List.map_map]
      apply List.map_congr_left
      intro k hk
      obtain ⟨h1, h2, h3⟩ := hP k (List.mem_range.mp hk)
      simp only [Function.comp, List.map_cons, List.map_nil, HEdge.viewed, h1, hidx _ (List.mem_append_left _ h2), hidx _ h3]
    · simp only [h.rank]
  · have hall : (∀ e ∈ es.map (HEdge.viewed own), ∀ x ∈ e.pins, x.2 = (p : Int)) ↔
        ∀ x ∈ (List.range es.length).map (fun k => ((V ++ G).idxOf (P k).1, (V ++ G).idxOf (P k).2)), x.1 < V.length ∧ x.2 < V.length := by
      rw [hview]
      constructor
      · intro ha x hx
        obtain ⟨k, hk, rfl⟩ := List.mem_map.mp hx
        obtain ⟨h1, h2, h3⟩ := hP k (List.mem_range.mp hk)
        have hb := ha _ (List.mem_map.mpr ⟨k, hk, rfl⟩)
        simp only [HEdge.viewed, h1, List.map_cons, List.map_nil, List.mem_cons, List.not_mem_nil, or_false] at hb
        have b1 := hb _ (Or.inl rfl)
        have b2 := hb _ (Or.inr rfl)
        simp only at b1 b2
        exact ⟨(hlt _ (List.mem_append_left _ h2)).mpr (by omega), (hlt _ h3).mpr (by omega)⟩
      · intro ha e he x hx
        obtain ⟨k, hk, rfl⟩ := List.mem_map.mp he
        obtain ⟨h1, h2, h3⟩ := hP k (List.mem_range.mp hk)
        have hb := ha _ (List.mem_map.mpr ⟨k, hk, rfl⟩)
        simp only at hb
        rw [hlt _ (List.mem_append_left _ h2), hlt _ h3] at hb
        simp only [HEdge.viewed, h1, List.map_cons, List.map_nil, List.mem_cons, List.not_mem_nil, or_false] at hx
        rcases hx with rfl | rfl
        · simp only; omega
        · simp only; omega
    rw [hall]
    constructor
    · intro hw x hx
      have hin := hw.inside
      simp only at hin
      rw [hcf, h.core.v.nl] at hin
      exact ⟨hin _ (List.mem_flatMap.mpr ⟨x, hx, by simp⟩), hin _ (List.mem_flatMap.mpr ⟨x, hx, by simp⟩)⟩
    · intro ha
      apply (hlines _ rfl rfl rfl rfl).wf
      · simp [h.core.v.nl]
      · intro x hx
        simp only [h.core.v.nl]
        exact ha x hx
      · simp [h.core.v.nl]
      · intro l hl; simp at hl
      · intro l hl
        simp only [h.core.v.nl]
        cases vals with
        | none => cases t <;> simp [tagT] at hl
        | some d =>
          rcases t with _ | _ | t
          · simp [tagT] at hl
          · have := (hok d rfl).1 rfl
            simp only [tagT, Option.some.injEq] at hl
            subst hl
            simp [this]
          · simp [tagT] at hl

end

end Verif.Vtk
