import Verif.Mesh.MeshBuild
import Verif.Agi.MigProps
/-!
# What can be read from a mesh graph
-/
namespace Verif.Mesh
open Verif.Agi

section
variable {dof : Bool} {ms : List MeshPart} {T : Nat} {own : Gid → Nat} {tot : Nat → Int} {ord : Nat → Nat → List Nat} {gv : Int}
  {p : Nat} {g : Graph} {gh : List Gid}

theorem MRep.gids (h : MRep dof ms own tot ord gv T p g gh) : g.localGids = .ok (part ms p).verts := by
  unfold Graph.localGids
  have hv := h.v
  rw [iterLoop_collect (F := fun v => v) (yields_verts hv) (by unfold Graph.bound; rw [hv.nl]; omega)]
  · simp
  · intro acc v hvm
    rw [globalID_eq hv (by simp [hvm]), Outcome.bind_ok]; rfl

/-- an owned entity is a local vertex -/
theorem mem_verts {m : MeshPart} {x : Elm} (hx : x ∈ m.elms) (ho : x.owned = true) : x.gid ∈ m.verts :=
  List.mem_map.mpr ⟨x, by rw [List.mem_filter]; exact ⟨hx, ho⟩, rfl⟩

/-- the position of an owned entity -/
theorem elm_index {m : MeshPart} (hn : m.verts.Nodup) {x : Elm} (hx : x ∈ m.elms) (ho : x.owned = true) :
    ∃ u, ∃ h : u < (ownedL m.elms).length, m.verts.idxOf x.gid = u ∧ (ownedL m.elms)[u] = x := by
  have hm : x ∈ ownedL m.elms := by unfold ownedL; rw [List.mem_filter]; exact ⟨hx, ho⟩
  obtain ⟨u, hu, e⟩ := List.mem_iff_getElem.mp hm
  refine ⟨u, hu, ?_, e⟩
  have : m.verts[u]'(by rw [verts_eq, List.length_map]; exact hu) = x.gid := by simp [verts_eq, e]
  rw [← this]
  exact hn.idxOf_getElem _ _

theorem MRep.weight (h : MRep dof ms own tot ord gv T p g gh) {v : Gid} (hv : v ∈ (part ms p).verts) : g.weightG v = .ok 1 := by
  unfold Graph.weightG
  rw [findGID_eq h.v (by simp [hv]), Outcome.bind_ok]
  have hi : ((part ms p).verts ++ gh).idxOf v < (part ms p).verts.length := idxOf_lt_iff.mpr hv
  rw [weight_local h.v h.weights hi (by simpa using hi)]
  simp

theorem MRep.coord (h : MRep dof ms own tot ord gv T p g gh) {x : Elm} (hx : x ∈ (part ms p).elms) (ho : x.owned = true) :
    g.coordG x.gid = .ok x.centroid := by
  have hn := (List.nodup_append.mp h.v.nodup).1
  have hv := mem_verts hx ho
  obtain ⟨u, hu, e1, e2⟩ := elm_index hn hx ho
  unfold Graph.coordG
  rw [findGID_eq h.v (by simp [hv]), Outcome.bind_ok, List.idxOf_append_of_mem hv, e1]
  unfold Graph.coord
  have hl : (ownedL (part ms p).elms).length = (part ms p).verts.length := by simp [verts_eq]
  rw [vidx_getVertex, Outcome.bind_ok, h.v.nl, if_neg (by omega), h.coords]
  simp only [deref, Outcome.ofOption_some, Outcome.bind_ok]
  rw [Mem.load_ofList (by simpa using hu)]
  simp [e2]

/-! ## edges -/

theorem MRep.pinLen (t p : Nat) : (pinLists ms t (ord t) p).length = ((part ms p).entsOf t).length := by simp [pinLists]

theorem MRep.known (h : MRep dof ms own tot ord gv T p g gh) {t : Nat} (ht : t < T) {x : Ent} (hx : x ∈ (part ms p).entsOf t)
    {v : Gid} (hv : v ∈ pinsAt ms t (ord t) p x.gid) : v ∈ (part ms p).verts ++ gh := by
  by_cases hvv : v ∈ (part ms p).verts
  · exact List.mem_append_left _ hvv
  · exact List.mem_append_right _ ((h.ghosts v).mpr ⟨hvv, t, ht, x, hx, hv⟩)

theorem MRep.owner (h : MRep dof ms own tot ord gv T p g gh) (hm : MeshOk ms T own) (hp : p < ms.length) {v : Gid}
    (hv : v ∈ (part ms p).verts ++ gh) : g.owner (getVertex (((part ms p).verts ++ gh).idxOf v)) = .ok (own v : Int) := by
  rw [owner_eq h.v h.o hv]
  congr 1
  unfold ownerOf
  by_cases hvv : v ∈ (part ms p).verts
  · rw [if_pos hvv, h.self]
    obtain ⟨x, hx, rfl⟩ := List.mem_map.mp hvv
    rw [List.mem_filter] at hx
    have := ((hm.elms p hp).2 x hx.1).mp hx.2
    omega
  · rw [if_neg hvv]

/-- an edge -/
theorem MRep.edge (h : MRep dof ms own tot ord gv T p g gh) (hm : MeshOk ms T own) (hp : p < ms.length) {t : Nat} (ht : t < T)
    {k : Nat} (hk : k < ((part ms p).entsOf t).length) :
    g.edgeView (g.getEdge k t) = .ok ⟨((part ms p).entsOf t)[k].gid, entW dof ((part ms p).entsOf t)[k],
      (pinsAt ms t (ord t) p ((part ms p).entsOf t)[k].gid).map (fun v => (v, (own v : Int)))⟩ := by
  have he := h.types t ht
  have htn : t < g.numTypes := by rw [h.numTypes]; exact ht
  set ps := pinLists ms t (ord t) p with hps
  have hpl : ps.length = ((part ms p).entsOf t).length := by simp [hps, pinLists]
  have hpk : ps[k]'(by omega) = pinsAt ms t (ord t) p ((part ms p).entsOf t)[k].gid := by simp [hps, pinLists]
  unfold Graph.edgeView
  have e1 : g.globalIDE (g.getEdge k t) = .ok ((part ms p).entsOf t)[k].gid := by
    unfold Graph.globalIDE
    rw [decode_getEdge htn, Outcome.bind_ok]
    simp only
    rw [if_neg (by rw [h.hyper]; simp), Graph.slot_ok he, Outcome.bind_ok]
    simp only [meshType]
    rw [Mem.load_ofList (by simpa using hk)]
    simp
  have e2 : g.weightE (g.getEdge k t) = .ok (entW dof ((part ms p).entsOf t)[k]) := by
    unfold Graph.weightE
    rw [decode_getEdge htn, Outcome.bind_ok]
    simp only
    rw [Graph.slot_ok he, Outcome.bind_ok]
    simp only [meshType]
    rw [Mem.load_ofList (by simpa using hk)]
    simp
  rw [e1, Outcome.bind_ok, e2, Outcome.bind_ok]
  have e3 : g.pinView (g.getEdge k t) = .ok ((ps[k]'(by omega)).map (fun v => (v, (own v : Int)))) := by
    have hpd : ∀ j, j ≤ ps.length → (meshType dof ms t (tot t) (ord t) p ((part ms p).verts ++ gh)).pinDegree.load j = .ok (off ps j) := by
      intro j hj
      simp only [meshType]
      rw [← hps, Mem.load_ofList (by rw [List.length_map, List.length_range]; omega)]
      simp
    have hpin : ∀ j (hj : j < (ps[k]'(by omega)).length), (meshType dof ms t (tot t) (ord t) p ((part ms p).verts ++ gh)).pinList.load (off ps k + j) =
        .ok (((part ms p).verts ++ gh).idxOf (ps[k]'(by omega))[j]) := by
      intro j hj
      simp only [meshType]
      obtain ⟨h1, h2⟩ := List.getElem?_eq_some_iff.mp (flatten_get ps (show k < ps.length by omega) hj)
      rw [Mem.load_ofList (by rw [List.length_map]; exact h1)]
      simp only [List.getElem_map]
      rw [h2]
    unfold Graph.pinView
    have hpins : g.pins (g.getEdge k t) = .ok ⟨t, off ps k, off ps k + (ps[k]'(by omega)).length⟩ := by
      unfold Graph.pins
      rw [decode_getEdge htn, Outcome.bind_ok]
      simp only
      rw [Graph.slot_ok he, Outcome.bind_ok, if_neg (by rw [h.hyper]; simp), hpd k (by omega), Outcome.bind_ok,
        hpd (k + 1) (by omega), Outcome.bind_ok, off_succ ps (by omega)]
      rfl
    rw [hpins, Outcome.bind_ok]
    have hy : Yields g.iterPin ⟨t, off ps k, off ps k + (ps[k]'(by omega)).length⟩
        ((ps[k]'(by omega)).map (fun v => getVertex (((part ms p).verts ++ gh).idxOf v))) := by
      have hmap : (ps[k]'(by omega)).map (fun v => getVertex (((part ms p).verts ++ gh).idxOf v)) =
          (List.range' (off ps k) (ps[k]'(by omega)).length).map
            (fun j => (((ps[k]'(by omega)).map (fun v => ((part ms p).verts ++ gh).idxOf v)).getD (j - off ps k) 0) + 1) := by
        apply List.ext_getElem
        · simp
        · intro j h1 h2
          simp only [List.length_map] at h1
          simp [h1, getVertex]
      rw [hmap]
      refine yields_pinIt h.hyper he _ _ _ ?_
      intro j hj
      rw [hpin j hj]
      simp [hj]
    have hbnd : (ps[k]'(by omega)).length < g.bound := by
      have hb := bound_ge he
      simp only [meshType] at hb
      have : (ps[k]'(by omega)).length ≤ ps.flatten.length := by
        have h1 := off_succ ps (show k < ps.length by omega)
        have h2 := off_mono ps (show k + 1 ≤ ps.length by omega)
        have h3 : off ps ps.length = ps.flatten.length := by rw [off, List.take_length]
        omega
      rw [← hps] at hb
      omega
    apply iterLoop_collect hy hbnd
    intro acc v hv
    rw [hpk] at hv
    have hkn := h.known ht (List.getElem_mem hk) hv
    rw [globalID_eq h.v hkn, Outcome.bind_ok, h.owner hm hp hkn, Outcome.bind_ok]
    rfl
  rw [e3, Outcome.bind_ok, hpk]
  rfl

theorem MRep.edgeViews (h : MRep dof ms own tot ord gv T p g gh) (hm : MeshOk ms T own) (hp : p < ms.length) {t : Nat} (ht : t < T) :
    g.edgeViews t = .ok (((part ms p).entsOf t).map (fun x => ⟨x.gid, entW dof x,
      (pinsAt ms t (ord t) p x.gid).map (fun v => (v, (own v : Int)))⟩)) := by
  have he := h.types t ht
  have htn : t < g.numTypes := by rw [h.numTypes]; exact ht
  unfold Graph.edgeViews
  have hb : g.edgeBegin t = .ok ⟨g.getEdge 0 t, 1 + t + g.numTypes * (0 + ((part ms p).entsOf t).length), g.numTypes, g.isHyper⟩ := by
    unfold Graph.edgeBegin
    simp only [he]
    simp [mkEdgeIt, Graph.getEdge, meshType]; omega
  rw [hb, Outcome.bind_ok]
  have hy : Yields g.iterEdge ⟨g.getEdge 0 t, 1 + t + g.numTypes * (0 + ((part ms p).entsOf t).length), g.numTypes, g.isHyper⟩
      ((List.range ((part ms p).entsOf t).length).map (fun l => g.getEdge l t)) := by
    rw [List.range_eq_range']
    refine yields_edgeIt g.isHyper htn (fun l => g.getEdge l t) 0 _ rfl ?_ (fun k => getEdge_pos _ _ _)
    intro k hk it h1 h2 h3 h4
    unfold Graph.iterEdge
    rw [if_neg (by rw [h2, h1]; exact getEdge_lt (by omega) htn), if_neg (by rw [h4]; simp), h1]
  have hbound : (List.range ((part ms p).entsOf t).length).length < g.bound := by
    have := bound_ge he
    simp only [meshType] at this
    rw [List.length_range]
    omega
  have hlist : ((part ms p).entsOf t).map (fun x => (⟨x.gid, entW dof x, (pinsAt ms t (ord t) p x.gid).map (fun v => (v, (own v : Int)))⟩ : EdgeView)) =
      (List.range ((part ms p).entsOf t).length).map (fun k => if hk : k < ((part ms p).entsOf t).length then
        (⟨((part ms p).entsOf t)[k].gid, entW dof ((part ms p).entsOf t)[k], (pinsAt ms t (ord t) p ((part ms p).entsOf t)[k].gid).map (fun v => (v, (own v : Int)))⟩ : EdgeView)
        else ⟨0, 0, []⟩) := by
    apply List.ext_getElem
    · simp
    · intro k h1 h2
      simp only [List.length_map] at h1
      simp [h1]
  rw [hlist]
  apply iterLoop_collect hy hbound
  intro acc k hk
  have hk' := List.mem_range.mp hk
  rw [h.edge hm hp ht hk', Outcome.bind_ok, dif_pos hk']
  rfl

/-- the edges of a vertex -/
theorem MRep.edgesOf (h : MRep dof ms own tot ord gv T p g gh) (hm : MeshOk ms T own) (hp : p < ms.length) {t : Nat} (ht : t < T)
    {x : Elm} (hx : x ∈ (part ms p).elms) (ho : x.owned = true) : edgesOf g x.gid t = .ok (x.down.getD t []) := by
  have he := h.types t ht
  have htn : t < g.numTypes := by rw [h.numTypes]; exact ht
  have hn := (List.nodup_append.mp h.v.nodup).1
  have hv := mem_verts hx ho
  obtain ⟨u, hu, e1, e2⟩ := elm_index hn hx ho
  set ad := adjN t (part ms p) with had
  have hal : ad.length = (ownedL (part ms p).elms).length := by simp [had, adjN]
  have hvl : (part ms p).verts.length = (ownedL (part ms p).elms).length := by simp [verts_eq]
  have hau : ad[u]'(by omega) = (x.down.getD t []).map (fun e => (lookup (((part ms p).entsOf t).map Ent.gid) e).getD 0) := by
    simp [had, adjN, e2]
  have hdl : ∀ j, j ≤ ad.length → (meshType dof ms t (tot t) (ord t) p ((part ms p).verts ++ gh)).degreeList.load j = .ok (off ad j) := by
    intro j hj
    simp only [meshType]
    rw [Mem.load_ofList (by simp; omega)]
    simp [had]
  unfold Mesh.edgesOf
  rw [findGID_eq h.v (by simp [hv]), Outcome.bind_ok, List.idxOf_append_of_mem hv, e1]
  have hd : g.degreeV (getVertex u) t = .ok (((ad[u]'(by omega)).length : Nat) : Int) := by
    unfold Graph.degreeV
    rw [Graph.slot_ok he, Outcome.bind_ok, vidx_getVertex, Outcome.bind_ok, hdl (u + 1) (by omega), Outcome.bind_ok,
      hdl u (by omega), Outcome.bind_ok, off_succ ad (by omega)]
    simp only [Outcome.pure_eq]
    congr 1
    omega
  have hedges : g.edges (getVertex u) t = .ok ⟨g.getEdge (off ad u) t, 1 + t + g.numTypes * (off ad u + (ad[u]'(by omega)).length), g.numTypes, false⟩ := by
    unfold Graph.edges
    rw [Graph.slot_ok he, Outcome.bind_ok, hd, vidx_getVertex, Outcome.bind_ok, hdl u (by omega), Outcome.bind_ok, Outcome.bind_ok]
    simp only [mkEdgeIt, Graph.getEdge, Outcome.pure_eq]
    congr 2
    · omega
  rw [hedges, Outcome.bind_ok]
  have hy : Yields g.iterEdge ⟨g.getEdge (off ad u) t, 1 + t + g.numTypes * (off ad u + (ad[u]'(by omega)).length), g.numTypes, false⟩
      ((ad[u]'(by omega)).map (fun l => g.getEdge l t)) := by
    have hmap : (ad[u]'(by omega)).map (fun l => g.getEdge l t) =
        (List.range' (off ad u) (ad[u]'(by omega)).length).map (fun k => g.getEdge ((ad[u]'(by omega)).getD (k - off ad u) 0) t) := by
      apply List.ext_getElem
      · simp
      · intro k h1 h2
        simp only [List.length_map] at h1
        simp [h1]
    rw [hmap]
    refine yields_edgeIt false htn _ (off ad u) _ rfl ?_ (fun k => getEdge_pos _ _ _)
    intro k hk it h1 h2 h3 h4
    unfold Graph.iterEdge
    have hload : (meshType dof ms t (tot t) (ord t) p ((part ms p).verts ++ gh)).edgeList.load (off ad u + k) = .ok (ad[u]'(by omega))[k] := by
      simp only [meshType]
      obtain ⟨h5, h6⟩ := List.getElem?_eq_some_iff.mp (flatten_get ad (show u < ad.length by omega) hk)
      rw [Mem.load_ofList (by exact h5)]
      rw [← h6]
    rw [if_neg (by rw [h2, h1]; exact getEdge_lt (by omega) htn), if_pos ⟨h.hyper, h4⟩, h1, decode_getEdge htn, Outcome.bind_ok]
    simp only
    rw [Graph.slot_ok he, Outcome.bind_ok, hload]
    simp only [Outcome.bind_ok, Outcome.pure_eq, Nat.add_sub_cancel_left]
    congr 2
    rw [List.getD_eq_getElem?_getD, List.getElem?_eq_getElem hk]
    rfl
  rw [hau, List.map_map] at hy
  have hbound : (x.down.getD t []).length < g.bound := by
    have hb := bound_ge he
    simp only [meshType] at hb
    rw [← had] at hb
    have h1 := off_succ ad (show u < ad.length by omega)
    have h2 := off_mono ad (show u + 1 ≤ ad.length by omega)
    have h3 : off ad ad.length = ad.flatten.length := by rw [off, List.take_length]
    have h4 : (ad[u]'(by omega)).length = (x.down.getD t []).length := by rw [hau, List.length_map]
    have h5 : (Mem.ofList ad.flatten).length = ad.flatten.length := by rw [Mem.ofList, List.length_map]
    omega
  rw [hau] at *
  have := iterLoop_collect (F := fun e : Gid => e) (body := fun acc e => (do
    let id ← g.globalIDE e
    return (acc ++ [id], false) : Outcome (List Gid × Bool))) hy hbound (by
      intro acc e hem
      have hin : e ∈ ((part ms p).entsOf t).map Ent.gid := by
        obtain ⟨y, hy, hye, -⟩ := (((hm.down p hp x hx ho).2 t ht).2 e).mp hem
        exact List.mem_map.mpr ⟨y, hy, hye⟩
      simp only [Function.comp_apply]
      rw [lookup_of_mem hin, Option.getD_some]
      have hlt := List.idxOf_lt_length_of_mem hin
      have e1 : g.globalIDE (g.getEdge ((((part ms p).entsOf t).map Ent.gid).idxOf e) t) = .ok e := by
        unfold Graph.globalIDE
        rw [decode_getEdge htn, Outcome.bind_ok]
        simp only
        rw [if_neg (by rw [h.hyper]; simp), Graph.slot_ok he, Outcome.bind_ok]
        simp only [meshType]
        rw [Mem.load_ofList hlt, List.getElem_idxOf]
      rw [e1, Outcome.bind_ok]
      rfl)
  rw [List.map_id'] at this
  exact this

/-! ## ghosts -/

theorem MRep.ghostViews (h : MRep dof ms own tot ord gv T p g gh) (hm : MeshOk ms T own) (hp : p < ms.length) (h1 : 1 < ms.length) :
    ghostViews g = .ok (gh.map (fun v => (v, (own v : Int), 1))) := by
  unfold Mesh.ghostViews
  have hy := yields_ghosts g
  have hlist : (List.range g.numGhost).map (fun k => getVertex (g.numLocal + k)) =
      gh.map (fun v => getVertex (((part ms p).verts ++ gh).idxOf v)) := by
    apply List.ext_getElem
    · simp [h.v.ng]
    · intro k h1 h2
      simp only [List.length_map] at h2
      simp only [List.getElem_map, List.getElem_range]
      congr 1
      have hg : gh[k] = ((part ms p).verts ++ gh)[(part ms p).verts.length + k]'(by simp [h2]) := by simp
      rw [hg, h.v.nodup.idxOf_getElem, h.v.nl]
  rw [hlist] at hy
  apply iterLoop_collect hy (by unfold Graph.bound; rw [h.v.ng]; omega)
  intro acc v hv
  have hvm : v ∈ (part ms p).verts ++ gh := List.mem_append_right _ hv
  have hnv : v ∉ (part ms p).verts := ((h.ghosts v).mp hv).1
  have hw : g.weight (getVertex (((part ms p).verts ++ gh).idxOf v)) = .ok 1 := by
    have hlt := List.idxOf_lt_length_of_mem hv
    have hi : ((part ms p).verts ++ gh).idxOf v = (part ms p).verts.length + gh.idxOf v := by
      rw [List.idxOf_append_of_notMem hnv]
    unfold Graph.weight
    rw [vidx_getVertex, Outcome.bind_ok, h.v.nl, h.v.ng, hi, if_neg (by omega), if_pos (by omega), h.gw h1]
    simp only [deref, Outcome.ofOption_some, Outcome.bind_ok]
    unfold Graph.getVtxTag
    rw [vidx_getVertex, Outcome.bind_ok, h.v.nl, if_pos (by omega), Nat.add_sub_cancel_left, Mem.load_ofList (by simpa using hlt)]
    simp
  rw [globalID_eq h.v hvm, Outcome.bind_ok, h.owner hm hp hvm, Outcome.bind_ok, hw, Outcome.bind_ok]
  rfl

end
end Verif.Mesh
