import Verif.Io.FileShows
import Mathlib.Data.List.Dedup
import Mathlib.Data.List.Perm.Subperm
/-!
# Lemmas: a file written and read back gives the same graph
-/
namespace Verif.Io
open Verif.Agi

/-- what a part looks like from outside: input `i`, ghosts `gh`, vertex weights `wt`, global counts `tot`, `tv` -/
structure PF (n : Nat) (own : Gid → Nat) (wt : Gid → Wgt) (tot : Nat → Int) (tv : Int) (p : Nat) (g : Graph)
    (i : Input) (gh : List Gid) (co : Option (Gid → Coord)) : Prop where
  rep : PartRep g p n i own gh
  loc : ∀ v ∈ i.verts, own v = p
  wts : vertWeights i.verts i.wgts = i.verts.map wt
  src : i.hyper = false → SourcesLocal i
  chas : g.coords.isSome = co.isSome
  cval : ∀ c, co = some c → ∀ v ∈ i.verts, g.coord (vh (i.verts ++ gh) v) = .ok (c v)
  gw : gh ≠ [] → g.ghostWeights = some (Mem.ofList (gh.map wt))
  ge : ∀ t, t < i.types.length → g.numGlobalEdges t = .ok (tot t)
  gv : g.globalVerts = tv

section
variable {n : Nat} {own : Gid → Nat} {wt : Gid → Wgt} {tot : Nat → Int} {tv : Int} {p : Nat} {g : Graph}
  {i : Input} {gh : List Gid} {co : Option (Gid → Coord)}

theorem PF.shows (h : PF n own wt tot tv p g i gh co) :
    Shows g p i.verts gh own wt co (ezOf g i.hyper i.verts i.types) :=
  PartRep.shows h.rep h.loc h.wts h.src h.chas h.cval

theorem PF.gids (h : PF n own wt tot tv p g i gh co) : g.localGids = .ok i.verts := by
  unfold Graph.localGids
  have hv := h.rep.core.v
  rw [iterLoop_collect (F := fun v => v) (yields_verts hv) (by unfold Graph.bound; rw [hv.nl]; omega)]
  · simp
  · intro acc v hvm
    rw [globalID_eq hv (by simp [hvm]), Outcome.bind_ok]; rfl

theorem PF.ghostGids (h : PF n own wt tot tv p g i gh co) : Io.ghostGids g = .ok gh := by
  unfold Io.ghostGids
  have hv := h.rep.core.v
  have hy := yields_ghosts g
  have hlist : (List.range g.numGhost).map (fun k => getVertex (g.numLocal + k)) = gh.map (vh (i.verts ++ gh)) := by
    apply List.ext_getElem
    · simp [hv.ng]
    · intro k h1 h2
      simp only [List.length_map] at h2
      simp only [List.getElem_map, List.getElem_range]
      unfold vh
      congr 1
      have hk : i.verts.length + k < (i.verts ++ gh).length := by simp [h2]
      have hg : gh[k] = (i.verts ++ gh)[i.verts.length + k] := by simp
      rw [hg, hv.nodup.idxOf_getElem, hv.nl]
  rw [hlist] at hy
  rw [iterLoop_collect (F := fun v => v) hy (by unfold Graph.bound; rw [hv.ng]; omega)]
  · simp
  · intro acc v hvm
    rw [globalID_eq hv (by simp [hvm]), Outcome.bind_ok]; rfl

theorem PF.ownerG (h : PF n own wt tot tv p g i gh co) {v : Gid} (hv : v ∈ i.verts ++ gh) :
    Io.ownerG g v = .ok (own v : Int) := by
  unfold Io.ownerG
  rw [findGID_eq h.rep.core.v hv, Outcome.bind_ok]
  exact h.shows.owner hv

theorem PF.weightG (h : PF n own wt tot tv p g i gh co) {v : Gid} (hv : v ∈ i.verts) : g.weightG v = .ok (wt v) := by
  unfold Graph.weightG
  rw [findGID_eq h.rep.core.v (by simp [hv]), Outcome.bind_ok]
  exact h.shows.weight hv

theorem PF.weightGhost (h : PF n own wt tot tv p g i gh co) {v : Gid} (hv : v ∈ gh) : g.weightG v = .ok (wt v) := by
  have hm : v ∉ i.verts := ((h.rep.mem_ghosts v).mp hv).2
  unfold Graph.weightG
  rw [findGID_eq h.rep.core.v (by simp [hv]), Outcome.bind_ok]
  have hlt := List.idxOf_lt_length_of_mem hv
  have hidx : (i.verts ++ gh).idxOf v = i.verts.length + gh.idxOf v := List.idxOf_append_of_notMem hm
  unfold Graph.weight
  rw [vidx_getVertex, Outcome.bind_ok, h.rep.core.v.nl, h.rep.core.v.ng, hidx, if_neg (by omega),
    if_pos (by omega), h.gw (List.ne_nil_of_mem hv)]
  simp only [deref, Outcome.ofOption_some, Outcome.bind_ok]
  unfold Graph.getVtxTag
  rw [vidx_getVertex, Outcome.bind_ok, h.rep.core.v.nl, if_pos (by omega), Nat.add_sub_cancel_left,
    Mem.load_ofList (by simpa using hlt)]
  rw [List.getElem_map, List.getElem_idxOf]

theorem PF.coordG (h : PF n own wt tot tv p g i gh co) {v : Gid} (hv : v ∈ i.verts) {c : Gid → Coord}
    (hc : co = some c) : g.coordG v = .ok (c v) := by
  unfold Graph.coordG
  rw [findGID_eq h.rep.core.v (by simp [hv]), Outcome.bind_ok]
  exact h.cval c hc v hv

theorem PF.edgeViews (h : PF n own wt tot tv p g i gh co) {t : Nat} (ht : t < i.types.length) :
    g.edgeViews t = .ok ((canon i.hyper i.verts i.types[t]).map (HEdge.viewed own)) := by
  have hS := h.shows
  have hlen : t < (ezOf g i.hyper i.verts i.types).length := by simpa [ezOf] using ht
  have hE := hS.edges t hlen
  have hA := hS.at_ t hlen
  have hK := hS.known t hlen
  have hF := hS.fuelE t hlen
  have hP := hS.fuelP t hlen
  rw [ezOf_get g _ _ _ ht hlen] at hE hA hK hF hP
  obtain ⟨it, e, hy⟩ := hE
  unfold Graph.edgeViews
  rw [e, Outcome.bind_ok]
  have : (canon i.hyper i.verts i.types[t]).map (HEdge.viewed own) =
      (edgeHandles g t (canon i.hyper i.verts i.types[t])).map (fun x => x.2.viewed own) := by
    conv_lhs => rw [← edgeHandles_snd g t (canon i.hyper i.verts i.types[t]), List.map_map]
    rfl
  rw [this]
  apply iterLoop_collect hy hF
  intro acc x hx
  have hat := hA x hx
  have hv : g.edgeView x.1 = .ok (x.2.viewed own) := by
    unfold Graph.edgeView
    rw [hat.id, Outcome.bind_ok, hat.w, Outcome.bind_ok]
    have hp : g.pinView x.1 = .ok (x.2.pins.map (fun v => (v, (own v : Int)))) := by
      obtain ⟨itp, ep, hyp⟩ := hat.pins
      unfold Graph.pinView
      rw [ep, Outcome.bind_ok]
      apply iterLoop_collect hyp (hP x hx)
      intro acc v hvp
      have hk := hK x hx v hvp
      rw [globalID_eq h.rep.core.v hk, Outcome.bind_ok, hS.owner hk, Outcome.bind_ok]
      rfl
    rw [hp, Outcome.bind_ok]; rfl
  rw [hv, Outcome.bind_ok]; rfl

/-- the data of part `i` as they are found in its file -/
def reread (wt : Gid → Wgt) (i : Input) : Input :=
  ⟨i.hyper, i.verts, i.verts.map wt, i.types.map (fun e => ofHEdges (canon i.hyper i.verts e))⟩

theorem mem_allPins {i : Input} {v : Gid} : v ∈ i.allPins ↔ ∃ e ∈ i.types, ∃ x ∈ e.pins, v ∈ x := by
  unfold Input.allPins
  rw [List.mem_flatten]
  constructor
  · rintro ⟨l, hl, hv⟩
    obtain ⟨e, he, rfl⟩ := List.mem_map.mp hl
    obtain ⟨x, hx, hvx⟩ := List.mem_flatten.mp hv
    exact ⟨e, he, x, hx, hvx⟩
  · rintro ⟨e, he, x, hx, hv⟩
    exact ⟨_, List.mem_map.mpr ⟨e, he, rfl⟩, List.mem_flatten.mpr ⟨x, hx, hv⟩⟩

theorem again {i : Input} (hw : i.WF) (hs : i.hyper = false → SourcesLocal i) {e : EdgeInput} (he : e ∈ i.types) :
    (ofHEdges (canon i.hyper i.verts e)).WF i.hyper ∧
    canon i.hyper i.verts (ofHEdges (canon i.hyper i.verts e)) = canon i.hyper i.verts e ∧
    (∀ v ∈ i.verts, incOf i.hyper i.verts (ofHEdges (canon i.hyper i.verts e)) v = incOf i.hyper i.verts e v) ∧
    (ofHEdges (canon i.hyper i.verts e)).pins.Perm e.pins ∧
    (i.hyper = true → (ofHEdges (canon i.hyper i.verts e)).pins = e.pins) ∧
    (ofHEdges (canon i.hyper i.verts e)).pins.length = e.pins.length :=
  canon_again (hw.edges e he) hw.nodup (fun hf => hs hf e he)

theorem reread_allPins {i : Input} (hw : i.WF) (hs : i.hyper = false → SourcesLocal i) (v : Gid) :
    v ∈ (reread wt i).allPins ↔ v ∈ i.allPins := by
  rw [mem_allPins, mem_allPins]
  constructor
  · rintro ⟨e, he, x, hx, hv⟩
    obtain ⟨e0, he0, rfl⟩ := List.mem_map.mp he
    exact ⟨e0, he0, x, (again hw hs he0).2.2.2.1.mem_iff.mp hx, hv⟩
  · rintro ⟨e, he, x, hx, hv⟩
    exact ⟨_, List.mem_map.mpr ⟨e, he, rfl⟩, x, (again hw hs he).2.2.2.1.mem_iff.mpr hx, hv⟩

theorem reread_wf {i : Input} (hw : i.WF) (hs : i.hyper = false → SourcesLocal i) : (reread wt i).WF := by
  refine ⟨hw.nodup, by simpa [reread] using hw.types_le, ?_⟩
  intro e he
  obtain ⟨e0, he0, rfl⟩ := List.mem_map.mp he
  exact (again hw hs he0).1

/-- a graph and what was read back from its file are the same -/
theorem PF.same {g' : Graph} {gh' : List Gid} {co' : Option (Gid → Coord)} (h : PF n own wt tot tv p g i gh co)
    (h' : PF n own wt tot tv p g' (reread wt i) gh' co') (hw : i.WF) (hco : co'.isSome = co.isSome)
    (hcv : ∀ c c', co = some c → co' = some c' → ∀ v ∈ i.verts, c' v = c v) : Same g g' := by
  have hnt : g.numTypes = i.types.length := h.rep.core.numTypes
  have hnt' : g'.numTypes = i.types.length := by
    rw [h'.rep.core.numTypes]; simp [reread]
  have hag : ∀ t (ht : t < i.types.length), ∃ ht' : t < (reread wt i).types.length,
      (reread wt i).types[t] = ofHEdges (canon i.hyper i.verts i.types[t]) := by
    intro t ht
    exact ⟨by simpa [reread] using ht, by simp [reread]⟩
  refine ⟨?_, by rw [hnt, hnt'], by rw [h'.chas, h.chas, hco], ⟨i.verts, h.gids, h'.gids, ?_⟩,
    ⟨gh, gh', h.ghostGids, h'.ghostGids, ?_, ?_⟩, ?_, by rw [h.gv, h'.gv]⟩
  · rw [h.rep.core.hyp, h'.rep.core.hyp]; rfl
  · intro v hv
    refine ⟨⟨_, h.weightG hv, h'.weightG hv⟩, ⟨_, h.ownerG (by simp [hv]), h'.ownerG (List.mem_append_left _ hv)⟩, ?_, ?_⟩
    · intro hc
      rw [h.chas] at hc
      obtain ⟨c, hc1⟩ := Option.isSome_iff_exists.mp hc
      obtain ⟨c', hc2⟩ := Option.isSome_iff_exists.mp (hco.trans hc)
      refine ⟨_, h.coordG hv hc1, ?_⟩
      rw [h'.coordG (show v ∈ (reread wt i).verts from hv) hc2, hcv c c' hc1 hc2 v hv]
    · intro t ht
      rw [hnt] at ht
      obtain ⟨ht', he⟩ := hag t ht
      refine ⟨_, incid_ids h.rep.core ht hv, ?_⟩
      rw [incid_ids h'.rep.core ht' hv, he]
      exact congrArg _ ((again hw h.src (List.getElem_mem ht)).2.2.1 v hv)
  · rw [List.perm_ext_iff_of_nodup (List.nodup_append.mp h.rep.core.v.nodup).2.1 (List.nodup_append.mp h'.rep.core.v.nodup).2.1]
    intro v
    rw [h.rep.mem_ghosts, h'.rep.mem_ghosts, reread_allPins hw h.src]; rfl
  · intro v hv
    have hv' : v ∈ gh' := by
      rw [h'.rep.mem_ghosts, reread_allPins hw h.src]
      exact (h.rep.mem_ghosts v).mp hv
    exact ⟨⟨_, h.weightGhost hv, h'.weightGhost hv'⟩, ⟨_, h.ownerG (by simp [hv]), h'.ownerG (List.mem_append_right _ hv')⟩⟩
  · intro t ht
    rw [hnt] at ht
    obtain ⟨ht', he⟩ := hag t ht
    obtain ⟨a1, a2, -, -, -, a3⟩ := again hw h.src (List.getElem_mem ht)
    refine ⟨⟨_, h.edgeViews ht, ?_⟩, ⟨_, numEdges_eq h.rep.core ht, ?_⟩, ⟨_, h.ge t ht, h'.ge t ht'⟩⟩
    · rw [h'.edgeViews ht', he]
      exact congrArg (fun l => Outcome.ok (l.map (HEdge.viewed own))) a2
    · rw [numEdges_eq h'.rep.core ht', he, a3]

end

end Verif.Io
