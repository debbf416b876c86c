import Verif.Part.DistQueueTop
import Verif.Part.SelectPart
/-!
# The distance queue on a part of a distributed hypergraph
-/
namespace Verif.Part
open Verif.Agi

theorem mem_getD {es : List (List Gid)} {e : Nat} {v : Gid} : v ∈ es.getD e [] ↔ ∃ h : e < es.length, v ∈ es[e] := by
  by_cases h : e < es.length
  · rw [getD_lt h]; exact ⟨fun hv => ⟨h, hv⟩, fun ⟨_, hv⟩ => hv⟩
  · rw [List.getD_eq_getElem?_getD, List.getElem?_eq_none (by omega)]
    simp [h]

theorem nbr_share (verts ghosts : List Gid) (es : List (List Gid)) :
    Nbr verts.length (adjI verts ghosts es) = Share verts es := by
  funext e f
  apply propext
  unfold Nbr Share adjI
  simp only [mem_getD]
  constructor
  · rintro ⟨v, hv, h1, h2⟩
    rw [getD_lt hv, mem_adjOf_hyper] at h1 h2
    exact ⟨verts[v], List.getElem_mem hv, h1, h2⟩
  · rintro ⟨v, hv, h1, h2⟩
    obtain ⟨k, hk, rfl⟩ := List.mem_iff_getElem.mp hv
    refine ⟨k, hk, ?_, ?_⟩ <;> rw [getD_lt hk, mem_adjOf_hyper] <;> assumption

section
variable {H : List (List HEdge)} {ins : List Input} {own : Gid → Nat}

theorem pin_local (hd : HDist H ins own) {p : Nat} (hp : p < ins.length) {v : Gid} (hv : v ∈ ins[p].allPins) :
    v ∈ ins[p].verts ↔ own v = p := by
  refine ⟨hd.verts p hp v, fun h => ?_⟩
  unfold Input.allPins at hv
  rw [← List.flatMap_def, List.mem_flatMap] at hv
  obtain ⟨e, he, hve⟩ := hv
  obtain ⟨t, htl, rfl⟩ := List.mem_iff_getElem.mp he
  obtain ⟨ps, hps, hvp⟩ := List.mem_flatten.mp hve
  obtain ⟨k, hk, rfl⟩ := List.mem_iff_getElem.mp hps
  have hwf := (hd.wf _ (List.getElem_mem hp)).edges _ (List.getElem_mem htl)
  obtain ⟨q1, q2, q3, q4⟩ := edges_get htl hwf hk
  have ht' : t < H.length := by rw [← hd.types p hp]; exact htl
  have hm := (List.mem_filter.mp ((hd.edges p hp t htl ht').mem_iff.mp (List.getElem_mem q1))).1
  obtain ⟨hlt, hvv⟩ := hd.pins _ (List.getElem_mem ht') _ hm v (by rw [q3]; exact hvp)
  simp only [h] at hvv
  exact hvv

theorem mem_allPins {i : Input} {v : Gid} : v ∈ i.allPins ↔ ∃ t ∈ i.types, ∃ ps ∈ t.pins, v ∈ ps := by
  unfold Input.allPins
  rw [← List.flatMap_def, List.mem_flatMap]
  simp only [List.mem_flatten]

theorem touched_iff (hd : HDist H ins own) {g : Graph} {p n : Nat} (hp : p < ins.length) {ghosts : List Gid}
    (hr : PartRep g p n ins[p] own ghosts) : ghosts ≠ [] ↔ Touched own p ins[p] := by
  unfold Touched
  constructor
  · intro h
    obtain ⟨v, hv⟩ := List.exists_mem_of_ne_nil _ h
    obtain ⟨h1, h2⟩ := (hr.mem_ghosts v).mp hv
    obtain ⟨t, ht, ps, hps, hvp⟩ := mem_allPins.mp h1
    exact ⟨t, ht, ps, hps, v, hvp, fun h => h2 ((pin_local hd hp h1).mpr h)⟩
  · rintro ⟨t, ht, ps, hps, v, hv, hne⟩
    have h1 : v ∈ ins[p].allPins := mem_allPins.mpr ⟨t, ht, ps, hps, hv⟩
    have : v ∈ ghosts := (hr.mem_ghosts v).mpr ⟨h1, fun h => hne ((pin_local hd hp h1).mp h)⟩
    exact List.ne_nil_of_mem this

theorem ghostPin_leaves (hd : HDist H ins own) {p : Nat} (hp : p < ins.length) (ht : 0 < ins[p].types.length) :
    GhostPin ins[p].verts ins[p].types[0].pins = Leaves own p ins[p].types[0].pins := by
  funext e
  apply propext
  unfold GhostPin Leaves
  have h : ∀ v ∈ ins[p].types[0].pins.getD e [], v ∈ ins[p].verts ↔ own v = p := by
    intro v hv
    obtain ⟨he, hv⟩ := mem_getD.mp hv
    exact pin_local hd hp (mem_allPins.mpr ⟨_, List.getElem_mem ht, _, List.getElem_mem he, hv⟩)
  constructor
  · rintro ⟨v, hv, hn⟩
    exact ⟨v, hv, fun hh => hn ((h v hv).mpr hh)⟩
  · rintro ⟨v, hv, hn⟩
    exact ⟨v, hv, fun hh => hn ((h v hv).mp hh)⟩

/-- every edge a part holds has a vertex of the part -/
theorem edge_local (hd : HDist H ins own) {p : Nat} (hp : p < ins.length) (ht : 0 < ins[p].types.length) :
    ∀ ps ∈ ins[p].types[0].pins, ∃ v ∈ ps, v ∈ ins[p].verts := by
  intro ps hps
  obtain ⟨k, hk, rfl⟩ := List.mem_iff_getElem.mp hps
  have hwf := (hd.wf _ (List.getElem_mem hp)).edges _ (List.getElem_mem ht)
  obtain ⟨q1, q2, q3, q4⟩ := edges_get ht hwf hk
  have hH : 0 < H.length := by rw [← hd.types p hp]; exact ht
  have hm := (List.mem_filter.mp ((hd.edges p hp 0 ht hH).mem_iff.mp (List.getElem_mem q1))).2
  rw [decide_eq_true_iff] at hm
  obtain ⟨v, hv, ho⟩ := hm
  rw [q3] at hv
  exact ⟨v, hv, (pin_local hd hp (mem_allPins.mpr ⟨_, List.getElem_mem ht, _, hps, hv⟩)).mpr ho⟩

theorem distQueue_part (push : Bool) (hd : HDist H ins own) {g : Graph} {p n : Nat} (hp : p < ins.length)
    {ghosts : List Gid} (hr : PartRep g p n ins[p] own ghosts) (ht : 0 < ins[p].types.length)
    (hsmall : Touched own p ins[p] ∨ ins[p].types[0].pins.length = 0 ∨ 3 ≤ ins[p].types[0].pins.length) :
    ∃ (q : Queue) (cap : Nat) (L : List Nat), distanceQueue push g = .ok q ∧
      QRep q cap [] (L.map (fun e => g.getEdge e 0)) ∧ L.length ≤ cap ∧
      L.Perm ((List.range ins[p].types[0].pins.length).filter (fun e => decide (Leaves own p ins[p].types[0].pins e))) ∧
      L.Pairwise (fun a b => NoFarther (Share ins[p].verts ins[p].types[0].pins) (Leaves own p ins[p].types[0].pins) b a) ∧
      (∀ a ∈ L, ∃ d, IsDist (Share ins[p].verts ins[p].types[0].pins)
        (Core (Share ins[p].verts ins[p].types[0].pins) (Leaves own p ins[p].types[0].pins) a) a d) ∧
      Grouped (Share ins[p].verts ins[p].types[0].pins) L ∧
      L.Pairwise (Shallower (Share ins[p].verts ins[p].types[0].pins) (Leaves own p ins[p].types[0].pins)) ∧
      ∀ a ∈ L, ∃ d n, CompDepth (Share ins[p].verts ins[p].types[0].pins) (Leaves own p ins[p].types[0].pins) a d ∧
        CompSize (Share ins[p].verts ins[p].types[0].pins) a n := by
  have hc := hr.core
  rw [hd.hyper _ (List.getElem_mem hp)] at hc
  obtain ⟨q, cap, L, h1, h2, h3, h4, h5, h6, h7, h8, h9⟩ := distanceQueue_hyper push hc hr.owners ht (by
      intro v hv
      obtain ⟨a, b⟩ := (hr.mem_ghosts v).mp hv
      rw [hr.rank]
      intro h
      exact b ((pin_local hd hp a).mpr (by exact_mod_cast h))) (edge_local hd hp ht) (by
      intro hg
      rcases hsmall with h | h
      · exact absurd hg ((touched_iff hd hp hr).mpr h)
      · exact h)
  unfold ghostEdges at h4
  simp only [nbr_share, ghostPin_leaves hd hp ht] at h4 h5 h6 h7 h8 h9
  exact ⟨q, cap, L, h1, h2, h3, h4, h5, h6, h7, h8, h9⟩

/-- the queue holds the boundary edges -/
theorem leaves_boundary {g : Graph} {p n : Nat} {hp : p < ins.length} {ghosts : List Gid}
    (hr : PartRep g p n ins[p] own ghosts) (es : List (List Gid)) :
    ((List.range es.length).filter (fun e => decide (Leaves own p es e))).map (fun e => g.getEdge e 0) =
      boundaryOf g es own := by
  unfold boundaryOf boundaryEdges
  congr 1
  apply List.filter_congr
  intro k _
  rw [decide_eq_decide]
  unfold Leaves
  rw [hr.rank]
  constructor
  · rintro ⟨v, h1, h2⟩; exact ⟨v, h1, fun h => h2 (by simpa using h)⟩
  · rintro ⟨v, h1, h2⟩; exact ⟨v, h1, fun h => h2 (by simpa using h)⟩

/-- a part with one or two edges of type 0 and no ghosts -/
theorem distQueue_small (push : Bool) (hd : HDist H ins own) {g : Graph} {p n : Nat} (hp : p < ins.length)
    {ghosts : List Gid} (hr : PartRep g p n ins[p] own ghosts) (ht : 0 < ins[p].types.length)
    (h0 : ¬ Touched own p ins[p]) (h1 : ins[p].types[0].pins.length = 1 ∨ ins[p].types[0].pins.length = 2) :
    distanceQueue push g = .ub := by
  have hc := hr.core
  rw [hd.hyper _ (List.getElem_mem hp)] at hc
  have hn := edgeCount_eq hc ht
  obtain ⟨et, het, hrt, -⟩ := hc.typ 0 ht
  have hg : ghosts = [] := by
    by_contra h
    exact h0 ((touched_iff hd hp hr).mp h)
  set N := ins[p].types[0].pins.length with hN
  have hst : (Mem.alloc N : Mem Nat).store 0 2 = .ok ((Mem.alloc N).set 0 (some 2)) := Mem.store_ok _ (by simp; omega)
  have hfs : firstSeeds g et ⟨Mem.alloc N, 0, [], 0, 0, [], [], []⟩ = .ok ⟨(Mem.alloc N).set 0 (some 2), 1, [], 0, 0, [], [], []⟩ := by
    unfold firstSeeds addSeed
    rw [if_pos (by rw [hc.v.ng, hg]; rfl), hst, Outcome.bind_ok]
    rfl
  rw [distanceQueue_eq push hn (by omega) (Graph.slot_ok het) hfs, if_neg (by omega)]
  obtain ⟨v1, e1, hv1⟩ := minusOnes_spec N
  have hld : Mem.load ((Mem.alloc N).set 0 (some 2)) 0 = .ok 2 := Mem.load_ok (by
    rw [Mem.getElem?_set', if_pos rfl, if_pos (by simp; omega)])
  have hsd : setDepth 0 0 ⟨(Mem.alloc N).set 0 (some 2), 1, v1, 0, 0, [], [], []⟩ = .ub := by
    unfold setDepth
    simp only [Nat.sub_zero, List.range'_one, List.foldlM_cons]
    rw [hld, Outcome.bind_ok]
    have : v1.store 2 0 = .ub := by
      unfold Mem.store
      rw [if_neg (by rw [hv1.len]; omega)]
    rw [this]
    rfl
  have hb : bfsRun push g 0 0 depthVisit ⟨(Mem.alloc N).set 0 (some 2), 1, v1, 0, 0, [], [], []⟩ = .ub := by
    unfold bfsRun
    cases push with
    | true =>
      rw [if_pos rfl]
      unfold bfsPush
      obtain ⟨tag, et', -⟩ := pushTag g
      rw [et', Outcome.bind_ok, hsd]
      rfl
    | false =>
      rw [if_neg (by simp)]
      unfold bfsPull
      rw [Graph.slot_ok het, Outcome.bind_ok, hsd]
      rfl
  unfold searches
  rw [e1, Outcome.bind_ok, hb]
  rfl

end
end Verif.Part
