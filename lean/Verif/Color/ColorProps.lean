import Verif.Color.ColorEve
/-!
# Property theorems C62: `EnGPar_KokkosColoring`
-/
namespace Verif.Color
open Verif.Agi Verif.Part

theorem rowsFrom_eq {rows : List (List Nat)} :
    rowsFrom rows.length ((List.range (rows.length + 1)).map (fun k => (rows.take k).flatten.length)) rows.flatten = rows := by
  unfold rowsFrom
  apply List.ext_getElem
  · simp
  · intro k h1 h2
    simp only [List.getElem_map, List.getElem_range]
    rw [getD_range _ (by omega), getD_range _ (by omega), take_succ_length h2, Nat.add_sub_cancel_left]
    have hs : rows.flatten = (rows.take k).flatten ++ (rows[k] ++ (rows.drop (k + 1)).flatten) := by
      conv => lhs; rw [← List.take_append_drop k rows, List.flatten_append, List.drop_eq_getElem_cons h2, List.flatten_cons]
    rw [hs, List.drop_left, List.take_left]

theorem colorRows_spec {E : Env} (hE : E.Ok) {d l : Mem Nat} {rows : List (List Nat)} (hr : Rows d l rows) (hs : Simple rows.length rows) :
    ∃ c, colorRows E rows.length (some d) l = .ok c ∧ Proper rows.length rows c := by
  obtain ⟨h1, h2⟩ := hr
  refine ⟨E.color rows.length rows, ?_, hE.color _ _ hs⟩
  unfold colorRows
  simp only [deref, Outcome.ofOption_some, Outcome.bind_ok]
  rw [h1, hostToDevice_ok (by simp), List.take_of_length_le (by simp), Outcome.bind_ok, Mem.load_ofList (by simp), Outcome.bind_ok]
  simp only [List.getElem_map, List.getElem_range, List.take_length]
  rw [h2, hostToDevice_ok (by simp), List.take_of_length_le (by simp), Outcome.bind_ok, rowsFrom_eq, if_pos]
  · rfl
  · intro row hrow j hj
    obtain ⟨k, hk, rfl⟩ := List.mem_iff_getElem.mp hrow
    exact (hs.2 k hk j (by rw [List.getD_eq_getElem?_getD, List.getElem?_eq_getElem hk]; exact hj)).1

section
variable {g : Graph} {verts ghosts : List Gid} {types : List EdgeInput}

/-- colouring the edges of a type on a part whose edges of that type have all their pins on the part -/
theorem color_edges (hc : CRep g true verts ghosts types) {t : Nat} (ht : t < types.length)
    (hloc : ∀ v ∈ types[t].pins.flatten, v ∈ verts) {E : Env} (hE : E.Ok) :
    ∃ c, kokkosColoring E g ⟨false, t⟩ = .ok (0, c) ∧ c.length = types[t].pins.length ∧
      ∀ j k (hj : j < types[t].pins.length) (hk : k < types[t].pins.length), j ≠ k →
        (∃ v, v ∈ types[t].pins[j] ∧ v ∈ types[t].pins[k]) → c.getD j 0 ≠ c.getD k 0 := by
  obtain ⟨e, d, l, rows, hs, hn, hp, hr, hl, hm⟩ := parallelEve_spec hc ht hloc hE
  have hsimple : Simple rows.length rows := by
    refine ⟨rfl, ?_⟩
    intro k hk j hj
    rw [List.getD_eq_getElem?_getD, List.getElem?_eq_getElem hk] at hj
    obtain ⟨h1, v, hv, h2, h3⟩ := ((hm k hk).2 j).mp hj
    have hjl : j < rows.length := by
      by_contra hcon
      rw [List.getD_eq_getElem?_getD, List.getElem?_eq_none (by omega)] at h3
      simp at h3
    refine ⟨hjl, h1, ?_⟩
    rw [List.getD_eq_getElem?_getD, List.getElem?_eq_getElem hjl]
    exact ((hm j hjl).2 k).mpr ⟨Ne.symm h1, v, hv, h3, h2⟩
  obtain ⟨c, hcol, hprop⟩ := colorRows_spec hE hr hsimple
  have htl : t < g.types.length := by
    obtain ⟨e0, he0, -⟩ := hc.typ t ht
    by_contra hcon
    rw [List.getElem?_eq_none (by omega)] at he0
    simp at he0
  refine ⟨c, ?_, by rw [hprop.1, hl], ?_⟩
  · unfold kokkosColoring
    simp only [Bool.false_eq_true, if_false]
    rw [if_neg (by rw [hc.hyp]; simp), hp, Outcome.bind_ok, slot_set htl, Outcome.bind_ok]
    simp only
    rw [hn, ← hl, hcol, Outcome.bind_ok]
    rfl
  · rintro j k hj hk hjk ⟨v, hvj, hvk⟩
    apply hprop.2 j (by omega) k
    rw [List.getD_eq_getElem?_getD, List.getElem?_eq_getElem (by omega)]
    refine ((hm j (by omega)).2 k).mpr ⟨Ne.symm hjk, v, hloc v (List.mem_flatten.mpr ⟨_, List.getElem_mem hj, hvj⟩), ?_, ?_⟩
    · simpa [hj] using hvj
    · simpa [hk] using hvk

theorem color_edges_ub (hc : CRep g true verts ghosts types) {t : Nat} (ht : t < types.length)
    (hgh : ∃ v ∈ types[t].pins.flatten, v ∉ verts) (E : Env) : kokkosColoring E g ⟨false, t⟩ = .ub := by
  unfold kokkosColoring
  simp only [Bool.false_eq_true, if_false]
  rw [if_neg (by rw [hc.hyp]; simp), parallelEve_ub hc ht hgh E]
  rfl


/-! ## vertices -/

/-- the pins of the edges of type 0 of `v` -/
def around (es : List (List Gid)) (v : Gid) : List Gid := es.flatMap (fun p => (List.replicate (p.count v) p).flatten)

theorem mem_around {es : List (List Gid)} {v w : Gid} : w ∈ around es v ↔ ∃ p ∈ es, v ∈ p ∧ w ∈ p := by
  simp only [around, List.mem_flatMap, List.mem_flatten, List.mem_replicate]
  constructor
  · rintro ⟨p, hp, q, ⟨h1, rfl⟩, hw⟩
    exact ⟨q, hp, List.count_pos_iff.mp (Nat.pos_of_ne_zero h1), hw⟩
  · rintro ⟨p, hp, hv, hw⟩
    exact ⟨p, hp, p, ⟨Nat.pos_iff_ne_zero.mp (List.count_pos_iff.mpr hv), rfl⟩, hw⟩

theorem gather_hyper (hc : CRep g true verts ghosts types) (ht : 0 < types.length) {u : Nat} (hu : u < verts.length) :
    GatherIs (vevGather g) (getVertex u) ((around types[0].pins (verts.getD u 0)).map (fun w => getVertex ((verts ++ ghosts).idxOf w))) := by
  have hadj : ((adjOf true (verts ++ ghosts) types[0].pins verts[u]).flatMap
        (pinRun g (verts ++ ghosts) 0 types[0].pins)).map Prod.fst =
      (around types[0].pins verts[u]).map (fun w => getVertex ((verts ++ ghosts).idxOf w)) := by
    have h1 := flatMap_zipIdx_replicate verts[u] types[0].pins (fun k => types[0].pins.getD k []) 0
      (fun k hk => by simp [hk])
    unfold around
    rw [← h1, List.map_flatMap, List.map_flatMap]
    unfold adjOf
    rw [if_pos rfl]
    apply List.flatMap_congr
    intro k _
    simp [pinRun]
  obtain ⟨it, h1, h2⟩ := adjRun_vertex' hc ht hu
  have h3 := h2.yields
  rw [hadj] at h3
  have h4 := adjRun_fuel hc ht verts[u]
  have h5 := congrArg List.length hadj
  simp only [List.length_map] at h5
  rw [show verts.getD u 0 = verts[u] by simp [hu]]
  exact gather_vev ⟨it, h1, h3⟩ (by rw [List.length_map, ← h5]; exact h4)

/-- what `create_vev_adjacency(t)` makes, for any type `t` -/
theorem vev_rows (hc : CRep g true verts ghosts types) {t : Nat} (ht : t < types.length) {E : Env} (hE : E.Ok) :
    ∃ e d l rows, g.slot t = .ok e ∧ createVev g t true E.ord = .ok { g with types := g.types.set t (some { e with vevOffsets := some d, vevLists := l }) } ∧
      Rows d l rows ∧ rows.length = verts.length ∧ ∀ u (hu : u < rows.length) (hu' : u < verts.length), ∀ j, j ∈ rows[u] ↔
        j ≠ u ∧ ∃ p ∈ types[0].pins, ∃ w ∈ p, verts[u] ∈ p ∧ j = (verts ++ ghosts).idxOf w := by
  have h0 : 0 < types.length := by omega
  obtain ⟨e, he, h1⟩ := createVev_gen hc ht (L := fun u => (around types[0].pins (verts.getD u 0)).map (fun w => getVertex ((verts ++ ghosts).idxOf w)))
    (fun u hu => gather_hyper hc h0 hu) (by
      intro u _ x hx
      obtain ⟨w, -, rfl⟩ := List.mem_map.mp hx
      simp [getVertex]) true hE.ord
  set R := rowsOf true E.ord ((List.range verts.length).map getVertex)
    (fun u => (around types[0].pins (verts.getD u 0)).map (fun w => getVertex ((verts ++ ghosts).idxOf w))) with hR
  have hRl : R.length = verts.length := by simp [hR, rowsOf]
  refine ⟨e, _, _, R.map (fun r => r.map (fun x => x - 1)), he, h1, ⟨?_, ?_⟩, by simpa using hRl, ?_⟩
  · rw [List.length_map, hRl]
    congr 1
    apply List.map_congr_left
    intro k _
    rw [← List.map_take, List.length_flatten, List.length_flatten, List.map_map]
    congr 1
    apply List.map_congr_left
    intro r _
    simp
  · congr 1
    rw [List.map_flatten]
  · intro u hu hu' j
    have hRu : R[u]'(by simpa using hu) = E.ord (getVertex u) ((dedupL ((around types[0].pins verts[u]).map
        (fun w => getVertex ((verts ++ ghosts).idxOf w)))).erase (getVertex u)) := by
      simp only [hR, rowsOf, rowOf, if_true, List.getElem_map, List.getElem_range]
      rw [getD_range _ hu', show verts.getD u 0 = verts[u] by simp [hu']]
    rw [List.getElem_map, List.mem_map, hRu]
    have hnd := nodup_dedupL ((around types[0].pins verts[u]).map (fun w => getVertex ((verts ++ ghosts).idxOf w)))
    constructor
    · rintro ⟨x, hx, rfl⟩
      have hx := (hE.ord _ _).mem_iff.mp hx
      rw [hnd.mem_erase_iff] at hx
      obtain ⟨hne, hx⟩ := hx
      obtain ⟨w, hw, rfl⟩ := List.mem_map.mp (mem_dedupL.mp hx)
      obtain ⟨p, hp, h2, h3⟩ := mem_around.mp hw
      refine ⟨?_, p, hp, w, h3, h2, by simp [getVertex]⟩
      intro hc'
      apply hne
      simp only [getVertex] at hc' ⊢
      omega
    · rintro ⟨hne, p, hp, w, hw, hv, rfl⟩
      refine ⟨getVertex ((verts ++ ghosts).idxOf w), ?_, by simp [getVertex]⟩
      rw [(hE.ord _ _).mem_iff, hnd.mem_erase_iff]
      refine ⟨?_, mem_dedupL.mpr (List.mem_map.mpr ⟨w, mem_around.mpr ⟨p, hp, hv, hw⟩, rfl⟩)⟩
      intro hc'
      apply hne
      simp only [getVertex] at hc'
      omega

theorem color_verts (hc : CRep g true verts ghosts types) {t : Nat} (ht : t < types.length)
    (hloc : ∀ v ∈ (types[0]'(by omega)).pins.flatten, v ∈ verts) {E : Env} (hE : E.Ok) :
    ∃ c, kokkosColoring E g ⟨true, t⟩ = .ok (0, c) ∧ c.length = verts.length ∧
      ∀ j k (hj : j < verts.length) (hk : k < verts.length), j ≠ k →
        (∃ p ∈ (types[0]'(by omega)).pins, verts[j] ∈ p ∧ verts[k] ∈ p) → c.getD j 0 ≠ c.getD k 0 := by
  obtain ⟨e, d, l, rows, hs, hp, hr, hl, hm⟩ := vev_rows hc ht hE
  have hnd : verts.Nodup := (List.nodup_append.mp hc.v.nodup).1
  have hidx : ∀ k (hk : k < verts.length), (verts ++ ghosts).idxOf verts[k] = k := by
    intro k hk
    rw [List.idxOf_append_of_mem (List.getElem_mem hk)]
    exact hnd.idxOf_getElem k hk
  have hsimple : Simple rows.length rows := by
    refine ⟨rfl, ?_⟩
    intro k hk j hj
    rw [List.getD_eq_getElem?_getD, List.getElem?_eq_getElem hk] at hj
    obtain ⟨h1, p, hpp, w, hw, hv, rfl⟩ := (hm k hk (by omega) j).mp hj
    obtain ⟨i, hi, rfl⟩ := List.mem_iff_getElem.mp (hloc w (List.mem_flatten.mpr ⟨p, hpp, hw⟩))
    rw [hidx i hi] at h1 ⊢
    refine ⟨by omega, h1, ?_⟩
    rw [List.getD_eq_getElem?_getD, List.getElem?_eq_getElem (by omega)]
    exact (hm i (by omega) hi k).mpr ⟨Ne.symm h1, p, hpp, verts[k]'(by omega), hv, hw, (hidx k (by omega)).symm⟩
  obtain ⟨c, hcol, hprop⟩ := colorRows_spec hE hr hsimple
  have htl : t < g.types.length := by
    obtain ⟨e0, he0, -⟩ := hc.typ t ht
    by_contra hcon
    rw [List.getElem?_eq_none (by omega)] at he0
    simp at he0
  refine ⟨c, ?_, by rw [hprop.1, hl], ?_⟩
  · unfold kokkosColoring
    simp only [if_true]
    rw [hp, Outcome.bind_ok, slot_set htl, Outcome.bind_ok]
    simp only
    rw [hc.v.nl, ← hl, hcol, Outcome.bind_ok]
    rfl
  · rintro j k hj hk hjk ⟨p, hpp, hvj, hvk⟩
    apply hprop.2 j (by omega) k
    rw [List.getD_eq_getElem?_getD, List.getElem?_eq_getElem (by omega)]
    exact (hm j (by omega) hj k).mpr ⟨Ne.symm hjk, p, hpp, verts[k], hvk, hvj, (hidx k hk).symm⟩

/-- a neighbour on another part is outside the graph handed to `graph_color` -/
theorem color_verts_ub (hc : CRep g true verts ghosts types) {t : Nat} (ht : t < types.length)
    (hgh : ∃ p ∈ (types[0]'(by omega)).pins, (∃ v ∈ p, v ∈ verts) ∧ ∃ w ∈ p, w ∉ verts) {E : Env} (hE : E.Ok) :
    kokkosColoring E g ⟨true, t⟩ = .ub := by
  obtain ⟨e, d, l, rows, hs, hp, ⟨hr1, hr2⟩, hl, hm⟩ := vev_rows hc ht hE
  have htl : t < g.types.length := by
    obtain ⟨e0, he0, -⟩ := hc.typ t ht
    by_contra hcon
    rw [List.getElem?_eq_none (by omega)] at he0
    simp at he0
  unfold kokkosColoring
  simp only [if_true]
  rw [hp, Outcome.bind_ok, slot_set htl, Outcome.bind_ok]
  simp only
  rw [hc.v.nl, ← hl]
  have : colorRows E rows.length (some d) l = .ub := by
    unfold colorRows
    simp only [deref, Outcome.ofOption_some, Outcome.bind_ok]
    rw [hr1, hostToDevice_ok (by simp), List.take_of_length_le (by simp), Outcome.bind_ok, Mem.load_ofList (by simp), Outcome.bind_ok]
    simp only [List.getElem_map, List.getElem_range, List.take_length]
    rw [hr2, hostToDevice_ok (by simp), List.take_of_length_le (by simp), Outcome.bind_ok, rowsFrom_eq, if_neg]
    intro hall
    obtain ⟨p, hpp, ⟨v, hv, hvv⟩, w, hw, hwn⟩ := hgh
    obtain ⟨u, hu, rfl⟩ := List.mem_iff_getElem.mp hvv
    have hge : verts.length ≤ (verts ++ ghosts).idxOf w := by
      rw [List.idxOf_append_of_notMem hwn]; omega
    have := hall _ (List.getElem_mem (show u < rows.length by omega)) _ ((hm u (by omega) hu ((verts ++ ghosts).idxOf w)).mpr
      ⟨by omega, p, hpp, w, hw, hv, rfl⟩)
    omega
  rw [this]
  rfl

end

/-! ## the property -/

/-- all calls of a user -/
def colored (E : Env) (me : Part) (peers : Nat) (total : Int) (i : Input) (t : Nat) (vtx : Bool) : Outcome (Int × List Nat) := do
  let g ← build me peers total i
  let c ← mkInput g t vtx
  kokkosColoring E g c

/-- **C62 (edges, partial).**  On a hypergraph part and for any of its edge types whose edges have all pins on the part: whatever
the schedules of the kernels, the hash map's slots and the order of its keys, the colouring of the edges succeeds, has one colour
per edge, and edges sharing a vertex have different colours.  Missing: parts with cut edges, where it is undefined behaviour
(`c62_edges_cut_ub`); the number returned is always 0. -/
theorem c62_edges_partial (me : Part) (peers : Nat) (total : Int) (i : Input) (hwf : i.WF) (hh : i.hyper = true) {t : Nat} (ht : t < i.types.length)
    (hloc : ∀ v ∈ i.types[t].pins.flatten, v ∈ i.verts) (E : Env) (hE : E.Ok) :
    ∃ c, colored E me peers total i t false = .ok (0, c) ∧ c.length = i.types[t].pins.length ∧
      ∀ j k (hj : j < i.types[t].pins.length) (hk : k < i.types[t].pins.length), j ≠ k →
        (∃ v, v ∈ i.types[t].pins[j] ∧ v ∈ i.types[t].pins[k]) → c.getD j 0 ≠ c.getD k 0 := by
  obtain ⟨g, ghosts, e, hr⟩ := build_spec me peers total i hwf
  have hc := hr.core hwf
  rw [hh] at hc
  obtain ⟨c, h1, h2⟩ := color_edges hc ht hloc hE
  refine ⟨c, ?_, h2⟩
  unfold colored mkInput
  rw [e, Outcome.bind_ok, if_pos (by rw [hc.numTypes]; exact ht), Outcome.bind_ok]
  exact h1

/-- **C62: edge colouring of a part with a cut edge** reads past the end of `edge_list`
(partition/Coloring/engpar_kokkosColoring.cpp:37-39: the view has `num_local_pins` entries, the array only one per incidence
with a vertex of the part): undefined behaviour, always. -/
theorem c62_edges_cut_ub (me : Part) (peers : Nat) (total : Int) (i : Input) (hwf : i.WF) (hh : i.hyper = true) {t : Nat} (ht : t < i.types.length)
    (hcut : ∃ v ∈ i.types[t].pins.flatten, v ∉ i.verts) (E : Env) : colored E me peers total i t false = .ub := by
  obtain ⟨g, ghosts, e, hr⟩ := build_spec me peers total i hwf
  have hc := hr.core hwf
  rw [hh] at hc
  unfold colored mkInput
  rw [e, Outcome.bind_ok, if_pos (by rw [hc.numTypes]; exact ht), Outcome.bind_ok]
  exact color_edges_ub hc ht hcut E

/-- **C62 (vertices, partial).**  On a hypergraph part whose edges of type 0 have all their pins on the part, colouring the
vertices with respect to type 0 succeeds, has one colour per vertex, and vertices sharing an edge have different colours.
Missing: other types, for which the colours are those of type 0 (`c62_vertices_other_type`), and parts with cut edges, where it is
undefined behaviour (`c62_vertices_cut_ub`). -/
theorem c62_vertices_partial (me : Part) (peers : Nat) (total : Int) (i : Input) (hwf : i.WF) (hh : i.hyper = true) (ht : 0 < i.types.length)
    (hloc : ∀ v ∈ i.types[0].pins.flatten, v ∈ i.verts) (E : Env) (hE : E.Ok) :
    ∃ c, colored E me peers total i 0 true = .ok (0, c) ∧ c.length = i.verts.length ∧
      ∀ j k (hj : j < i.verts.length) (hk : k < i.verts.length), j ≠ k →
        (∃ p ∈ i.types[0].pins, i.verts[j] ∈ p ∧ i.verts[k] ∈ p) → c.getD j 0 ≠ c.getD k 0 := by
  obtain ⟨g, ghosts, e, hr⟩ := build_spec me peers total i hwf
  have hc := hr.core hwf
  rw [hh] at hc
  obtain ⟨c, h1, h2⟩ := color_verts hc ht hloc hE
  refine ⟨c, ?_, h2⟩
  unfold colored mkInput
  rw [e, Outcome.bind_ok, if_pos (by rw [hc.numTypes]; exact ht), Outcome.bind_ok]
  exact h1

/-- **C62: vertex colouring of a part with a cut edge of type 0** hands `graph_color` neighbours that are not among the entities to
colour (ghosts have numbers from `num_local_verts` on): undefined behaviour, for every type. -/
theorem c62_vertices_cut_ub (me : Part) (peers : Nat) (total : Int) (i : Input) (hwf : i.WF) (hh : i.hyper = true) {t : Nat} (ht : t < i.types.length)
    (hcut : ∃ p ∈ (i.types[0]'(by omega)).pins, (∃ v ∈ p, v ∈ i.verts) ∧ ∃ w ∈ p, w ∉ i.verts) (E : Env) (hE : E.Ok) :
    colored E me peers total i t true = .ub := by
  obtain ⟨g, ghosts, e, hr⟩ := build_spec me peers total i hwf
  have hc := hr.core hwf
  rw [hh] at hc
  unfold colored mkInput
  rw [e, Outcome.bind_ok, if_pos (by rw [hc.numTypes]; exact ht), Outcome.bind_ok]
  exact color_verts_ub hc ht hcut hE

/-- the parallel construction itself: offsets and lists of the edges of the type, each other edge that shares a vertex once -/
theorem c62_eve_partial (me : Part) (peers : Nat) (total : Int) (i : Input) (hwf : i.WF) (hh : i.hyper = true) {t : Nat} (ht : t < i.types.length)
    (hloc : ∀ v ∈ i.types[t].pins.flatten, v ∈ i.verts) (E : Env) (hE : E.Ok) :
    ∃ g g' e' d l rows, build me peers total i = .ok g ∧ parallelEve E g t = .ok g' ∧ g'.slot t = .ok e' ∧
      e'.eveOffsets = some d ∧ e'.eveLists = l ∧ Rows d l rows ∧ rows.length = i.types[t].pins.length ∧
      ∀ k (hk : k < rows.length) (hk' : k < i.types[t].pins.length), rows[k].Nodup ∧ ∀ j, j ∈ rows[k] ↔
        j ≠ k ∧ ∃ hj : j < i.types[t].pins.length, ∃ v ∈ i.verts, v ∈ i.types[t].pins[k] ∧ v ∈ i.types[t].pins[j] := by
  obtain ⟨g, ghosts, e, hr⟩ := build_spec me peers total i hwf
  have hc := hr.core hwf
  rw [hh] at hc
  obtain ⟨e', d, l, rows, hs, hn, hp, hrr, hl, hm⟩ := parallelEve_spec hc ht hloc hE
  have htl : t < g.types.length := by
    obtain ⟨e0, he0, -⟩ := hc.typ t ht
    by_contra hcon
    rw [List.getElem?_eq_none (by omega)] at he0
    simp at he0
  refine ⟨g, _, _, d, l, rows, e, hp, slot_set htl, rfl, rfl, hrr, hl, ?_⟩
  intro k hk hk'
  refine ⟨(hm k hk).1, fun j => ?_⟩
  rw [(hm k hk).2 j]
  constructor
  · rintro ⟨h1, v, hv, h2, h3⟩
    have hj : j < i.types[t].pins.length := by
      by_contra hcon
      rw [List.getD_eq_getElem?_getD, List.getElem?_eq_none (by omega)] at h3
      simp at h3
    exact ⟨h1, hj, v, hv, by simpa [hk'] using h2, by simpa [hj] using h3⟩
  · rintro ⟨h1, hj, v, hv, h2, h3⟩
    exact ⟨h1, v, hv, by simpa [hk'] using h2, by simpa [hj] using h3⟩

/-! ## the hypotheses are met; where the property fails -/

/-- an environment: reversed slots with holes, threads in odd orders, and a `graph_color` that uses one colour if it may -/
def sampleKokkos : Env where
  cap := fun n => n + n / 6
  slots := fun l => none :: (l.reverse.map some ++ [none])
  s2 := [1, 0, 1, 2]
  s3 := [3, 1]
  s4 := [4, 2, 4, 1, 1, 2, 2, 3, 4, 1]
  ord := fun _ l => l.reverse
  color := fun n rows => if rows.all List.isEmpty then List.replicate n 1 else List.range n

theorem sampleKokkos_ok : sampleKokkos.Ok where
  cap := fun n => Nat.le_add_right _ _
  slots := fun l => by
    have : (sampleKokkos.slots l).filterMap id = l.reverse := by simp [sampleKokkos, List.filterMap_append, List.filterMap_map]
    rw [this]
    exact List.reverse_perm l
  ord := fun _ l => List.reverse_perm l
  color := by
    intro n rows hs
    simp only [sampleKokkos]
    by_cases he : rows.all List.isEmpty = true
    · rw [if_pos he]
      refine ⟨by simp, ?_⟩
      intro k hk j hj
      rw [List.getD_eq_getElem?_getD, List.getElem?_eq_getElem (by rw [hs.1]; exact hk)] at hj
      have := List.all_eq_true.mp he _ (List.getElem_mem (show k < rows.length by rw [hs.1]; exact hk))
      rw [List.isEmpty_iff] at this
      simp [this] at hj
    · rw [if_neg he]
      refine ⟨by simp, ?_⟩
      intro k hk j hj
      obtain ⟨h1, h2, -⟩ := hs.2 k hk j hj
      simp [hk, h1]
      omega

/-- one part: a path of three edges, and a second type joining its ends -/
def chain : Input :=
  { hyper := true, verts := [1, 2, 3, 4], wgts := [], types := [⟨[100, 101, 102], [[1, 2], [2, 3], [3, 4]], []⟩, ⟨[200, 201], [[1, 4], [4, 2, 2]], []⟩] }

theorem chain_wf : chain.WF := by
  refine ⟨by decide, by decide, ?_⟩
  intro e he
  simp only [chain, List.mem_cons, List.not_mem_nil, or_false] at he
  rcases he with rfl | rfl <;> exact ⟨by decide, by decide, by decide⟩

example : ∃ c, colored sampleKokkos 0 1 4 chain 1 false = .ok (0, c) ∧ c.length = 2 ∧
    ∀ j k (hj : j < 2) (hk : k < 2), j ≠ k → (∃ v, v ∈ ([[1, 4], [4, 2, 2]] : List (List Int))[j] ∧ v ∈ ([[1, 4], [4, 2, 2]] : List (List Int))[k]) → c.getD j 0 ≠ c.getD k 0 :=
  c62_edges_partial 0 1 4 chain chain_wf rfl (t := 1) (by decide) (by decide) sampleKokkos sampleKokkos_ok

example : ∃ c, colored sampleKokkos 0 1 4 chain 0 true = .ok (0, c) ∧ c.length = 4 ∧
    ∀ j k (hj : j < 4) (hk : k < 4), j ≠ k → (∃ p ∈ ([[1, 2], [2, 3], [3, 4]] : List (List Int)), ([1, 2, 3, 4] : List Int)[j] ∈ p ∧ ([1, 2, 3, 4] : List Int)[k] ∈ p) → c.getD j 0 ≠ c.getD k 0 :=
  c62_vertices_partial 0 1 4 chain chain_wf rfl (by decide) (by decide) sampleKokkos sampleKokkos_ok

/-- the adjacency of the chain's edges after these schedules -/
example : (do
    let g ← build 0 1 4 chain
    let g ← parallelEve sampleKokkos g 0
    let e ← g.slot 0
    return (e.eveOffsets, e.eveLists)) = .ok (some (Mem.ofList [0, 1, 3, 4]), Mem.ofList [1, 2, 0, 1]) := by
  decide +kernel

/-- part 0 of the sample distribution has the cut edge {1, 2} -/
example : colored sampleKokkos 0 2 3 (sampleWorld[0]'(by decide)) 0 false = .ub ∧ colored sampleKokkos 0 2 3 (sampleWorld[0]'(by decide)) 0 true = .ub := by
  have hwf := sampleWorld_dist.wf _ (List.getElem_mem (show 0 < sampleWorld.length by decide))
  exact ⟨c62_edges_cut_ub 0 2 3 _ hwf rfl (t := 0) (by decide) ⟨2, by decide, by decide⟩ sampleKokkos,
    c62_vertices_cut_ub 0 2 3 _ hwf rfl (t := 0) (by decide) ⟨[1, 2], by decide, ⟨1, by decide, by decide⟩, 2, by decide, by decide⟩ sampleKokkos sampleKokkos_ok⟩

/-- **C62 fails for vertices and a type other than 0** (`create_vev_adjacency` looks at type 0, C13): without edges of type 0, the
two vertices of an edge of type 1 get the same colour from a correct `graph_color`. -/
theorem c62_vertices_other_type :
    colored sampleKokkos 0 1 2 { hyper := true, verts := [1, 2], wgts := [], types := [⟨[], [], []⟩, ⟨[200], [[1, 2]], []⟩] } 1 true =
      .ok (0, [1, 1]) := by
  decide +kernel

/-- **C62 fails for traditional graphs**: the neighbours of a vertex are the targets of its edges only, so that the rows are not
symmetric; a `graph_color` that is right on every simple graph may do anything.  Here the edge 1→2, coloured with one colour. -/
theorem c62_traditional :
    ∃ E : Env, E.Ok ∧
      colored E 0 1 2 { hyper := false, verts := [1, 2], wgts := [], types := [⟨[0], [[1, 2]], []⟩] } 0 true = .ok (0, [1, 1]) ∧
      colored E 0 1 2 { hyper := false, verts := [1, 2], wgts := [], types := [⟨[0], [[1, 2]], []⟩] } 0 false = .fail := by
  refine ⟨{ sampleKokkos with color := fun n rows => if rows = [[1], []] then [1, 1] else sampleKokkos.color n rows }, ?_, by decide +kernel, by decide +kernel⟩
  refine ⟨sampleKokkos_ok.cap, sampleKokkos_ok.slots, sampleKokkos_ok.ord, ?_⟩
  intro n rows hs
  simp only
  rw [if_neg]
  · exact sampleKokkos_ok.color n rows hs
  · rintro rfl
    obtain ⟨h1, h2⟩ := hs
    subst h1
    have := (h2 0 (by decide) 1 (by decide)).2.2
    exact absurd this (by decide)

end Verif.Color
