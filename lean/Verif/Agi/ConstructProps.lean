import Verif.Agi.Query
/-!
# Properties C01–C09: construction, handles and iteration

Inputs are lists: gids, weights and, per edge type, edge gids with their pin lists.
`build` performs `constructVerts` and one `constructEdges` per type; `Input.WF` says the input is
well formed (no gid twice, at most `MAX_TYPES` types, matching lengths, two pins per traditional edge).
-/
namespace Verif.Agi

/-- a hypergraph part: three local vertices, two edge types, ghosts 99 and 98 -/
def sampleH : Input :=
  { hyper := true, verts := [10, 20, 30], wgts := [4, 5],
    types := [⟨[1, 2], [[10, 20, 99], [20, 30]], []⟩, ⟨[5], [[30, 98, 30]], [2]⟩] }

/-- a traditional part: two local vertices, ghost 7; edges not grouped by source, one self-loop -/
def sampleT : Input :=
  { hyper := false, verts := [1, 2], wgts := [],
    types := [⟨[11, 12, 13, 14], [[2, 1], [1, 2], [2, 7], [2, 2]], [5, 7, 9, 6]⟩] }

theorem sampleH_wf : sampleH.WF := by
  refine ⟨by decide, by decide, ?_⟩
  intro e he
  simp only [sampleH, List.mem_cons, List.not_mem_nil, or_false] at he
  rcases he with rfl | rfl
  · exact ⟨by decide, by decide, by decide⟩
  · exact ⟨by decide, by decide, by decide⟩

theorem sampleT_wf : sampleT.WF := by
  refine ⟨by decide, by decide, ?_⟩
  intro e he
  simp only [sampleT, List.mem_cons, List.not_mem_nil, or_false] at he
  subst he
  exact ⟨by decide, by decide, by decide⟩

/-! ## C01 handles -/

/-- **C01**, vertices: a handle decodes to the local index it was made from, is not NULL, and different
vertices have different handles. -/
theorem c01_vertex_handles (l l' : Nat) :
    fromPtr (getVertex l) = some l ∧ getVertex l ≠ 0 ∧ (getVertex l = getVertex l' → l = l') := by
  simp [fromPtr, getVertex]

/-- **C01**, edges: a handle decodes to the type and local index it was made from, is not NULL, and
different (index, type) pairs have different handles, for every graph and every type of it. -/
theorem c01_edge_handles (g : Graph) (l l' t t' : Nat) (ht : t < g.numTypes) (ht' : t' < g.numTypes) :
    g.decodeEdge (g.getEdge l t) = .ok (t, l) ∧ g.getEdge l t ≠ 0 ∧
      (g.getEdge l t = g.getEdge l' t' → l = l' ∧ t = t') := by
  refine ⟨decode_getEdge ht, getEdge_pos _ _ _, fun h => ?_⟩
  have h1 := decode_getEdge (l := l) ht
  rw [h, decode_getEdge ht'] at h1
  simp only [Outcome.ok.injEq, Prod.mk.injEq] at h1
  exact ⟨h1.2.symm, h1.1.symm⟩

/-- the hypotheses are met by a graph with two edge types -/
example : (1 : Nat) < ({ emptyGraph 0 1 with numTypes := 2 } : Graph).numTypes := by decide

/-! ## C02 constructVerts -/

/-- **C02**: after `constructVerts(gids, weights)` (on any graph, whatever it held before) there is one
local vertex per gid: the `i`-th handle has the `i`-th gid and the supplied weight (1 if missing), looking
the gid up gives that handle, the calling part owns it, and there are no ghosts and no edges. -/
theorem c02_constructVerts (g0 : Graph) (isHG : Bool) (verts : List Gid) (wgts : List Wgt) (total : Int)
    (hnd : verts.Nodup) :
    ∃ g, constructVertsV g0 isHG verts wgts total = .ok g ∧ g.numLocal = verts.length ∧ g.numGhost = 0 ∧
      g.numTypes = 0 ∧ g.isHyper = isHG ∧ g.globalVerts = total ∧
      Yields g.iterVertex vertexBegin ((List.range verts.length).map getVertex) ∧
      ∀ i (h : i < verts.length),
        g.globalID (getVertex i) = .ok verts[i] ∧
        g.findGID verts[i] = .ok (getVertex i) ∧
        g.weight (getVertex i) = .ok (wgts.getD i 1) ∧
        g.owner (getVertex i) = .ok g0.self := by
  obtain ⟨g, e, hv, hg⟩ := constructVertsV_spec g0 isHG verts wgts total hnd
  have hw : g.weights = Mem.ofList (vertWeights verts wgts) := congrArg Graph.weights hg
  refine ⟨g, e, hv.nl, hv.ng, congrArg Graph.numTypes hg, congrArg Graph.isHyper hg,
    congrArg Graph.globalVerts hg, hv.nl ▸ yields_vertices g, ?_⟩
  intro i h
  have hl : i < (verts ++ ([] : List Gid)).length := by simpa using h
  refine ⟨?_, findGID_local hv h, ?_, ?_⟩
  · rw [globalID_idx hv hl]; simp
  · unfold Graph.weight
    rw [vidx_getVertex, Outcome.bind_ok, hv.nl, hv.ng, if_neg (by simp; omega), if_neg (by omega), hw,
      Mem.load_ofList (by simpa [vertWeights] using h)]
    simp only [vertWeights, List.getElem_map, List.getElem_range]
    split
    · rename_i hlt; simp [hlt]
    · rename_i hlt; simp [List.getElem?_eq_none (Nat.le_of_not_lt hlt)]
  · unfold Graph.owner
    simp only [getVertex, fromPtr, if_neg (Nat.succ_ne_zero _), Nat.add_sub_cancel]
    rw [hv.nl, hv.ng, if_neg (by simp; omega), if_pos h]
    have := congrArg Graph.self hg
    simp only [vertInit, emptyGraph] at this
    rw [this]

example : ([10, 20, 30] : List Gid).Nodup := by decide

/-- the array version of `constructVerts` does exactly the same (with a weight array of the right length
or a NULL one) -/
theorem c02_array_version (g0 : Graph) (isHG : Bool) (verts : List Gid) (wgts : List Wgt) (total : Int)
    (h : wgts = [] ∨ wgts.length = verts.length) :
    constructVertsA g0 isHG verts.length verts (if wgts = [] then none else some wgts) total =
      constructVertsV g0 isHG verts wgts total := constructVertsA_eq _ _ _ _ _ h

example : ([1, 2, 3] : List Wgt) = [] ∨ ([1, 2, 3] : List Wgt).length = ([7, 8, 9] : List Gid).length :=
  .inr rfl

/-! ## C03 hyperedges -/

/-- **C03**: on a hypergraph, for every type `t`: the pins of the `k`-th hyperedge are exactly its supplied
pin list in order (through `globalID`), its gid is the supplied one, its degree the number of pins; and for
a local vertex `v`, `edges(v,t)` yields the hyperedges pinning `v`, each as often as it pins `v`, in input
order, and `degree(v,t)` is their number. -/
theorem c03_hyperedges (me : Part) (peers : Nat) (total : Int) (i : Input) (hwf : i.WF)
    (hh : i.hyper = true) :
    ∃ g, build me peers total i = .ok g ∧ ∀ t (ht : t < i.types.length),
      g.numLocalEdges t = .ok i.types[t].pins.length ∧
      (∀ k (hk : k < i.types[t].pins.length),
        g.globalIDE (g.getEdge k t) = .ok (i.types[t].ids.getD k 0) ∧
        g.degreeE (g.getEdge k t) = .ok ((i.types[t].pins[k].length : Nat) : Int) ∧
        ∃ hs, YieldsFrom (g.pins (g.getEdge k t)) g.iterPin hs ∧
          hs.mapM g.globalID = .ok i.types[t].pins[k]) ∧
      (∀ v ∈ i.verts, ∃ hv hs, g.findGID v = .ok hv ∧ YieldsFrom (g.edges hv t) g.iterEdge hs ∧
        hs = i.types[t].pins.zipIdx.flatMap (fun p => List.replicate (p.1.count v) (g.getEdge p.2 t)) ∧
        g.degreeV hv t = .ok ((hs.length : Nat) : Int)) := by
  obtain ⟨g, ghosts, e, hr⟩ := build_spec me peers total i hwf
  have hc := hr.core hwf
  rw [hh] at hc
  refine ⟨g, e, fun t ht => ⟨numEdges_eq hc ht, ?_, ?_⟩⟩
  · intro k hk
    have hk' : k < i.types[t].ids.length := by rw [(hc.wf _ (List.getElem_mem ht)).ids_len]; exact hk
    refine ⟨?_, degreeE_hyper hc ht hk, _, yields_pins_hyper hc ht hk, ?_⟩
    · rw [globalIDE_hyper hc ht hk']; simp [hk']
    · rw [List.mapM_map]
      rw [mapM_ok (g := fun v => v)]
      · simp
      · intro v hv
        refine globalID_eq hc.v (hc.pins t ht v ?_)
        rw [List.mem_flatten]
        exact ⟨_, List.getElem_mem hk, hv⟩
  · intro v hv
    obtain ⟨u, hu, rfl⟩ := List.mem_iff_getElem.mp hv
    refine ⟨_, _, findGID_local hc.v hu, yields_edges_hyper hc ht hu, ?_, ?_⟩
    · simp [adjOf, List.map_flatMap]
    · rw [degreeV_eq hc ht hu, List.length_map, adjOf_length]

example : sampleH.WF ∧ sampleH.hyper = true := ⟨sampleH_wf, rfl⟩

/-! ## C04 ghosts -/

/-- **C04**: the ghosts are the gids occurring in some edge of some type and not given as local vertices,
each exactly once, and nothing else; iterating the ghosts gives them, looking them up works, and their
handles are different from all local ones. -/
theorem c04_ghosts (me : Part) (peers : Nat) (total : Int) (i : Input) (hwf : i.WF) :
    ∃ g ghosts, build me peers total i = .ok g ∧
      ghosts.Nodup ∧ g.numGhost = ghosts.length ∧
      (∀ v, v ∈ ghosts ↔ (∃ e ∈ i.types, ∃ p ∈ e.pins, v ∈ p) ∧ v ∉ i.verts) ∧
      (∃ hs, Yields g.iterGhost g.ghostBegin hs ∧ hs.mapM g.globalID = .ok ghosts ∧
        ghosts.mapM g.findGID = .ok hs ∧
        ∀ u h, u < g.numLocal → h ∈ hs → getVertex u ≠ h) := by
  obtain ⟨g, ghosts, e, hr⟩ := build_spec me peers total i hwf
  have hc := hr.core hwf
  have hnd := hr.vrep.nodup
  have hmem := fun v => mem_extend i.verts i.allPins v
  rw [← hr.ghosts_eq] at hmem
  have hidx : ∀ k (hk : k < ghosts.length), (i.verts ++ ghosts)[i.verts.length + k]'(by simp; omega) = ghosts[k] := by
    intro k hk
    rw [List.getElem_append_right (by omega)]
    congr 1; omega
  refine ⟨g, ghosts, e, (List.nodup_append.mp hnd).2.1, hr.vrep.ng, ?_, ?_⟩
  · intro v
    have h1 : v ∈ i.allPins ↔ ∃ e ∈ i.types, ∃ p ∈ e.pins, v ∈ p := by
      simp [Input.allPins, List.mem_flatten]
    rw [← h1]
    have := hmem v
    rw [List.mem_append] at this
    constructor
    · intro hv
      have hnv : v ∉ i.verts := fun hv' => (List.nodup_append.mp hnd).2.2 v hv' v hv rfl
      exact ⟨by tauto, hnv⟩
    · rintro ⟨h2, h3⟩; tauto
  · refine ⟨_, yields_ghosts g, ?_, ?_, ?_⟩
    · rw [List.mapM_map, mapM_ok (g := fun k => ghosts.getD k 0)]
      · congr 1
        apply List.ext_getElem
        · simp [hr.vrep.ng]
        · intro k h1 h2; simp [h2]
      · intro k hk
        have hk' : k < ghosts.length := by rw [← hr.vrep.ng]; simpa using hk
        simp only [Function.comp]
        rw [hr.vrep.nl, globalID_idx hr.vrep (by simp; omega), hidx k hk']
        simp [hk']
    · have h1 : ∀ v ∈ ghosts, g.findGID v = .ok (getVertex ((i.verts ++ ghosts).idxOf v)) :=
        fun v hv => findGID_eq hr.vrep (by simp [hv])
      rw [mapM_ok h1]
      congr 1
      apply List.ext_getElem
      · simp [hr.vrep.ng]
      · intro k h1 h2
        simp only [List.length_map] at h1
        simp only [List.getElem_map, List.getElem_range]
        rw [hr.vrep.nl, ← hidx k h1, hnd.idxOf_getElem]
    · intro u h hu hh
      simp only [List.mem_map, List.mem_range] at hh
      obtain ⟨k, -, rfl⟩ := hh
      simp only [getVertex]; omega

example : sampleH.WF := sampleH_wf

/-! ## C05 handshake -/

theorem count_sum (verts : List Gid) (hnd : verts.Nodup) : ∀ (pins : List Gid),
    pins.length = (verts.map (fun v => pins.count v)).sum + (pins.filter (fun v => v ∉ verts)).length := by
  intro pins
  induction pins with
  | nil => simp
  | cons x pins ih =>
    have hone : ∀ (vs : List Gid), vs.Nodup → (vs.map (fun v => (x :: pins).count v)).sum =
        (vs.map (fun v => pins.count v)).sum + (if x ∈ vs then 1 else 0) := by
      intro vs
      induction vs with
      | nil => simp
      | cons a vs ihv =>
        intro hnd
        rw [List.nodup_cons] at hnd
        rw [List.map_cons, List.sum_cons, List.map_cons, List.sum_cons, ihv hnd.2, List.count_cons]
        by_cases hx : x = a
        · subst hx; simp [hnd.1]; omega
        · have : (x == a) = false := by simpa using hx
          simp only [this, List.mem_cons, hx, false_or, Bool.false_eq_true, if_false]
          omega
    rw [hone verts hnd, List.length_cons, ih]
    by_cases hx : x ∈ verts
    · simp [hx]; omega
    · simp [hx]; omega

/-- **C05**: on a hypergraph, for every type: `numLocalPins` is the sum of the hyperedge degrees, and it is
the sum of the local vertex degrees plus the number of pins that are not local vertices. -/
theorem c05_handshake (me : Part) (peers : Nat) (total : Int) (i : Input) (hwf : i.WF)
    (hh : i.hyper = true) :
    ∃ g, build me peers total i = .ok g ∧ ∀ t (ht : t < i.types.length),
      ∃ (n : Nat) (edgeDegs vtxDegs : List Int),
        g.numLocalPins t = .ok n ∧
        (List.range i.types[t].pins.length).mapM (fun k => g.degreeE (g.getEdge k t)) = .ok edgeDegs ∧
        (List.range i.verts.length).mapM (fun u => g.degreeV (getVertex u) t) = .ok vtxDegs ∧
        (n : Int) = edgeDegs.sum ∧
        (n : Int) = vtxDegs.sum + ((i.types[t].pins.flatten.filter (fun v => v ∉ i.verts)).length : Nat) ∧
        ∀ u (hu : u < i.verts.length), g.degreeV (getVertex u) t =
          .ok ((i.types[t].pins.flatten.count i.verts[u] : Nat) : Int) := by
  obtain ⟨g, ghosts, e, hr⟩ := build_spec me peers total i hwf
  have hc := hr.core hwf
  rw [hh] at hc
  refine ⟨g, e, fun t ht => ?_⟩
  have hd1 : (List.range i.types[t].pins.length).mapM (fun k => g.degreeE (g.getEdge k t)) =
      .ok ((List.range i.types[t].pins.length).map
        (fun k => (((i.types[t].pins.getD k []).length : Nat) : Int))) := by
    apply mapM_ok
    intro k hk
    have hk' : k < i.types[t].pins.length := by simpa using hk
    rw [degreeE_hyper hc ht hk']; simp [hk']
  have hd2 : (List.range i.verts.length).mapM (fun u => g.degreeV (getVertex u) t) =
      .ok ((List.range i.verts.length).map
        (fun u => ((i.types[t].pins.flatten.count (i.verts.getD u 0) : Nat) : Int))) := by
    apply mapM_ok
    intro u hu
    have hu' : u < i.verts.length := by simpa using hu
    rw [degreeV_eq hc ht hu']; simp [hu', degOf]
  have cast_sum : ∀ (l : List Nat), ((l.sum : Nat) : Int) = (l.map (fun n : Nat => (n : Int))).sum := by
    intro l; induction l with
    | nil => rfl
    | cons a l ih => simp [ih]
  refine ⟨_, _, _, numPins_eq hc ht, hd1, hd2, ?_, ?_, ?_⟩
  · rw [List.length_flatten, cast_sum, List.map_map]
    congr 1
    apply List.ext_getElem
    · simp
    · intro k h1 h2
      simp only [List.length_map] at h1
      simp [h1]
  · have h1 : (List.range i.verts.length).map
        (fun u => ((i.types[t].pins.flatten.count (i.verts.getD u 0) : Nat) : Int)) =
        (i.verts.map (fun v => i.types[t].pins.flatten.count v)).map (fun n : Nat => (n : Int)) := by
      apply List.ext_getElem
      · simp
      · intro k h1 h2
        simp only [List.length_map, List.length_range] at h1
        simp [h1]
    have h2 := count_sum i.verts hwf.nodup i.types[t].pins.flatten
    rw [h1, ← cast_sum]
    exact_mod_cast h2
  · intro u hu
    rw [degreeV_eq hc ht hu]; simp [degOf]

example : sampleH.WF ∧ sampleH.hyper = true := ⟨sampleH_wf, rfl⟩

/-! ## C06 traditional edges -/

/-- **C06**: on a traditional graph, `edges(v,t)` of a local vertex yields one edge per supplied edge with
source `v`, whose far ends are the supplied destinations in input order; `u` of each of them is `v`. -/
theorem c06_traditional_edges (me : Part) (peers : Nat) (total : Int) (i : Input) (hwf : i.WF)
    (hh : i.hyper = false) :
    ∃ g, build me peers total i = .ok g ∧ ∀ t (ht : t < i.types.length), ∀ v ∈ i.verts,
      ∃ hv hs, g.findGID v = .ok hv ∧ YieldsFrom (g.edges hv t) g.iterEdge hs ∧
        hs.mapM (fun e => do let w ← g.vOf e; g.globalID w) =
          .ok ((i.types[t].pins.filter (fun p => p[0]? == some v)).map (fun p => p.getD 1 0)) ∧
        (∀ e ∈ hs, g.uEdge e = .ok hv) ∧ g.degreeV hv t = .ok ((hs.length : Nat) : Int) := by
  obtain ⟨g, ghosts, e, hr⟩ := build_spec me peers total i hwf
  have hc := hr.core hwf
  rw [hh] at hc
  refine ⟨g, e, fun t ht v hv => ?_⟩
  obtain ⟨u, hu, rfl⟩ := List.mem_iff_getElem.mp hv
  refine ⟨_, _, findGID_local hc.v hu, yields_edges_trad hc ht hu, ?_, ?_, ?_⟩
  · set c := (fun u => degOf false i.types[t].pins (i.verts.getD u 0)) with hcdef
    have hl := adjOf_length false (i.verts ++ ghosts) i.types[t].pins i.verts[u]
    rw [List.mapM_map, mapM_ok (g := fun k => ((i.types[t].pins.filter
      (fun p => p[0]? == some i.verts[u])).map (fun p => p.getD 1 0)).getD (k - offs c u) 0)]
    · congr 1
      apply List.ext_getElem
      · simp only [List.length_map, List.length_range', ← hl, adjOf]; simp
      · intro k h1 h2
        simp only [List.getElem_map, List.getElem_range', Nat.one_mul, Nat.add_sub_cancel_left]
        rw [List.getD_eq_getElem?_getD, List.getElem?_eq_getElem (by simpa using h2)]
        simp
    · intro k hk
      rw [List.mem_range'_1] at hk
      obtain ⟨m, rfl⟩ : ∃ m, k = offs c u + m := ⟨k - offs c u, by omega⟩
      have hm : m < (adjOf false (i.verts ++ ghosts) i.types[t].pins i.verts[u]).length := by omega
      simp only [Function.comp]
      rw [hcdef, vOf_eq hc ht hu hm, Outcome.bind_ok, Nat.add_sub_cancel_left]
      have hadj : (adjOf false (i.verts ++ ghosts) i.types[t].pins i.verts[u])[m] =
          (i.verts ++ ghosts).idxOf (((i.types[t].pins.filter
            (fun p => p[0]? == some i.verts[u])).map (fun p => p.getD 1 0)).getD m 0) := by
        have hm2 : m < (i.types[t].pins.filter (fun p => p[0]? == some i.verts[u])).length := by
          simpa [adjOf] using hm
        rw [List.getD_eq_getElem?_getD, List.getElem?_eq_getElem (by simpa using hm2)]
        simp [adjOf]
      rw [hadj]
      refine globalID_eq hc.v (hc.pins t ht _ ?_)
      have hm2 : m < (i.types[t].pins.filter (fun p => p[0]? == some i.verts[u])).length := by
        simpa [adjOf] using hm
      rw [List.getD_eq_getElem?_getD, List.getElem?_eq_getElem (by simpa using hm2)]
      simp only [List.getElem_map, Option.getD_some]
      set p := (i.types[t].pins.filter (fun p => p[0]? == some i.verts[u]))[m] with hp
      have hpm : p ∈ i.types[t].pins := (List.mem_filter.mp (List.getElem_mem hm2)).1
      have hpl := (hc.wf _ (List.getElem_mem ht)).two rfl p hpm
      rw [List.mem_flatten]
      refine ⟨p, hpm, ?_⟩
      rw [List.getD_eq_getElem?_getD, List.getElem?_eq_getElem (by omega)]
      exact List.getElem_mem _
  · intro e he
    simp only [List.mem_map] at he
    obtain ⟨k, hk, rfl⟩ := he
    rw [List.mem_range'_1] at hk
    obtain ⟨m, rfl⟩ : ∃ m, k = offs (fun u => degOf false i.types[t].pins (i.verts.getD u 0)) u + m :=
      ⟨k - offs (fun u => degOf false i.types[t].pins (i.verts.getD u 0)) u, by omega⟩
    exact uEdge_eq hc ht hu (by omega)
  · rw [degreeV_eq hc ht hu]; simp

example : sampleT.WF ∧ sampleT.hyper = false := ⟨sampleT_wf, rfl⟩

end Verif.Agi
