import Verif.Part.SecondLemmas
import Verif.Agi.ResidenceProps
/-!
# Property C13: second adjacencies

For the edge type 0 the second adjacencies are right (`c13_vev_hyper_partial`, `c13_vev_trad_partial`,
`c13_eve_hyper_partial`).  For every other type they are wrong: the lists created for a type are those of type 0
(`c13_vev_ignores_type`) and the loop over them never ends (`c13_vev_other_type_endless`,
`c13_eve_other_type_endless`).
-/
namespace Verif.Part
open Verif.Agi

section
variable {g : Graph} {verts ghosts : List Gid} {types : List EdgeInput} {hyper : Bool}

theorem alloc_zero (n : Nat) : (Mem.alloc (n + 1) : Mem Nat).store 0 0 = .ok (Mem.ofList [0] ++ Mem.alloc n) := by
  have := Io.store_next (α := Nat) [] n 0
  simpa [Mem.ofList] using this

theorem load_total {rows : List (List Handle)} {n : Nat} (h : rows.length = n) :
    (Mem.ofList ((List.range (n + 1)).map (fun k => (rows.take k).flatten.length))).load n = .ok rows.flatten.length := by
  rw [Mem.load_ofList (by simp)]
  congr 1
  simp only [List.getElem_map, List.getElem_range]
  rw [List.take_of_length_le (by omega)]

theorem load_off {rows : List (List Handle)} {n k : Nat} (hk : k ≤ n) :
    (Mem.ofList ((List.range (n + 1)).map (fun k => (rows.take k).flatten.length))).load k =
      .ok (rows.take k).flatten.length := by
  rw [Mem.load_ofList (by simp; omega)]
  simp

theorem take_succ_length {rows : List (List Handle)} {k : Nat} (hk : k < rows.length) :
    (rows.take (k + 1)).flatten.length = (rows.take k).flatten.length + rows[k].length := by
  rw [List.take_add_one, List.getElem?_eq_getElem hk, List.flatten_append, List.length_append]
  simp

/-- what `create_vev_adjacency` makes of the lists gathered -/
theorem createVev_gen (h : CRep g hyper verts ghosts types) {t : Nat} (ht : t < types.length) {L : Nat → List Handle}
    (hL : ∀ u, u < verts.length → GatherIs (vevGather g) (getVertex u) (L u))
    (hn0 : ∀ u, u < verts.length → ∀ x ∈ L u, x ≠ 0)
    (compress : Bool) {ord : Handle → List Handle → List Handle} (ho : ∀ x l, (ord x l).Perm l) :
    ∃ e, g.slot t = .ok e ∧ createVev g t compress ord = .ok { g with types := g.types.set t (some { e with
      vevOffsets := some (Mem.ofList ((List.range (verts.length + 1)).map
        (fun k => ((rowsOf compress ord ((List.range verts.length).map getVertex) L).take k).flatten.length)))
      vevLists := Mem.ofList ((rowsOf compress ord ((List.range verts.length).map getVertex) L).flatten.map
        (fun x => x - 1)) }) } := by
  obtain ⟨e, he, hr, -⟩ := h.typ t ht
  have hb := bound_ge he
  have hnl := h.v.nl
  refine ⟨e, Graph.slot_ok he, ?_⟩
  unfold createVev
  rw [Graph.slot_ok he, Outcome.bind_ok, alloc_zero, Outcome.bind_ok]
  have hy := yields_vertices g
  rw [hnl] at hy
  have hG : ∀ k (hk : k < ((List.range verts.length).map getVertex).length),
      GatherIs (vevGather g) ((List.range verts.length).map getVertex)[k] (L k) := by
    intro k hk
    simp only [List.getElem_map, List.getElem_range]
    exact hL k (by simpa using hk)
  have hxl : ((List.range verts.length).map getVertex).length = verts.length := by simp
  have hc := countLoop_spec hG compress ho
  rw [hxl] at hc
  rw [hnl, iterLoop_plain _ _ hy (by simp; omega), hc, Outcome.bind_ok]
  simp only
  rw [load_total (by simp [rowsOf]), Outcome.bind_ok, iterLoop_plain _ _ hy (by simp; omega),
    fillLoop_spec hG compress ho (lf := fun x => x - 1) (by
      intro k hk x hx
      rw [hxl] at hk
      have := hn0 k hk x hx
      unfold vidx fromPtr
      rw [if_neg this]; rfl), Outcome.bind_ok]
  rfl

/-- the loop over a second adjacency of type 0 of a vertex -/
theorem visitVev_gen {g : Graph} {e : EType} {n : Nat} {rows : List (List Handle)} (hs : g.slot 0 = .ok e)
    (hnt : 0 < g.numTypes) (hnl : g.numLocal = n) (hr : rows.length = n)
    (h1 : e.vevOffsets = some (Mem.ofList ((List.range (n + 1)).map (fun k => (rows.take k).flatten.length))))
    (h2 : e.vevLists = Mem.ofList (rows.flatten.map (fun x => x - 1)))
    (hn0 : ∀ x ∈ rows.flatten, x ≠ 0) {u : Nat} (hu : u < rows.length) {fuel : Nat} (hf : rows[u].length < fuel) :
    visitVev g (getVertex u) 0 fuel = .ok rows[u] := by
  unfold visitVev vevBegin vevEnd
  simp only [hs, Outcome.bind_ok, h1, deref, Outcome.ofOption_some, vidx_getVertex, Outcome.pure_eq]
  rw [load_off (by omega), Outcome.bind_ok, load_off (by omega), Outcome.bind_ok]
  simp only [Outcome.bind_ok, take_succ_length hu, Nat.add_zero]
  have hsl := row_slice rows (fun j => rows.flatten.getD j 0) id (fun j hj => by
    rw [List.getD_eq_getElem?_getD, List.getElem?_eq_getElem hj]; rfl) hu
  rw [List.map_id] at hsl
  rw [visit_range (nt := g.numTypes) hnt (hd := fun j => rows.flatten.getD j 0) rows[u].length _ fuel ?_ hf, hsl]
  intro k hk hak
  have hdec : g.decodeEdge (k * g.numTypes + 1) = .ok (0, k) := by
    unfold Graph.decodeEdge
    rw [if_neg (by omega)]
    simp [Nat.mul_div_cancel _ hnt]
  unfold iterVev
  rw [hdec, Outcome.bind_ok]
  simp only [hs, Outcome.bind_ok, h1, deref, Outcome.ofOption_some, hnl]
  rw [load_total hr, Outcome.bind_ok]
  by_cases hkt : rows.flatten.length ≤ k
  · rw [if_pos hkt]
    refine ⟨0, rfl, fun hlt => ?_⟩
    have := take_flatten_le rows (u + 1)
    rw [take_succ_length hu] at this
    omega
  · rw [if_neg hkt, h2, Mem.load_ofList (by rw [List.length_map]; omega), Outcome.bind_ok]
    refine ⟨_, rfl, fun _ => ?_⟩
    have := hn0 _ (List.getElem_mem (show k < rows.flatten.length by omega))
    simp only [List.getElem_map]
    rw [List.getD_eq_getElem?_getD, List.getElem?_eq_getElem (show k < rows.flatten.length by omega), Option.getD_some]
    omega

theorem gather_vev {L : List Handle} {v : Handle} (hy : YieldsFrom (g.adjacent v 0) g.iterAdj L) (hf : L.length < g.adjFuel) :
    GatherIs (vevGather g) v L := by
  intro β f b
  obtain ⟨it, e, hy⟩ := hy
  unfold vevGather
  rw [e, Outcome.bind_ok, iterLoop_plain _ _ hy hf]

theorem slot_set {t : Nat} {e : EType} (ht : t < g.types.length) :
    ({ g with types := g.types.set t (some e) } : Graph).slot t = .ok e := by
  unfold Graph.slot
  simp [ht]

/-- both graph kinds: the second adjacency of a vertex lists `A u`, or the set of it without the vertex -/
theorem c13_vev_core (h : CRep g hyper verts ghosts types) (ht : 0 < types.length) {A : Nat → List Gid}
    (hA : ∀ u, u < verts.length → YieldsFrom (g.adjacent (getVertex u) 0) g.iterAdj
      ((A u).map (fun w => getVertex ((verts ++ ghosts).idxOf w))))
    (hf : ∀ u, u < verts.length → (A u).length < g.adjFuel)
    (hm : ∀ u, u < verts.length → ∀ w ∈ A u, w ∈ verts ++ ghosts)
    (compress : Bool) {ord : Handle → List Handle → List Handle} (ho : ∀ x l, (ord x l).Perm l) :
    ∃ g', createVev g 0 compress ord = .ok g' ∧ ∀ u (hu : u < verts.length),
      g'.findGID verts[u] = .ok (getVertex u) ∧ ∃ us : List Gid,
        (∀ fuel, us.length < fuel → ∃ hs, visitVev g' (getVertex u) 0 fuel = .ok hs ∧ hs.mapM g'.globalID = .ok us) ∧
        (compress = false → us = A u) ∧
        (compress = true → us.Nodup ∧ ∀ w, w ∈ us ↔ w ≠ verts[u] ∧ w ∈ A u) := by
  set H : Gid → Handle := fun w => getVertex ((verts ++ ghosts).idxOf w) with hH
  obtain ⟨e, hs, hc⟩ := createVev_gen h ht (fun u hu => gather_vev (hA u hu) (by simpa using hf u hu))
    (by
      intro u hu x hx
      obtain ⟨w, -, rfl⟩ := List.mem_map.mp hx
      simp [hH, getVertex]) compress ho
  obtain ⟨e0, he0, -⟩ := h.typ 0 ht
  have htl : 0 < g.types.length := by
    by_contra hc
    rw [List.getElem?_eq_none (by omega)] at he0
    exact absurd he0 (by simp)
  refine ⟨_, hc, ?_⟩
  intro u hu
  refine ⟨findGID_local h.v hu, ?_⟩
  set R := rowsOf compress ord ((List.range verts.length).map getVertex) (fun u => (A u).map H) with hR
  have hRl : R.length = verts.length := by simp [hR, rowsOf]
  have hRu : ∀ k (hk : k < verts.length), R[k]'(by omega) = rowOf compress ord (getVertex k) ((A k).map H) := by
    intro k hk
    simp [hR, rowsOf, hk]
  -- every entry is a known vertex
  have hmem : ∀ k, k < verts.length → ∀ x ∈ rowOf compress ord (getVertex k) ((A k).map H), x ∈ (A k).map H := by
    intro k hk x hx
    unfold rowOf at hx
    split at hx
    · exact mem_dedupL.mp (List.mem_of_mem_erase ((ho _ _).mem_iff.mp hx))
    · exact hx
  set back : Handle → Gid := fun x => (verts ++ ghosts).getD (x - 1) 0 with hback
  have hbH : ∀ w ∈ verts ++ ghosts, back (H w) = w := by
    intro w hw
    have := List.idxOf_lt_length_of_mem hw
    simp only [hback, hH, getVertex, Nat.add_sub_cancel]
    rw [List.getD_eq_getElem?_getD, List.getElem?_eq_getElem this, Option.getD_some, List.getElem_idxOf]
  refine ⟨(rowOf compress ord (getVertex u) ((A u).map H)).map back, ?_, ?_, ?_⟩
  · intro fuel hfu
    refine ⟨R[u]'(by omega), visitVev_gen (slot_set htl) (by show 0 < g.numTypes; rw [h.numTypes]; exact ht) h.v.nl hRl
      rfl rfl ?_ (by omega) ?_, ?_⟩
    · intro x hx
      obtain ⟨r, hr1, hr2⟩ := List.mem_flatten.mp hx
      obtain ⟨k, hk, rfl⟩ := List.mem_iff_getElem.mp hr1
      rw [hRu k (by omega)] at hr2
      obtain ⟨w, -, rfl⟩ := List.mem_map.mp (hmem k (by omega) x hr2)
      simp [hH, getVertex]
    · rw [hRu u hu]; simpa using hfu
    · rw [hRu u hu]
      apply mapM_ok
      intro x hx
      obtain ⟨w, hw, rfl⟩ := List.mem_map.mp (hmem u hu x hx)
      show g.globalID (H w) = _
      rw [hbH w (hm u hu w hw)]
      exact globalID_eq h.v (hm u hu w hw)
  · intro hcf
    subst hcf
    simp only [rowOf, Bool.false_eq_true, if_false, List.map_map]
    conv_rhs => rw [← List.map_id (A u)]
    exact List.map_congr_left (fun w hw => hbH w (hm u hu w hw))
  · intro hct
    subst hct
    have hrow : ∀ x, x ∈ rowOf true ord (getVertex u) ((A u).map H) ↔ x ≠ getVertex u ∧ x ∈ (A u).map H := by
      intro x
      simp only [rowOf, if_true]
      rw [(ho _ _).mem_iff, (nodup_dedupL _).mem_erase_iff, mem_dedupL]
    have hself : ∀ w ∈ verts ++ ghosts, (H w = getVertex u ↔ w = verts[u]) := by
      intro w hw
      simp only [hH, getVertex, Nat.add_right_cancel_iff]
      exact idxOf_eq_iff h.v.nodup hw hu
    refine ⟨?_, ?_⟩
    · apply List.Nodup.map_on
      · intro x hx y hy hxy
        obtain ⟨a, ha, rfl⟩ := List.mem_map.mp ((hrow x).mp hx).2
        obtain ⟨b, hb, rfl⟩ := List.mem_map.mp ((hrow y).mp hy).2
        rw [hbH a (hm u hu a ha), hbH b (hm u hu b hb)] at hxy
        rw [hxy]
      · simp only [rowOf, if_true]
        exact (ho _ _).nodup_iff.mpr ((nodup_dedupL _).erase _)
    · intro w
      rw [List.mem_map]
      constructor
      · rintro ⟨x, hx, rfl⟩
        obtain ⟨h1, h2⟩ := (hrow x).mp hx
        obtain ⟨a, ha, rfl⟩ := List.mem_map.mp h2
        rw [hbH a (hm u hu a ha)]
        exact ⟨fun hc => h1 ((hself a (hm u hu a ha)).mpr hc), ha⟩
      · rintro ⟨h1, h2⟩
        exact ⟨H w, (hrow _).mpr ⟨fun hc => h1 ((hself w (hm u hu w h2)).mp hc), List.mem_map.mpr ⟨w, h2, rfl⟩⟩,
          hbH w (hm u hu w h2)⟩

theorem length_le_flatten {α : Type} {ls : List (List α)} {l : List α} (h : l ∈ ls) : l.length ≤ ls.flatten.length := by
  rw [List.length_flatten]
  exact le_sum_of_mem (List.mem_map.mpr ⟨_, h, rfl⟩)

end

/-- what C13 says about the second adjacency of the vertices `verts` of a part: uncompressed the loop visits `A v`,
compressed it visits every vertex related to `v` by `N` except `v` itself, once -/
def VevIs (g : Graph) (compress : Bool) (verts : List Gid) (A : Gid → List Gid) (N : Gid → Gid → Prop) : Prop :=
  ∀ v ∈ verts, ∃ hv us, g.findGID v = .ok hv ∧
    (∀ fuel, us.length < fuel → ∃ hs, visitVev g hv 0 fuel = .ok hs ∧ hs.mapM g.globalID = .ok us) ∧
    (compress = false → us = A v) ∧ (compress = true → us.Nodup ∧ ∀ w, w ∈ us ↔ w ≠ v ∧ N v w)

theorem flatMap_zipIdx_replicate (v : Gid) (es : List (List Gid)) (F : Nat → List Gid) : ∀ n,
    (∀ k (h : k < es.length), F (n + k) = es[k]) →
    ((es.zipIdx n).flatMap (fun p => List.replicate (p.1.count v) p.2)).flatMap F =
      es.flatMap (fun p => (List.replicate (p.count v) p).flatten) := by
  induction es with
  | nil => intro n _; simp
  | cons p es ih =>
    intro n hF
    rw [List.zipIdx_cons, List.flatMap_cons, List.flatMap_append, List.flatMap_cons,
      ih (n + 1) (fun k hk => by
        have := hF (k + 1) (by simp; omega)
        rw [show n + 1 + k = n + (k + 1) by omega, this]; simp)]
    congr 1
    have h0 := hF 0 (by simp)
    simp only [Nat.add_zero, List.getElem_cons_zero] at h0
    rw [List.flatMap_def, List.map_replicate, h0]

theorem vev_hyper {g : Graph} {verts ghosts : List Gid} {types : List EdgeInput} (hc : CRep g true verts ghosts types)
    (ht : 0 < types.length) (compress : Bool) {ord : Handle → List Handle → List Handle}
    (ho : ∀ x l, (ord x l).Perm l) :
    ∃ g', createVev g 0 compress ord = .ok g' ∧
      VevIs g' compress verts (fun v => types[0].pins.flatMap (fun p => (List.replicate (p.count v) p).flatten))
        (fun v w => ∃ p ∈ types[0].pins, v ∈ p ∧ w ∈ p) := by
  set A : Gid → List Gid := fun v => types[0].pins.flatMap (fun p => (List.replicate (p.count v) p).flatten) with hA
  have hmemA : ∀ v w, w ∈ A v ↔ ∃ p ∈ types[0].pins, v ∈ p ∧ w ∈ p := by
    intro v w
    simp only [hA, List.mem_flatMap, List.mem_flatten, List.mem_replicate]
    constructor
    · rintro ⟨p, hp, q, ⟨h1, rfl⟩, hw⟩
      exact ⟨q, hp, List.count_pos_iff.mp (Nat.pos_of_ne_zero h1), hw⟩
    · rintro ⟨p, hp, hv, hw⟩
      exact ⟨p, hp, p, ⟨Nat.pos_iff_ne_zero.mp (List.count_pos_iff.mpr hv), rfl⟩, hw⟩
  have hadj : ∀ u (hu : u < verts.length),
      ((adjOf true (verts ++ ghosts) types[0].pins verts[u]).flatMap
        (pinRun g (verts ++ ghosts) 0 types[0].pins)).map Prod.fst =
      (A verts[u]).map (fun w => getVertex ((verts ++ ghosts).idxOf w)) := by
    intro u hu
    have h1 := flatMap_zipIdx_replicate verts[u] types[0].pins (fun k => types[0].pins.getD k []) 0
      (fun k hk => by simp [hk])
    simp only [hA]
    rw [← h1, List.map_flatMap, List.map_flatMap]
    unfold adjOf
    rw [if_pos rfl]
    apply List.flatMap_congr
    intro k _
    simp [pinRun]
  obtain ⟨g', e', hv⟩ := c13_vev_core (A := fun u => A (verts.getD u 0)) hc ht
    (by
      intro u hu
      obtain ⟨it, h1, h2⟩ := adjRun_vertex' hc ht hu
      have h3 := h2.yields
      rw [hadj u hu] at h3
      simp only [List.getD_eq_getElem?_getD, List.getElem?_eq_getElem hu, Option.getD_some]
      exact ⟨it, h1, h3⟩)
    (by
      intro u hu
      have h1 := adjRun_fuel hc ht verts[u]
      have h2 := congrArg List.length (hadj u hu)
      simp only [List.length_map] at h2
      simp only [List.getD_eq_getElem?_getD, List.getElem?_eq_getElem hu, Option.getD_some]
      rw [← h2]; exact h1)
    (by
      intro u hu w hw
      obtain ⟨p, hp, -, hwp⟩ := (hmemA _ w).mp hw
      exact hc.pins 0 ht w (List.mem_flatten.mpr ⟨p, hp, hwp⟩)) compress ho
  refine ⟨g', e', ?_⟩
  intro v hv'
  obtain ⟨u, hu, rfl⟩ := List.mem_iff_getElem.mp hv'
  obtain ⟨h1, us, h2, h3, h4⟩ := hv u hu
  simp only [List.getD_eq_getElem?_getD, List.getElem?_eq_getElem hu, Option.getD_some] at h3 h4
  exact ⟨_, us, h1, h2, h3, fun hct => ⟨(h4 hct).1, fun w => by rw [(h4 hct).2 w, hmemA]⟩⟩

/-- **C13** for hypergraphs and type 0: after `create_vev_adjacency(0, compress)` the second adjacency of a vertex `v`
lists, uncompressed, the pins of the edges of `v` (once per occurrence of `v` in the edge), and compressed exactly
the other vertices sharing an edge with `v`, each once.  Missing compared to C13: the other edge types, for which the
claim is false. -/
theorem c13_vev_hyper_partial (me : Part) (peers : Nat) (total : Int) (i : Input) (hwf : i.WF) (hh : i.hyper = true)
    (ht : 0 < i.types.length) (compress : Bool) (ord : Handle → List Handle → List Handle)
    (ho : ∀ x l, (ord x l).Perm l) :
    ∃ g g', build me peers total i = .ok g ∧ createVev g 0 compress ord = .ok g' ∧
      VevIs g' compress i.verts (fun v => i.types[0].pins.flatMap (fun p => (List.replicate (p.count v) p).flatten))
        (fun v w => ∃ p ∈ i.types[0].pins, v ∈ p ∧ w ∈ p) := by
  obtain ⟨g, ghosts, e, hr⟩ := build_spec me peers total i hwf
  have hc := hr.core hwf
  rw [hh] at hc
  obtain ⟨g', e', hv⟩ := vev_hyper hc ht compress ho
  exact ⟨g, g', e, e', hv⟩

example : sampleH.WF ∧ sampleH.hyper = true ∧ 0 < sampleH.types.length := ⟨sampleH_wf, rfl, by decide⟩

/-- in the sample, vertex 20 reaches 10 and 99 through the first edge and 30 through the second -/
example : (do
    let g ← build 0 4 3 sampleH
    let g ← createVev g 0 true (fun _ l => l)
    let hs ← visitVev g 2 0 10
    hs.mapM g.globalID) = .ok [10, 99, 30] := by decide +kernel

/-- **C13** for traditional graphs and type 0: the second adjacency of `v` lists the targets of the edges with source `v`,
compressed each once and without `v`.  Missing compared to C13: the other edge types, for which the claim is
false. -/
theorem c13_vev_trad_partial (me : Part) (peers : Nat) (total : Int) (i : Input) (hwf : i.WF) (hh : i.hyper = false)
    (ht : 0 < i.types.length) (compress : Bool) (ord : Handle → List Handle → List Handle)
    (ho : ∀ x l, (ord x l).Perm l) :
    ∃ g g', build me peers total i = .ok g ∧ createVev g 0 compress ord = .ok g' ∧
      VevIs g' compress i.verts (fun v => (i.types[0].pins.filter (fun p => p[0]? == some v)).map (fun p => p.getD 1 0))
        (fun v w => [v, w] ∈ i.types[0].pins) := by
  obtain ⟨g, ghosts, e, hr⟩ := build_spec me peers total i hwf
  have hc := hr.core hwf
  rw [hh] at hc
  set A : Gid → List Gid := fun v => (i.types[0].pins.filter (fun p => p[0]? == some v)).map (fun p => p.getD 1 0) with hA
  have htwo := (hwf.edges _ (List.getElem_mem ht)).two hh
  have hmemA : ∀ v w, w ∈ A v ↔ [v, w] ∈ i.types[0].pins := by
    intro v w
    simp only [hA, List.mem_map, List.mem_filter, beq_iff_eq]
    constructor
    · rintro ⟨p, ⟨hp, h1⟩, h2⟩
      have h3 := htwo p hp
      match p, h3 with
      | [a, b], _ => simp at h1 h2; subst h1; subst h2; exact hp
    · intro hp
      exact ⟨_, ⟨hp, rfl⟩, rfl⟩
  obtain ⟨e0, he0, hr0, -⟩ := hc.typ 0 ht
  have hbd := bound_ge he0
  obtain ⟨g', e', hv⟩ := c13_vev_core (A := fun u => A (i.verts.getD u 0)) hc ht
    (by
      intro u hu
      have h1 := yields_adj_trad hc ht hu
      simp only [List.getD_eq_getElem?_getD, List.getElem?_eq_getElem hu, Option.getD_some]
      simp only [adjOf, Bool.false_eq_true, if_false, List.map_map] at h1
      simp only [hA, List.map_map]
      exact h1)
    (by
      intro u hu
      have h1 : (A (i.verts.getD u 0)).length ≤ i.types[0].pins.length := by
        simp only [hA, List.length_map]
        exact List.length_filter_le _ _
      have h2 : g.bound ≤ g.bound * g.bound := Nat.le_mul_of_pos_left _ (by omega)
      unfold Graph.adjFuel
      have := hr0.numE
      omega)
    (by
      intro u hu w hw
      have hp := (hmemA _ w).mp hw
      exact hc.pins 0 ht w (List.mem_flatten.mpr ⟨_, hp, by simp⟩)) compress ho
  refine ⟨g, g', e, e', ?_⟩
  intro v hv'
  obtain ⟨u, hu, rfl⟩ := List.mem_iff_getElem.mp hv'
  obtain ⟨h1, us, h2, h3, h4⟩ := hv u hu
  simp only [List.getD_eq_getElem?_getD, List.getElem?_eq_getElem hu, Option.getD_some] at h3 h4
  exact ⟨_, us, h1, h2, h3, fun hct => ⟨(h4 hct).1, fun w => by rw [(h4 hct).2 w, hmemA]⟩⟩

example : sampleT.WF ∧ sampleT.hyper = false ∧ 0 < sampleT.types.length := ⟨sampleT_wf, rfl, by decide⟩

example : (do
    let g ← build 0 2 2 sampleT
    let g ← createVev g 0 true (fun _ l => l)
    let hs ← visitVev g 2 0 10
    hs.mapM g.globalID) = .ok [1, 7] := by decide +kernel

/-! ## edges -/

section
variable {g : Graph} {verts ghosts : List Gid} {types : List EdgeInput}

theorem createEve_gen {hyper : Bool} (h : CRep g hyper verts ghosts types) {t : Nat} (ht : t < types.length)
    {L : Nat → List Handle} {lf : Handle → Nat}
    (hL : ∀ k, k < types[t].pins.length → GatherIs (eveGather g) (g.getEdge k t) (L k))
    (hl : ∀ k, k < types[t].pins.length → ∀ x ∈ L k, edgeLid g x = .ok (lf x))
    (compress : Bool) {ord : Handle → List Handle → List Handle} (ho : ∀ x l, (ord x l).Perm l) :
    ∃ e, g.slot t = .ok e ∧ e.numEdges = types[t].pins.length ∧
      createEve g t compress ord = .ok { g with types := g.types.set t (some { e with
        eveOffsets := some (Mem.ofList ((List.range (types[t].pins.length + 1)).map
          (fun k => ((rowsOf compress ord ((List.range types[t].pins.length).map (fun l => g.getEdge l t)) L).take
            k).flatten.length)))
        eveLists := Mem.ofList ((rowsOf compress ord ((List.range types[t].pins.length).map
          (fun l => g.getEdge l t)) L).flatten.map lf) }) } := by
  obtain ⟨e, he, hr, -⟩ := h.typ t ht
  have hb := bound_ge he
  have hne := hr.numE
  refine ⟨e, Graph.slot_ok he, hne, ?_⟩
  unfold createEve
  obtain ⟨it, hit, hy⟩ := yields_edgeBegin h ht
  rw [Graph.slot_ok he, Outcome.bind_ok, alloc_zero, Outcome.bind_ok, hit, Outcome.bind_ok]
  have hxl : ((List.range types[t].pins.length).map (fun l => g.getEdge l t)).length = types[t].pins.length := by simp
  have hG : ∀ k (hk : k < ((List.range types[t].pins.length).map (fun l => g.getEdge l t)).length),
      GatherIs (eveGather g) ((List.range types[t].pins.length).map (fun l => g.getEdge l t))[k] (L k) := by
    intro k hk
    simp only [List.getElem_map, List.getElem_range]
    exact hL k (by simpa using hk)
  have hc := countLoop_spec hG compress ho
  rw [hxl] at hc
  rw [hne, iterLoop_plain _ _ hy (by simp; omega), hc, Outcome.bind_ok]
  simp only
  rw [load_total (by simp [rowsOf]), Outcome.bind_ok, iterLoop_plain _ _ hy (by simp; omega),
    fillLoop_spec hG compress ho (lf := lf) (by
      intro k hk x hx
      rw [hxl] at hk
      exact hl k hk x hx), Outcome.bind_ok]
  rfl

theorem visitEve_gen {g : Graph} {e : EType} {n : Nat} {rows : List (List Handle)} (hs : g.slot 0 = .ok e)
    (hnt : 0 < g.numTypes) (hnl : e.numEdges = n) (hr : rows.length = n) {lf : Handle → Nat}
    (h1 : e.eveOffsets = some (Mem.ofList ((List.range (n + 1)).map (fun k => (rows.take k).flatten.length))))
    (h2 : e.eveLists = Mem.ofList (rows.flatten.map lf))
    (hn0 : ∀ x ∈ rows.flatten, g.getEdge (lf x) 0 = x) {u : Nat} (hu : u < rows.length) {fuel : Nat}
    (hf : rows[u].length < fuel) :
    visitEve g (g.getEdge u 0) fuel = .ok rows[u] := by
  unfold visitEve eveBegin eveEnd
  simp only [decode_getEdge hnt, hs, Outcome.bind_ok, h1, deref, Outcome.ofOption_some, Outcome.pure_eq]
  rw [load_off (by omega), Outcome.bind_ok, load_off (by omega), Outcome.bind_ok]
  simp only [Outcome.bind_ok, take_succ_length hu, Nat.add_zero]
  have hsl := row_slice rows (fun j => rows.flatten.getD j 0) id (fun j hj => by
    rw [List.getD_eq_getElem?_getD, List.getElem?_eq_getElem hj]; rfl) hu
  rw [List.map_id] at hsl
  rw [visit_range (nt := g.numTypes) hnt (hd := fun j => rows.flatten.getD j 0) rows[u].length _ fuel ?_ hf, hsl]
  intro k hk hak
  have hdec : g.decodeEdge (k * g.numTypes + 1) = .ok (0, k) := by
    unfold Graph.decodeEdge
    rw [if_neg (by omega)]
    simp [Nat.mul_div_cancel _ hnt]
  unfold iterEve
  rw [hdec, Outcome.bind_ok]
  simp only [hs, Outcome.bind_ok, h1, deref, Outcome.ofOption_some, hnl]
  rw [load_total hr, Outcome.bind_ok]
  by_cases hkt : rows.flatten.length ≤ k
  · rw [if_pos hkt]
    refine ⟨0, rfl, fun hlt => ?_⟩
    have := take_flatten_le rows (u + 1)
    rw [take_succ_length hu] at this
    omega
  · rw [if_neg hkt, h2, Mem.load_ofList (by rw [List.length_map]; omega), Outcome.bind_ok]
    refine ⟨_, rfl, fun _ => ?_⟩
    have := hn0 _ (List.getElem_mem (show k < rows.flatten.length by omega))
    simp only [List.getElem_map]
    rw [List.getD_eq_getElem?_getD, List.getElem?_eq_getElem (show k < rows.flatten.length by omega), Option.getD_some]
    unfold Graph.getEdge at this
    rw [Nat.mul_comm] at this
    exact this

/-- the edges around an edge -/
theorem gather_eve {own : Gid → Part} (h : CRep g true verts ghosts types) (ho : ORep g ghosts own)
    (hown : ∀ v ∈ ghosts, own v ≠ g.self) (ht : 0 < types.length) {k : Nat} (hk : k < types[0].pins.length) :
    GatherIs (eveGather g) (g.getEdge k 0) (((types[0].pins[k].filter (· ∈ verts)).flatMap
      (fun v => adjOf true (verts ++ ghosts) types[0].pins v)).map (fun j => g.getEdge j 0)) := by
  intro β f b
  obtain ⟨it, e, hy⟩ := yields_pins_hyper h ht hk
  obtain ⟨e0, he0, hr0, -⟩ := h.typ 0 ht
  have hbd := bound_ge he0
  have hlen : types[0].pins[k].length ≤ types[0].pins.flatten.length := length_le_flatten (List.getElem_mem hk)
  have hnp := hr0.numP
  unfold eveGather
  rw [e, Outcome.bind_ok, iterLoop_plain _ _ hy (by rw [List.length_map]; omega)]
  have hmem : ∀ v ∈ types[0].pins[k], v ∈ verts ++ ghosts := fun v hv =>
    h.pins 0 ht v (List.mem_flatten.mpr ⟨_, List.getElem_mem hk, hv⟩)
  have hpin : ∀ v ∈ types[0].pins[k], ∀ b : β, evePin g f b (getVertex ((verts ++ ghosts).idxOf v)) =
      (if v ∈ verts then (adjOf true (verts ++ ghosts) types[0].pins v).map (fun j => g.getEdge j 0) else []).foldlM f b := by
    intro v hv b
    unfold evePin
    rw [owner_eq h.v ho (hmem v hv), Outcome.bind_ok]
    unfold ownerOf
    by_cases hvv : v ∈ verts
    · obtain ⟨u, hu, rfl⟩ := List.mem_iff_getElem.mp hvv
      rw [if_pos hvv, if_neg (by simp), (idxOf_eq_iff h.v.nodup (hmem _ hv) hu).mpr rfl, if_pos hvv]
      obtain ⟨it2, e2, hy2⟩ := yields_edges_hyper h ht hu
      rw [e2, Outcome.bind_ok, iterLoop_plain _ _ hy2]
      rw [List.length_map, adjOf_length]
      have : degOf true types[0].pins verts[u] ≤ types[0].pins.flatten.length := by
        unfold degOf; rw [if_pos rfl]; exact List.count_le_length
      omega
    · have hg : v ∈ ghosts := by
        rcases List.mem_append.mp (hmem v hv) with h1 | h1
        · exact absurd h1 hvv
        · exact h1
      rw [if_neg hvv, if_pos (hown v hg), if_neg hvv]
      rfl
  have key : ∀ (l : List Gid), (∀ v ∈ l, v ∈ types[0].pins[k]) → ∀ b : β,
      (l.map (fun v => getVertex ((verts ++ ghosts).idxOf v))).foldlM (evePin g f) b =
      (((l.filter (· ∈ verts)).flatMap (fun v => adjOf true (verts ++ ghosts) types[0].pins v)).map
        (fun j => g.getEdge j 0)).foldlM f b := by
    intro l
    induction l with
    | nil => intro _ b; rfl
    | cons v l ih =>
      intro hl b
      rw [List.map_cons, List.foldlM_cons, hpin v (hl v (by simp)) b]
      by_cases hvv : v ∈ verts
      · rw [if_pos hvv, List.filter_cons_of_pos (by simpa using hvv), List.flatMap_cons, List.map_append,
          List.foldlM_append]
        congr 1
        funext b'
        exact ih (fun w hw => hl w (by simp [hw])) b'
      · rw [if_neg hvv, List.filter_cons_of_neg (by simpa using hvv), List.foldlM_nil, Outcome.pure_eq, Outcome.bind_ok]
        exact ih (fun w hw => hl w (by simp [hw])) b
  exact key _ (fun v hv => hv) b

end

theorem eve_hyper {g' : Graph} {verts ghosts : List Gid} {types : List EdgeInput} {own : Gid → Part}
    (hc : CRep g' true verts ghosts types) (hor : ORep g' ghosts own) (hown : ∀ v ∈ ghosts, own v ≠ g'.self)
    (ht : 0 < types.length) (compress : Bool) {ord : Handle → List Handle → List Handle} (ho : ∀ x l, (ord x l).Perm l) :
    ∃ g'', createEve g' 0 compress ord = .ok g'' ∧
      ∀ k (hk : k < types[0].pins.length), ∃ js : List Nat,
        (∀ fuel, js.length < fuel → visitEve g'' (g''.getEdge k 0) fuel = .ok (js.map (fun j => g''.getEdge j 0))) ∧
        (compress = false → js = (types[0].pins[k].filter (· ∈ verts)).flatMap
          (fun v => types[0].pins.zipIdx.flatMap (fun p => List.replicate (p.1.count v) p.2))) ∧
        (compress = true → js.Nodup ∧ ∀ j, j ∈ js ↔ j ≠ k ∧
          ∃ hj : j < types[0].pins.length, ∃ v ∈ verts, v ∈ types[0].pins[k] ∧ v ∈ types[0].pins[j]) := by
  have hnt : 0 < g'.numTypes := by rw [hc.numTypes]; exact ht
  have hdisj : ∀ v ∈ ghosts, v ∉ verts := fun v hv hv2 => (List.nodup_append.mp hc.v.nodup).2.2 v hv2 v hv rfl
  set J : Nat → List Nat := fun k => ((types[0].pins.getD k []).filter (· ∈ verts)).flatMap
    (fun v => adjOf true (verts ++ ghosts) types[0].pins v) with hJ
  set E : Nat → Handle := fun j => g'.getEdge j 0 with hE
  have hEinj : ∀ a b, E a = E b → a = b := by
    intro a b hab
    have h1 := decode_getEdge (g := g') (l := a) hnt
    have h2 := decode_getEdge (g := g') (l := b) hnt
    simp only [hE] at hab
    rw [hab, h2] at h1
    simp at h1
    exact h1.symm
  obtain ⟨e0, hs0, hne, hcr⟩ := createEve_gen hc ht (L := fun k => (J k).map E) (lf := fun x => (x - 1) / g'.numTypes)
    (by
      intro k hk
      have := gather_eve hc hor hown ht hk
      simp only [hJ, List.getD_eq_getElem?_getD, List.getElem?_eq_getElem hk, Option.getD_some]
      exact this)
    (by
      intro k hk x hx
      obtain ⟨j, -, rfl⟩ := List.mem_map.mp hx
      unfold edgeLid
      rw [decode_getEdge hnt]
      simp only [Outcome.bind_ok, Outcome.pure_eq, hE, Graph.getEdge, Nat.add_sub_cancel, Nat.add_zero]
      rw [Nat.mul_div_cancel_left _ hnt]) compress ho
  obtain ⟨e1, he1, -⟩ := hc.typ 0 ht
  have htl : 0 < g'.types.length := by
    by_contra hc
    rw [List.getElem?_eq_none (by omega)] at he1
    exact absurd he1 (by simp)
  refine ⟨_, hcr, ?_⟩
  set R := rowsOf compress ord ((List.range types[0].pins.length).map (fun l => g'.getEdge l 0)) (fun k => (J k).map E) with hR
  have hRl : R.length = types[0].pins.length := by simp [hR, rowsOf]
  have hRu : ∀ k (hk : k < types[0].pins.length), R[k]'(by omega) = rowOf compress ord (E k) ((J k).map E) := by
    intro k hk
    simp [hR, rowsOf, hk, hE]
  have hmem : ∀ k x, x ∈ rowOf compress ord (E k) ((J k).map E) → x ∈ (J k).map E := by
    intro k x hx
    unfold rowOf at hx
    split at hx
    · exact mem_dedupL.mp (List.mem_of_mem_erase ((ho _ _).mem_iff.mp hx))
    · exact hx
  set back : Handle → Nat := fun x => (x - 1) / g'.numTypes with hback
  have hbE : ∀ j, back (E j) = j := by
    intro j
    simp only [hback, hE, Graph.getEdge, Nat.add_sub_cancel, Nat.add_zero]
    rw [Nat.mul_div_cancel_left _ hnt]
  intro k hk
  have hJk : J k = (types[0].pins[k].filter (· ∈ verts)).flatMap
      (fun v => types[0].pins.zipIdx.flatMap (fun p => List.replicate (p.1.count v) p.2)) := by
    simp only [hJ, List.getD_eq_getElem?_getD, List.getElem?_eq_getElem hk, Option.getD_some, adjOf, if_true]
  have hmJ : ∀ j, j ∈ J k ↔ ∃ hj : j < types[0].pins.length, ∃ v ∈ verts,
      v ∈ types[0].pins[k] ∧ v ∈ types[0].pins[j] := by
    intro j
    simp only [hJ, List.getD_eq_getElem?_getD, List.getElem?_eq_getElem hk, Option.getD_some, List.mem_flatMap,
      List.mem_filter, decide_eq_true_eq, mem_adjOf_hyper]
    constructor
    · rintro ⟨v, ⟨h1, h2⟩, h3, h4⟩; exact ⟨h3, v, h2, h1, h4⟩
    · rintro ⟨h3, v, h2, h1, h4⟩; exact ⟨v, ⟨h1, h2⟩, h3, h4⟩
  refine ⟨(rowOf compress ord (E k) ((J k).map E)).map back, ?_, ?_, ?_⟩
  · intro fuel hfu
    have hv := visitEve_gen (g := { g' with types := g'.types.set 0 (some { e0 with
        eveOffsets := some (Mem.ofList ((List.range (types[0].pins.length + 1)).map
          (fun k => (R.take k).flatten.length)))
        eveLists := Mem.ofList (R.flatten.map back) }) }) (slot_set htl) hnt hne hRl (lf := back) rfl rfl (by
      intro x hx
      obtain ⟨r, hr1, hr2⟩ := List.mem_flatten.mp hx
      obtain ⟨k', hk', rfl⟩ := List.mem_iff_getElem.mp hr1
      rw [hRu k' (by omega)] at hr2
      obtain ⟨j, -, rfl⟩ := List.mem_map.mp (hmem k' x hr2)
      show g'.getEdge (back (E j)) 0 = E j
      rw [hbE]) (u := k) (by omega) (fuel := fuel) (by rw [hRu k hk]; simpa using hfu)
    refine hv.trans ?_
    rw [hRu k hk, List.map_map]
    congr 1
    conv_lhs => rw [← List.map_id (rowOf compress ord (E k) ((J k).map E))]
    apply List.map_congr_left
    intro x hx
    obtain ⟨j, -, rfl⟩ := List.mem_map.mp (hmem k x hx)
    show E j = g'.getEdge (back (E j)) 0
    rw [hbE]
  · intro hcf
    subst hcf
    rw [← hJk]
    simp only [rowOf, Bool.false_eq_true, if_false, List.map_map]
    conv_rhs => rw [← List.map_id (J k)]
    exact List.map_congr_left (fun j _ => hbE j)
  · intro hct
    subst hct
    have hrow : ∀ x, x ∈ rowOf true ord (E k) ((J k).map E) ↔ x ≠ E k ∧ x ∈ (J k).map E := by
      intro x
      simp only [rowOf, if_true]
      rw [(ho _ _).mem_iff, (nodup_dedupL _).mem_erase_iff, mem_dedupL]
    refine ⟨?_, ?_⟩
    · apply List.Nodup.map_on
      · intro x hx y hy hxy
        obtain ⟨a, ha, rfl⟩ := List.mem_map.mp ((hrow x).mp hx).2
        obtain ⟨b, hb, rfl⟩ := List.mem_map.mp ((hrow y).mp hy).2
        rw [hbE, hbE] at hxy
        rw [hxy]
      · simp only [rowOf, if_true]
        exact (ho _ _).nodup_iff.mpr ((nodup_dedupL _).erase _)
    · intro j
      rw [← hmJ, List.mem_map]
      constructor
      · rintro ⟨x, hx, rfl⟩
        obtain ⟨h1, h2⟩ := (hrow x).mp hx
        obtain ⟨a, ha, rfl⟩ := List.mem_map.mp h2
        rw [hbE]
        exact ⟨fun hc => h1 (by rw [hc]), ha⟩
      · rintro ⟨h1, h2⟩
        exact ⟨E j, (hrow _).mpr ⟨fun hc => h1 (hEinj _ _ hc), List.mem_map.mpr ⟨j, h2, rfl⟩⟩, hbE j⟩

/-- **C13** for edges of a hypergraph, type 0: after `create_eve_adjacency(0, compress)` the second adjacency of the edge
number `k` lists, uncompressed, for every pin of the edge that is a vertex of the part the edges with that pin, and
compressed exactly the other edges sharing a vertex of the part with it, each once.  Missing compared to C13: the
other edge types, for which the claim is false. -/
theorem c13_eve_hyper_partial (me : Part) (peers : Nat) (total : Int) (i : Input) (hwf : i.WF) (hh : i.hyper = true)
    (owns : GMap Part) (hown : ∀ v, v ∉ i.verts → (owns v).getD 0 ≠ me)
    (ht : 0 < i.types.length) (compress : Bool) (ord : Handle → List Handle → List Handle)
    (ho : ∀ x l, (ord x l).Perm l) :
    ∃ g g' g'', build me peers total i = .ok g ∧ g.fillOwners owns = .ok g' ∧ createEve g' 0 compress ord = .ok g'' ∧
      ∀ k (hk : k < i.types[0].pins.length), ∃ js : List Nat,
        (∀ fuel, js.length < fuel → visitEve g'' (g''.getEdge k 0) fuel = .ok (js.map (fun j => g''.getEdge j 0))) ∧
        (compress = false → js = (i.types[0].pins[k].filter (· ∈ i.verts)).flatMap
          (fun v => i.types[0].pins.zipIdx.flatMap (fun p => List.replicate (p.1.count v) p.2))) ∧
        (compress = true → js.Nodup ∧ ∀ j, j ∈ js ↔ j ≠ k ∧
          ∃ hj : j < i.types[0].pins.length, ∃ v ∈ i.verts, v ∈ i.types[0].pins[k] ∧ v ∈ i.types[0].pins[j]) := by
  obtain ⟨g, ghosts, e, hr⟩ := build_spec me peers total i hwf
  have hc0 := hr.core hwf
  rw [hh] at hc0
  obtain ⟨g', e', hor, hg⟩ := fillOwners_spec hc0.v owns
  have hs : g'.self = me := by rw [hg]; exact hr.rank
  have hc := hc0.of_eq hg
  have hdisj : ∀ v ∈ ghosts, v ∉ i.verts := fun v hv hv2 => (List.nodup_append.mp hc.v.nodup).2.2 v hv2 v hv rfl
  obtain ⟨g'', e'', hx⟩ := eve_hyper hc hor (by rw [hs]; exact fun v hv => hown v (hdisj v hv)) ht compress ho
  exact ⟨g, g', g'', e, e', e'', hx⟩

example : sampleH.WF ∧ sampleH.hyper = true ∧ (∀ v, v ∉ sampleH.verts → ((fun _ => some 3 : GMap Part) v).getD 0 ≠ 0) ∧
    0 < sampleH.types.length := ⟨sampleH_wf, rfl, fun _ _ => by simp, by decide⟩

/-! ## the other edge types -/

/-- **C13** negation, lists: `create_vev_adjacency(t)` stores for every type what it stores for type 0 -/
theorem c13_vev_ignores_type (g : Graph) (compress : Bool) (ord : Handle → List Handle → List Handle) (t : Nat) (e0 et : EType)
    (h0 : g.slot 0 = .ok e0) (ht : g.slot t = .ok et) (g0 : Graph) (hc : createVev g 0 compress ord = .ok g0) :
    ∃ o l, g0 = { g with types := g.types.set 0 (some { e0 with vevOffsets := some o, vevLists := l }) } ∧
      createVev g t compress ord =
        .ok { g with types := g.types.set t (some { et with vevOffsets := some o, vevLists := l }) } := by
  unfold createVev at hc ⊢
  rw [h0, Outcome.bind_ok, bind_ok_iff] at hc
  obtain ⟨o, h1, hc⟩ := hc
  rw [bind_ok_iff] at hc
  obtain ⟨c, h2, hc⟩ := hc
  rw [bind_ok_iff] at hc
  obtain ⟨n, h3, hc⟩ := hc
  rw [bind_ok_iff] at hc
  obtain ⟨l, h4, hc⟩ := hc
  rw [Outcome.pure_eq] at hc
  refine ⟨c.1, l.1, by cases hc; rfl, ?_⟩
  rw [ht, Outcome.bind_ok, h1, Outcome.bind_ok, h2, Outcome.bind_ok, h3, Outcome.bind_ok, h4]
  rfl

/-- a loop whose iterator always points to type 0 never meets an end of another type -/
theorem visit_endless {step : Nat → Outcome (Handle × Nat)} {nt t : Nat} (h0 : 0 < t) (ht : t < nt)
    (hstep : ∀ it x, step it = .ok x → ∃ id, x.2 = id * nt + nt + 1) (b : Nat) : ∀ (fuel it : Nat) (l : List Handle),
      visit step (b * nt + nt + t + 1) fuel it ≠ .ok l := by
  have hne : ∀ a b, a * nt + nt + 1 ≠ b * nt + nt + t + 1 := by
    intro a b hab
    have h1 : (a + 1) * nt = (b + 1) * nt + t := by
      rw [Nat.succ_mul, Nat.succ_mul]; omega
    have h2 := congrArg (· % nt) h1
    simp only [Nat.mul_mod_left, Nat.mul_add_mod_self_right, Nat.mod_eq_of_lt ht] at h2
    omega
  intro fuel
  induction fuel with
  | zero => intro it l hc; simp [visit] at hc
  | succ fuel ih =>
    intro it l hc
    rw [visit, bind_ok_iff] at hc
    obtain ⟨⟨x, it'⟩, h1, hc⟩ := hc
    obtain ⟨id, h2⟩ := hstep it _ h1
    simp only at h2 hc
    rw [if_neg (by rw [h2]; exact hne id b), bind_ok_iff] at hc
    obtain ⟨r, h3, -⟩ := hc
    exact ih it' r h3

/-- **C13** negation, iteration: the loop `for (u = iterate(itr); itr != vev_end(v,t); u = iterate(itr))` of any type but 0 never
ends regularly, whatever the graph and the vertex -/
theorem c13_vev_other_type_endless (g : Graph) (h : Handle) (t fuel : Nat) (h0 : 0 < t) (ht : t < g.numTypes) :
    ∀ l, visitVev g h t fuel ≠ .ok l := by
  have hstep : ∀ it x, iterVev g it = .ok x → ∃ id, x.2 = id * g.numTypes + g.numTypes + 1 := by
    intro it x hx
    unfold iterVev at hx
    rw [bind_ok_iff] at hx
    obtain ⟨⟨t', id⟩, h1, hx⟩ := hx
    simp only at hx
    rw [bind_ok_iff] at hx
    obtain ⟨e, h2, hx⟩ := hx
    rw [bind_ok_iff] at hx
    obtain ⟨o, h3, hx⟩ := hx
    rw [bind_ok_iff] at hx
    obtain ⟨n, h4, hx⟩ := hx
    split at hx
    · rw [Outcome.pure_eq] at hx; cases hx; exact ⟨id, rfl⟩
    · rw [bind_ok_iff] at hx
      obtain ⟨i, h5, hx⟩ := hx
      rw [Outcome.pure_eq] at hx; cases hx; exact ⟨id, rfl⟩
  intro l hc
  unfold visitVev at hc
  rw [bind_ok_iff] at hc
  obtain ⟨a, h1, hc⟩ := hc
  rw [bind_ok_iff] at hc
  obtain ⟨b, h2, hc⟩ := hc
  unfold vevEnd at h2
  rw [bind_ok_iff] at h2
  obtain ⟨e, -, h2⟩ := h2
  rw [bind_ok_iff] at h2
  obtain ⟨o, -, h2⟩ := h2
  rw [bind_ok_iff] at h2
  obtain ⟨i, -, h2⟩ := h2
  rw [bind_ok_iff] at h2
  obtain ⟨x, -, h2⟩ := h2
  rw [Outcome.pure_eq] at h2
  cases h2
  exact visit_endless h0 ht hstep x fuel a l hc

/-- **C13** negation, iteration of edges: the same for an edge of any type but 0 -/
theorem c13_eve_other_type_endless (g : Graph) (k t fuel : Nat) (h0 : 0 < t) (ht : t < g.numTypes) :
    ∀ l, visitEve g (g.getEdge k t) fuel ≠ .ok l := by
  have hstep : ∀ it x, iterEve g it = .ok x → ∃ id, x.2 = id * g.numTypes + g.numTypes + 1 := by
    intro it x hx
    unfold iterEve at hx
    rw [bind_ok_iff] at hx
    obtain ⟨⟨t', id⟩, h1, hx⟩ := hx
    simp only at hx
    rw [bind_ok_iff] at hx
    obtain ⟨e, h2, hx⟩ := hx
    rw [bind_ok_iff] at hx
    obtain ⟨o, h3, hx⟩ := hx
    rw [bind_ok_iff] at hx
    obtain ⟨n, h4, hx⟩ := hx
    split at hx
    · rw [Outcome.pure_eq] at hx; cases hx; exact ⟨id, rfl⟩
    · rw [bind_ok_iff] at hx
      obtain ⟨i, h5, hx⟩ := hx
      rw [Outcome.pure_eq] at hx; cases hx; exact ⟨id, rfl⟩
  intro l hc
  unfold visitEve at hc
  rw [bind_ok_iff] at hc
  obtain ⟨a, h1, hc⟩ := hc
  rw [bind_ok_iff] at hc
  obtain ⟨b, h2, hc⟩ := hc
  unfold eveEnd at h2
  rw [decode_getEdge ht, Outcome.bind_ok] at h2
  simp only at h2
  rw [bind_ok_iff] at h2
  obtain ⟨e, -, h2⟩ := h2
  rw [bind_ok_iff] at h2
  obtain ⟨o, -, h2⟩ := h2
  rw [bind_ok_iff] at h2
  obtain ⟨x, -, h2⟩ := h2
  rw [Outcome.pure_eq] at h2
  cases h2
  exact visit_endless h0 ht hstep x fuel a l hc

/-- **C13** negation on a concrete graph: in `sampleH` vertex 30 has the neighbour 98 through its edge of type 1, but the first
vertex its second adjacency of type 1 gives is 20, a neighbour through an edge of type 0 -/
theorem c13_wrong_neighbour_witness : (do
    let g ← build 0 4 3 sampleH
    let g ← createVev g 1 true (fun _ l => l)
    let it ← vevBegin g 3 1
    let x ← iterVev g it
    g.globalID x.1) = .ok 20 := by decide +kernel

end Verif.Part
