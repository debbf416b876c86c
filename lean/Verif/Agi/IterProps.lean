import Verif.Agi.ConstructProps
/-!
# Properties C07–C09 and the integer-width part of C01
-/
namespace Verif.Agi

/-! ## C07 the source of a traditional edge -/

theorem yields_unique {σ : Type} {step : σ → Outcome (Handle × σ)} : ∀ (l l' : List Handle) (s : σ),
    Yields step s l → Yields step s l' → l = l' := by
  intro l
  induction l with
  | nil =>
    intro l' s ⟨s', h⟩ h'
    cases l' with
    | nil => rfl
    | cons x l' =>
      obtain ⟨hx, s2, h2, -⟩ := h'
      rw [h] at h2; simp at h2; exact absurd h2.1.symm hx
  | cons x l ih =>
    intro l' s ⟨hx, s', h, hy⟩ h'
    cases l' with
    | nil =>
      obtain ⟨s2, h2⟩ := h'
      rw [h] at h2; simp at h2; exact absurd h2.1 hx
    | cons y l' =>
      obtain ⟨hy', s2, h2, hy2⟩ := h'
      rw [h] at h2; simp at h2
      obtain ⟨rfl, rfl⟩ := h2
      rw [ih l' s' hy hy2]

/-- the edges with a local source, counted per source -/
theorem offs_degOf_false (verts : List Gid) (hnd : verts.Nodup) (es : List (List Gid)) :
    offs (fun u => degOf false es (verts.getD u 0)) verts.length =
      es.countP (fun p => decide (∃ v ∈ verts, p[0]? = some v)) := by
  have h1 : offs (fun u => degOf false es (verts.getD u 0)) verts.length =
      (verts.map (fun v => es.countP (fun p => p[0]? == some v))).sum := by
    unfold offs
    congr 1
    apply List.ext_getElem
    · simp
    · intro k h1 h2
      simp only [List.length_map, List.length_range] at h1
      simp [degOf, h1]
  rw [h1]
  clear h1
  induction es with
  | nil => simp
  | cons p es ih =>
    rw [List.countP_cons, ← ih]
    have : ∀ (vs : List Gid), vs.Nodup → (vs.map (fun v => (p :: es).countP (fun p => p[0]? == some v))).sum =
        (vs.map (fun v => es.countP (fun p => p[0]? == some v))).sum +
          (if decide (∃ v ∈ vs, p[0]? = some v) then 1 else 0) := by
      intro vs
      induction vs with
      | nil => simp
      | cons a vs ihv =>
        intro hnd
        rw [List.nodup_cons] at hnd
        rw [List.map_cons, List.sum_cons, List.map_cons, List.sum_cons, ihv hnd.2, List.countP_cons]
        by_cases hx : p[0]? = some a
        · have hno : ¬ ∃ v ∈ vs, p[0]? = some v := by
            rintro ⟨v, hv, h⟩
            rw [hx] at h
            exact hnd.1 (Option.some.inj h ▸ hv)
          have hyes : ∃ v ∈ a :: vs, p[0]? = some v := ⟨a, by simp, hx⟩
          have hbeq : (p[0]? == some a) = true := by rw [hx]; simp
          simp only [hno, hyes, hbeq, decide_true, decide_false, if_true, Bool.false_eq_true, if_false]
          omega
        · have hiff : (∃ v ∈ a :: vs, p[0]? = some v) ↔ ∃ v ∈ vs, p[0]? = some v := by
            constructor
            · rintro ⟨v, hv, h⟩
              rcases List.mem_cons.mp hv with rfl | hv
              · exact absurd h hx
              · exact ⟨v, hv, h⟩
            · rintro ⟨v, hv, h⟩; exact ⟨v, by simp [hv], h⟩
          have hb : (p[0]? == some a) = false := by simpa using hx
          simp only [hb, hiff, Bool.false_eq_true, if_false]
          omega
    rw [this verts hnd]

/-- **C07**: in a traditional graph let `m` be the number of supplied edges of type `t` whose source is
local.  For every edge index below `m` (all of them when every source is local) the search of `u(e)` ends
within `numLocalVtxs` rounds and returns the one local vertex whose `edges` iteration contains `e`.
Missing compared to C07: edges counted as local although their source is not local, for which the claim is
false (`c07_ghost_source_endless`). -/
theorem c07_u_terminates_partial (me : Part) (peers : Nat) (total : Int) (i : Input) (hwf : i.WF)
    (hh : i.hyper = false) :
    ∃ g, build me peers total i = .ok g ∧ ∀ t (ht : t < i.types.length), ∀ l,
      l < i.types[t].pins.countP (fun p => decide (∃ v ∈ i.verts, p[0]? = some v)) →
      ∃ u, u < i.verts.length ∧
        (∀ fuel, i.verts.length ≤ fuel → g.uOf fuel (g.getEdge l t) = .ok (some (getVertex u))) ∧
        (∃ hs, YieldsFrom (g.edges (getVertex u) t) g.iterEdge hs ∧ g.getEdge l t ∈ hs) ∧
        (∀ u' hs', u' < i.verts.length → YieldsFrom (g.edges (getVertex u') t) g.iterEdge hs' →
          g.getEdge l t ∈ hs' → u' = u) := by
  obtain ⟨g, ghosts, e, hr⟩ := build_spec me peers total i hwf
  have hc := hr.core hwf
  rw [hh] at hc
  refine ⟨g, e, fun t ht l hl => ?_⟩
  have htn : t < g.numTypes := by rw [hc.numTypes]; exact ht
  rw [← offs_degOf_false _ hwf.nodup] at hl
  set c := (fun u => degOf false i.types[t].pins (i.verts.getD u 0)) with hcdef
  obtain ⟨u, k, hu, hk, rfl⟩ := edge_index_split c _ hl
  have hcu : ∀ u (hu : u < i.verts.length), c u = degOf false i.types[t].pins i.verts[u] := by
    intro u hu; simp [hcdef, hu]
  obtain ⟨et, he, hrt, -⟩ := hc.typ t ht
  refine ⟨u, hu, ?_, ⟨_, yields_edges_trad hc ht hu, ?_⟩, ?_⟩
  · intro fuel hf
    have h2 : offs c u + k < offs c (u + 1) := by rw [offs_succ]; omega
    have h3 : offs c (u + 1) ≤ offs c i.verts.length := offs_mono c (by omega)
    obtain ⟨j, e1, h4, h5, h6, h7⟩ := uLoop_finds et.degreeList (offs c) i.verts.length (offs c u + k) hrt.deg
      fuel 0 i.verts.length (by omega) (Nat.le_refl _) (by simp [offs_zero]) (by omega) (by omega)
    have : j = u := offs_unique c h6 h7 (by omega) h2
    subst this
    unfold Graph.uOf
    rw [decode_getEdge htn, Outcome.bind_ok]
    simp only
    rw [Graph.slot_ok he, Outcome.bind_ok, hc.v.nl, e1]
    rfl
  · simp only [List.mem_map, List.mem_range'_1]
    refine ⟨_, ⟨?_, ?_⟩, rfl⟩
    · exact Nat.le_add_right _ _
    · have := hcu u hu
      rw [← hcdef]; omega
  · intro u' hs' hu' ⟨s, hs1, hs2⟩ hmem
    obtain ⟨s2, hs3, hs4⟩ := yields_edges_trad hc ht hu'
    rw [hs1] at hs3
    cases hs3
    have := yields_unique _ _ _ hs2 hs4
    subst this
    simp only [List.mem_map, List.mem_range'_1] at hmem
    obtain ⟨m, ⟨hm1, hm2⟩, hm3⟩ := hmem
    have hinj := (c01_edge_handles g m (offs c u + k) t t htn htn).2.2 hm3
    obtain ⟨rfl, -⟩ := hinj
    exact offs_unique c hm1 (by rw [offs_succ, hcu u' hu']; exact hm2)
      (Nat.le_add_right _ _) (by rw [offs_succ]; omega)

example : sampleT.WF ∧ sampleT.hyper = false ∧
    3 < (sampleT.types[0]'(by decide)).pins.countP (fun p => decide (∃ v ∈ sampleT.verts, p[0]? = some v)) :=
  ⟨sampleT_wf, rfl, by decide⟩

/-- **C07**, the other direction: for an index at or beyond that number the search never ends, however
many rounds it is given. -/
theorem c07_u_endless (me : Part) (peers : Nat) (total : Int) (i : Input) (hwf : i.WF)
    (hh : i.hyper = false) (hne : i.verts ≠ []) :
    ∃ g, build me peers total i = .ok g ∧ ∀ t (ht : t < i.types.length), ∀ l,
      i.types[t].pins.countP (fun p => decide (∃ v ∈ i.verts, p[0]? = some v)) ≤ l →
      ∀ fuel, g.uOf fuel (g.getEdge l t) = .ok none := by
  obtain ⟨g, ghosts, e, hr⟩ := build_spec me peers total i hwf
  have hc := hr.core hwf
  rw [hh] at hc
  refine ⟨g, e, fun t ht l hl fuel => ?_⟩
  have htn : t < g.numTypes := by rw [hc.numTypes]; exact ht
  rw [← offs_degOf_false _ hwf.nodup] at hl
  obtain ⟨et, he, hrt, -⟩ := hc.typ t ht
  have hpos : 0 < i.verts.length := List.length_pos_iff.mpr hne
  have := uLoop_endless et.degreeList _ i.verts.length l hrt.deg
    (fun k hk => Nat.le_trans (offs_mono _ hk) hl) hpos fuel 0 hpos
  unfold Graph.uOf
  rw [decode_getEdge htn, Outcome.bind_ok]
  simp only
  rw [Graph.slot_ok he, Outcome.bind_ok, hc.v.nl, this]
  rfl

/-- a traditional part whose second edge starts at the ghost 9 -/
def sampleGhostSrc : Input :=
  { hyper := false, verts := [1, 2], wgts := [], types := [⟨[11, 12], [[1, 2], [9, 1]], []⟩] }

theorem sampleGhostSrc_wf : sampleGhostSrc.WF := by
  refine ⟨by decide, by decide, ?_⟩
  intro e he
  simp only [sampleGhostSrc, List.mem_cons, List.not_mem_nil, or_false] at he
  subst he
  exact ⟨by decide, by decide, by decide⟩

example : sampleGhostSrc.WF ∧ sampleGhostSrc.hyper = false ∧ sampleGhostSrc.verts ≠ [] :=
  ⟨sampleGhostSrc_wf, rfl, by decide⟩

/-- **Defect** (C07): an edge with a non-local source is counted as a local edge, so `begin(0)` yields its
handle, and `u` of that handle never ends. -/
theorem c07_ghost_source_endless :
    ∃ g, build 0 2 3 sampleGhostSrc = .ok g ∧
      YieldsFrom (g.edgeBegin 0) g.iterEdge [g.getEdge 0 0, g.getEdge 1 0] ∧
      ∀ fuel, g.uOf fuel (g.getEdge 1 0) = .ok none := by
  obtain ⟨g, ghosts, e, hr⟩ := build_spec 0 2 3 sampleGhostSrc sampleGhostSrc_wf
  have hc := hr.core sampleGhostSrc_wf
  refine ⟨g, e, yields_edgeBegin hc (t := 0) (by decide), ?_⟩
  obtain ⟨g', e', h'⟩ := c07_u_endless 0 2 3 sampleGhostSrc sampleGhostSrc_wf rfl (by decide)
  rw [e] at e'; cases e'
  exact h' 0 (by decide) 1 (by decide)

/-! ## C08 edge weights -/

/-- **C08** for hypergraphs: the weight of the `k`-th hyperedge of a type is the weight supplied for it,
1 when no weights were supplied. -/
theorem c08_hyperedge_weights (me : Part) (peers : Nat) (total : Int) (i : Input) (hwf : i.WF)
    (hh : i.hyper = true) :
    ∃ g, build me peers total i = .ok g ∧ ∀ t (ht : t < i.types.length), ∀ k (_ : k < i.types[t].pins.length),
      g.weightE (g.getEdge k t) = .ok (i.types[t].wgts.getD k 1) := by
  obtain ⟨g, ghosts, e, hr⟩ := build_spec me peers total i hwf
  have hc := hr.core hwf
  rw [hh] at hc
  refine ⟨g, e, fun t ht k hk => ?_⟩
  have hw := hc.wf _ (List.getElem_mem ht)
  have hk' : k < i.types[t].weights.length := by rw [weights_length hw]; exact hk
  rw [weightE_eq hc ht hk']
  congr 1
  simp only [EdgeInput.weights]
  split
  · rename_i hz; simp [hz]
  · rename_i hz
    have : i.types[t].wgts.length = i.types[t].ids.length := by
      rcases hw.wgts_len with h1 | h1
      · exact absurd h1 hz
      · exact h1
    have hk2 : k < i.types[t].wgts.length := by rw [this, hw.ids_len]; exact hk
    simp [hk2]

example : sampleH.WF ∧ sampleH.hyper = true := ⟨sampleH_wf, rfl⟩

/-- **Defect** (C08): in a traditional graph the weights stay in input order while the edges are
reordered by source.  In `sampleT` the edge 1→2 was supplied with weight 7, but the only edge of vertex 1,
whose far end is 2, reports weight 5 (the weight supplied for 2→1). -/
theorem c08_traditional_weights_permuted :
    sampleT.types.map (fun e => (e.pins.zip e.wgts).find? (fun p => p.1 = [1, 2])) = [some ([1, 2], 7)] ∧
    (do let g ← build 0 2 3 sampleT
        let v ← g.findGID 1
        let it ← g.edges v 0
        let (e, _) ← g.iterEdge it
        let far ← g.vOf e
        let gid ← g.globalID far
        let w ← g.weightE e
        return (gid, w)) = Outcome.ok ((2 : Gid), (5 : Wgt)) := by
  constructor
  · decide
  · decide +kernel

/-- splitting a list that is sorted by a key -/
theorem sorted_split {α : Type} (key : α → Nat) (u : Nat) : ∀ (z : List α),
    z.Pairwise (fun a b => key a ≤ key b) →
    z = z.filter (fun a => key a < u) ++ (z.filter (fun a => key a == u) ++ z.filter (fun a => u < key a)) := by
  intro z
  induction z with
  | nil => intro _; rfl
  | cons a z ih =>
    intro h
    rw [List.pairwise_cons] at h
    have ih' := ih h.2
    rcases Nat.lt_trichotomy (key a) u with hlt | heq | hgt
    · have h1 : decide (key a < u) = true := by simpa using hlt
      have h2 : (key a == u) = false := by simp; omega
      have h3 : decide (u < key a) = false := by simp; omega
      simp only [List.filter_cons, h1, h2, h3, if_true, Bool.false_eq_true, if_false, List.cons_append]
      rw [← ih']
    · have h1 : decide (key a < u) = false := by simp; omega
      have h2 : (key a == u) = true := by simpa using heq
      have h3 : decide (u < key a) = false := by simp; omega
      have h4 : z.filter (fun a => decide (key a < u)) = [] := by
        rw [List.filter_eq_nil_iff]
        intro b hb
        have := h.1 b hb
        simp; omega
      simp only [List.filter_cons, h1, h2, h3, if_true, Bool.false_eq_true, if_false, h4, List.nil_append,
        List.cons_append]
      rw [h4, List.nil_append] at ih'
      rw [← ih']
    · have h1 : decide (key a < u) = false := by simp; omega
      have h2 : (key a == u) = false := by simp; omega
      have h3 : decide (u < key a) = true := by simpa using hgt
      have h4 : z.filter (fun a => decide (key a < u)) = [] := by
        rw [List.filter_eq_nil_iff]
        intro b hb
        have := h.1 b hb
        simp; omega
      have h5 : z.filter (fun a => key a == u) = [] := by
        rw [List.filter_eq_nil_iff]
        intro b hb
        have := h.1 b hb
        simp; omega
      simp only [List.filter_cons, h1, h2, h3, if_true, Bool.false_eq_true, if_false, h4, h5, List.nil_append]
      rw [h4, h5, List.nil_append, List.nil_append] at ih'
      rw [← ih']

theorem count_lt {α : Type} (key : α → Nat) (z : List α) : ∀ u,
    (z.filter (fun a => key a < u)).length = offs (fun w => (z.filter (fun a => key a == w)).length) u := by
  intro u
  induction u with
  | zero => simp [offs]
  | succ u ih =>
    rw [offs_succ, ← ih]
    clear ih
    induction z with
    | nil => rfl
    | cons a z ih =>
      rcases Nat.lt_trichotomy (key a) u with h | h | h
      · have h1 : decide (key a < u + 1) = true := by simp; omega
        have h2 : decide (key a < u) = true := by simpa using h
        have h3 : (key a == u) = false := by simp; omega
        simp only [List.filter_cons, h1, h2, h3, if_true, Bool.false_eq_true, if_false, List.length_cons, ih]
        omega
      · have h1 : decide (key a < u + 1) = true := by simp; omega
        have h2 : decide (key a < u) = false := by simp; omega
        have h3 : (key a == u) = true := by simpa using h
        simp only [List.filter_cons, h1, h2, h3, if_true, Bool.false_eq_true, if_false, List.length_cons, ih]
        omega
      · have h1 : decide (key a < u + 1) = false := by simp; omega
        have h2 : decide (key a < u) = false := by simp; omega
        have h3 : (key a == u) = false := by simp; omega
        simp only [List.filter_cons, h1, h2, h3, Bool.false_eq_true, if_false, ih]

/-- the local index of the source of an edge -/
def srcIdx (verts : List Gid) (p : List Gid) : Nat := verts.idxOf (p.getD 0 0)

/-- **C08** for traditional graphs, restricted: when the edges of a type are supplied grouped by source, in
the order of the local vertices, all with local sources, then the edges of each local vertex carry the
weights supplied for them.  Missing compared to C08: any other input order, for which the claim is
false (`c08_traditional_weights_permuted`). -/
theorem c08_traditional_weights_partial (me : Part) (peers : Nat) (total : Int) (i : Input) (hwf : i.WF)
    (hh : i.hyper = false) :
    ∃ g, build me peers total i = .ok g ∧ ∀ t (ht : t < i.types.length),
      i.types[t].wgts.length = i.types[t].ids.length →
      (∀ p ∈ i.types[t].pins, p.getD 0 0 ∈ i.verts) →
      i.types[t].pins.Pairwise (fun p q => srcIdx i.verts p ≤ srcIdx i.verts q) →
      ∀ u (hu : u < i.verts.length), ∃ hs, YieldsFrom (g.edges (getVertex u) t) g.iterEdge hs ∧
        hs.mapM g.weightE = .ok (((i.types[t].pins.zip i.types[t].wgts).filter
          (fun q => q.1[0]? == some i.verts[u])).map (·.2)) := by
  obtain ⟨g, ghosts, e, hr⟩ := build_spec me peers total i hwf
  have hc := hr.core hwf
  rw [hh] at hc
  refine ⟨g, e, fun t ht hwl hsrc hsort u hu => ⟨_, yields_edges_trad hc ht hu, ?_⟩⟩
  have hwft := hc.wf _ (List.getElem_mem ht)
  have hweq : i.types[t].weights = i.types[t].wgts := by
    unfold EdgeInput.weights
    split
    · rename_i hz
      rw [hz] at hwl ⊢
      simp at hwl
      rw [← hwl]; rfl
    · rfl
  have hlen : i.types[t].pins.length = i.types[t].wgts.length := by rw [hwl, hwft.ids_len]
  set es := i.types[t].pins with hes
  set ws := i.types[t].wgts with hws
  set z := es.zip ws with hz
  have hzfst : z.map (·.1) = es := by rw [hz, List.map_fst_zip]; omega
  have hzsnd : z.map (·.2) = ws := by rw [hz, List.map_snd_zip]; omega
  -- the key of a pair equals w exactly when its source is verts[w]
  have hkey : ∀ w (hw : w < i.verts.length) p, p ∈ es →
      ((srcIdx i.verts p == w) = (p[0]? == some i.verts[w])) := by
    intro w hw p hp
    have h2 := hwft.two rfl p hp
    have hm := hsrc p hp
    have hg : p[0]? = some (p.getD 0 0) := by
      rw [List.getD_eq_getElem?_getD, List.getElem?_eq_getElem (by omega)]; rfl
    rw [hg]
    have hnd : (i.verts ++ ([] : List Gid)).Nodup := by simpa using hwf.nodup
    have := idxOf_eq_iff hnd (w := p.getD 0 0) (by simpa using hm) hw
    rw [List.append_nil] at this
    have h3 : srcIdx i.verts p = w ↔ (some (p.getD 0 0) = some i.verts[w]) := by
      rw [Option.some_inj]; exact this
    by_cases hb : srcIdx i.verts p = w
    · rw [show (srcIdx i.verts p == w) = true by simpa using hb, h3.mp hb]; simp
    · have hb' := fun h => hb (h3.mpr h)
      rw [show (srcIdx i.verts p == w) = false by simpa using hb]
      symm; simpa using hb'
  have hzes : ∀ q ∈ z, q.1 ∈ es := by
    intro q hq; rw [← hzfst]; exact List.mem_map.mpr ⟨q, hq, rfl⟩
  have hfilt : ∀ w (hw : w < i.verts.length),
      (z.filter (fun q => srcIdx i.verts q.1 == w)) = z.filter (fun q => q.1[0]? == some i.verts[w]) := by
    intro w hw
    apply List.filter_congr
    intro q hq
    exact hkey w hw q.1 (hzes q hq)
  have hdeg : ∀ w (hw : w < i.verts.length),
      (z.filter (fun q => srcIdx i.verts q.1 == w)).length = degOf false es i.verts[w] := by
    intro w hw
    rw [hfilt w hw, ← List.countP_eq_length_filter]
    simp only [degOf, Bool.false_eq_true, if_false]
    conv => rhs; rw [← hzfst]
    rw [List.countP_map]; rfl
  have hzsort : z.Pairwise (fun a b => srcIdx i.verts a.1 ≤ srcIdx i.verts b.1) := by
    rw [← hzfst] at hsort
    rw [List.pairwise_map] at hsort
    exact hsort
  have hoff : offs (fun u => degOf false es (i.verts.getD u 0)) u =
      (z.filter (fun q => srcIdx i.verts q.1 < u)).length := by
    rw [count_lt (fun q : List Gid × Wgt => srcIdx i.verts q.1) z u]
    unfold offs
    congr 1
    apply List.map_congr_left
    intro w hw
    have hw' : w < i.verts.length := by have := List.mem_range.mp hw; omega
    rw [hdeg w hw']; simp [hw']
  have hsplit := sorted_split (fun q : List Gid × Wgt => srcIdx i.verts q.1) u z hzsort
  rw [List.mapM_map, mapM_ok (g := fun k => (((z.filter
    (fun q => srcIdx i.verts q.1 == u)).map (·.2)).getD
      (k - offs (fun u => degOf false es (i.verts.getD u 0)) u) 0))]
  · congr 1
    rw [← hfilt u hu]
    apply List.ext_getElem
    · simp only [List.length_map, List.length_range', hdeg u hu]
    · intro k h1 h2
      simp only [List.getElem_map, List.getElem_range', Nat.one_mul, Nat.add_sub_cancel_left]
      rw [List.getD_eq_getElem?_getD, List.getElem?_eq_getElem (by simpa using h2)]
      simp
  · intro k hk
    rw [List.mem_range'_1] at hk
    obtain ⟨m, rfl⟩ : ∃ m, k = offs (fun u => degOf false es (i.verts.getD u 0)) u + m :=
      ⟨k - offs (fun u => degOf false es (i.verts.getD u 0)) u, by omega⟩
    have hm : m < (z.filter (fun q => srcIdx i.verts q.1 == u)).length := by rw [hdeg u hu]; omega
    have hget : ws[offs (fun u => degOf false es (i.verts.getD u 0)) u + m]? =
        some ((z.filter (fun q => srcIdx i.verts q.1 == u))[m]).2 := by
      rw [← hzsnd, List.getElem?_map]
      conv => lhs; rw [hsplit]
      rw [hoff, List.getElem?_append_right (by omega), Nat.add_sub_cancel_left,
        List.getElem?_append_left hm, List.getElem?_eq_getElem hm]
      rfl
    obtain ⟨hlt, hget'⟩ := List.getElem?_eq_some_iff.mp hget
    simp only [Function.comp]
    rw [weightE_eq hc ht (by rw [hweq]; exact hlt)]
    congr 1
    rw [Nat.add_sub_cancel_left, List.getD_eq_getElem?_getD, List.getElem?_eq_getElem (by simpa using hm)]
    simp only [List.getElem_map, Option.getD_some, hweq]
    exact hget'

/-- a traditional part whose edges are grouped by source -/
def sampleTgrouped : Input :=
  { hyper := false, verts := [1, 2], wgts := [],
    types := [⟨[11, 12, 13], [[1, 2], [2, 1], [2, 7]], [5, 7, 9]⟩] }

example : sampleTgrouped.WF ∧ sampleTgrouped.hyper = false ∧
    (∀ e ∈ sampleTgrouped.types, e.wgts.length = e.ids.length ∧
      (∀ p ∈ e.pins, p.getD 0 0 ∈ sampleTgrouped.verts) ∧
      e.pins.Pairwise (fun p q => srcIdx sampleTgrouped.verts p ≤ srcIdx sampleTgrouped.verts q)) := by
  refine ⟨⟨by decide, by decide, ?_⟩, rfl, ?_⟩
  · intro e he
    simp only [sampleTgrouped, List.mem_cons, List.not_mem_nil, or_false] at he
    subst he
    exact ⟨by decide, by decide, by decide⟩
  · intro e he
    simp only [sampleTgrouped, List.mem_cons, List.not_mem_nil, or_false] at he
    subst he
    exact ⟨by decide, by decide, by decide⟩

/-! ## C09 iteration -/

/-- **C09**, vertices and ghosts of any graph: iteration visits the local indices `0..n-1`
(the ghost indices `n..n+m-1`) once each, in order, and then gives NULL. -/
theorem c09_vertex_iteration (g : Graph) :
    (∃ hs, Yields g.iterVertex vertexBegin hs ∧ hs.Nodup ∧
      hs.map fromPtr = (List.range g.numLocal).map some) ∧
    (∃ hs, Yields g.iterGhost g.ghostBegin hs ∧ hs.Nodup ∧
      hs.map fromPtr = (List.range g.numGhost).map (fun k => some (g.numLocal + k))) := by
  refine ⟨⟨_, yields_vertices g, ?_, ?_⟩, ⟨_, yields_ghosts g, ?_, ?_⟩⟩
  · refine List.Nodup.map (fun a b h => ?_) List.nodup_range
    simpa [getVertex] using h
  · rw [List.map_map]; apply List.map_congr_left; intro k _; simp [fromPtr, getVertex]
  · refine List.Nodup.map (fun a b h => ?_) List.nodup_range
    simpa [getVertex] using h
  · rw [List.map_map]; apply List.map_congr_left; intro k _; simp [fromPtr, getVertex]

/-- **C09**, edges: on a built graph (of either kind) `begin(t)`/`iterate` visits every edge of type `t`
once, in index order, and no edge of another type, then gives NULL. -/
theorem c09_edge_iteration (me : Part) (peers : Nat) (total : Int) (i : Input) (hwf : i.WF) :
    ∃ g, build me peers total i = .ok g ∧ ∀ t (ht : t < i.types.length),
      ∃ hs, YieldsFrom (g.edgeBegin t) g.iterEdge hs ∧ hs.Nodup ∧
        hs.mapM g.decodeEdge = .ok ((List.range i.types[t].pins.length).map (fun l => (t, l))) := by
  obtain ⟨g, ghosts, e, hr⟩ := build_spec me peers total i hwf
  have hc := hr.core hwf
  refine ⟨g, e, fun t ht => ⟨_, yields_edgeBegin hc ht, ?_, ?_⟩⟩
  · have htn : t < g.numTypes := by rw [hc.numTypes]; exact ht
    refine List.Nodup.map (fun a b h => ?_) List.nodup_range
    exact ((c01_edge_handles g a b t t htn htn).2.2 h).1
  · rw [List.mapM_map]
    exact mapM_ok (fun l _ => decode_getEdge (by rw [hc.numTypes]; exact ht))

example : sampleH.WF ∧ sampleT.WF := ⟨sampleH_wf, sampleT_wf⟩

/-! ## C01, integer width

`getEdge` and the hypergraph branch of `iterate` compute `num_types*lid+t+1` in `lid_t`, which may be a
32-bit type (agi/CMakeLists.txt:5-22); `pins`, `degree`, ... decode from 64-bit arithmetic. -/

/-- the value a signed `w`-bit computation leaves in the handle, or `.ub` on overflow
(agi/agiEdge.cpp:12-14, agi/agiIterate.cpp:69) -/
def getEdgeW (w numTypes lid t : Nat) : Outcome Nat :=
  if 2 ^ (w - 1) ≤ numTypes * lid ∨ 2 ^ (w - 1) ≤ numTypes * lid + t + 1 then .ub
  else .ok (numTypes * lid + t + 1)

/-- **C01**, exact range: with a `w`-bit `lid_t` a handle is computed without overflow, and then decodes
correctly, exactly when `num_types*lid+t+1` is representable. -/
theorem c01_edge_handle_width (g : Graph) (w l t : Nat) (ht : t < g.numTypes) :
    (g.numTypes * l + t + 1 < 2 ^ (w - 1) →
      ∃ h, getEdgeW w g.numTypes l t = .ok h ∧ g.decodeEdge h = .ok (t, l)) ∧
    (2 ^ (w - 1) ≤ g.numTypes * l + t + 1 → getEdgeW w g.numTypes l t = .ub) := by
  constructor
  · intro h
    refine ⟨g.getEdge l t, ?_, decode_getEdge ht⟩
    unfold getEdgeW
    rw [if_neg (by omega)]; rfl
  · intro h
    unfold getEdgeW
    rw [if_pos (.inr h)]

/-- there are graphs (7 types) with edge indices well inside a 32-bit `lid_t` whose handle overflows -/
example : (400000000 : Nat) < 2 ^ 31 ∧ getEdgeW 32 7 400000000 0 = .ub := by decide

end Verif.Agi
