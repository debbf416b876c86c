import Verif.Agi.FillLemmas
/-!
# What a constructed graph contains: representation predicates and the construction theorem
-/
namespace Verif.Agi

/-- the vertex data of `g` are the local gids `verts` followed by the ghost gids `ghosts` -/
structure VRep (g : Graph) (verts ghosts : List Gid) : Prop where
  nl : g.numLocal = verts.length
  ng : g.numGhost = ghosts.length
  nodup : (verts ++ ghosts).Nodup
  map : g.vtxMap = lookup (verts ++ ghosts)
  loc : g.localUnmap = Mem.ofList verts
  gho : (ghosts = [] ∧ g.ghostUnmap = none) ∨ g.ghostUnmap = some (Mem.ofList ghosts)

/-- number of pins that count for the degree of `v`: with multiplicity in a hypergraph, the edges with
source `v` in a traditional graph -/
def degOf (hyper : Bool) (es : List (List Gid)) (v : Gid) : Nat :=
  if hyper then es.flatten.count v else es.countP (fun p => p[0]? == some v)

/-- the entries of `edge_list` of vertex `v`: hypergraph – edge numbers; traditional – destinations -/
def adjOf (hyper : Bool) (known : List Gid) (es : List (List Gid)) (v : Gid) : List Nat :=
  if hyper then es.zipIdx.flatMap (fun p => List.replicate (p.1.count v) p.2)
  else (es.filter (fun p => p[0]? == some v)).map (fun p => known.idxOf (p.getD 1 0))

/-- the arrays of an edge type built from the pin lists `es` (edge `i` has gid `ids[i]`) -/
structure TRep (hyper : Bool) (e : EType) (verts known ids : List Gid) (es : List (List Gid)) : Prop where
  numE : e.numEdges = es.length
  numP : e.numPins = es.flatten.length
  ids_len : ids.length = es.length
  unmap : e.unmap = Mem.ofList ids
  pd : e.pinDegree = Mem.ofList ((List.range (es.length + 1)).map (pinOff es))
  pl : e.pinList = Mem.ofList (es.flatten.map (fun v => known.idxOf v))
  deg_len : e.degreeList.length = verts.length + 1
  deg : ∀ k, k ≤ verts.length → e.degreeList[k]? =
    some (some (offs (fun u => degOf hyper es (verts.getD u 0)) k))
  adj : ∀ u (h : u < verts.length) k (hk : k < (adjOf hyper known es verts[u]).length),
    e.edgeList[offs (fun u => degOf hyper es (verts.getD u 0)) u + k]? =
      some (some (adjOf hyper known es verts[u])[k])
  list_len : e.edgeList.length = offs (fun u => degOf hyper es (verts.getD u 0)) verts.length

theorem adjOf_length (hyper : Bool) (known : List Gid) (es : List (List Gid)) (v : Gid) :
    (adjOf hyper known es v).length = degOf hyper es v := by
  cases hyper with
  | false =>
    simp [adjOf, degOf, List.countP_eq_length_filter]
  | true =>
    simp only [adjOf, degOf, if_true]
    have : ∀ (es : List (List Gid)) n, ((es.zipIdx n).flatMap (fun p => List.replicate (p.1.count v) p.2)).length
        = es.flatten.count v := by
      intro es
      induction es with
      | nil => intro n; simp
      | cons p es ih => intro n; simp [List.zipIdx_cons, ih, List.count_append]
    exact this es 0

/-- among known gids with the locals first, the number of `w` is `u` exactly for `w = verts[u]` -/
theorem idxOf_eq_iff {verts ghosts : List Gid} (hnd : (verts ++ ghosts).Nodup) {w : Gid}
    (hw : w ∈ verts ++ ghosts) {u : Nat} (hu : u < verts.length) :
    (verts ++ ghosts).idxOf w = u ↔ w = verts[u] := by
  have hget : (verts ++ ghosts)[u]'(by simp; omega) = verts[u] := List.getElem_append_left hu
  constructor
  · intro h
    subst h
    rw [← hget]; exact (List.getElem_idxOf _).symm
  · intro h
    rw [h, ← hget]
    exact hnd.idxOf_getElem u _

theorem bucket_incid {verts ghosts : List Gid} (hnd : (verts ++ ghosts).Nodup) (es : List (List Gid))
    (hmem : ∀ v ∈ es.flatten, v ∈ verts ++ ghosts) {u : Nat} (hu : u < verts.length) :
    bucket u (incid (verts ++ ghosts) es) = adjOf true (verts ++ ghosts) es verts[u] := by
  unfold incid adjOf
  rw [if_pos rfl]
  suffices H : ∀ (es : List (List Gid)) n, (∀ v ∈ es.flatten, v ∈ verts ++ ghosts) →
      bucket u ((es.zipIdx n).flatMap (fun p => p.1.map (fun v => ((verts ++ ghosts).idxOf v, p.2)))) =
      (es.zipIdx n).flatMap (fun p => List.replicate (p.1.count verts[u]) p.2) from H es 0 hmem
  intro es
  induction es with
  | nil => intro n _; rfl
  | cons p es ih =>
    intro n hm
    rw [List.zipIdx_cons, List.flatMap_cons, List.flatMap_cons, bucket_append]
    congr 1
    · have hp : ∀ v ∈ p, v ∈ verts ++ ghosts := fun v hv => hm v (by simp [hv])
      clear hm ih
      induction p with
      | nil => rfl
      | cons v p ihp =>
        have h1 := ihp (fun v hv => hp v (by simp [hv]))
        simp only [List.map_cons]
        rw [show ((verts ++ ghosts).idxOf v, n) :: p.map (fun v => ((verts ++ ghosts).idxOf v, n)) =
          [((verts ++ ghosts).idxOf v, n)] ++ p.map (fun v => ((verts ++ ghosts).idxOf v, n)) from rfl,
          bucket_append]
        simp only at h1
        rw [h1]
        have hiff := idxOf_eq_iff hnd (hp v (by simp)) hu
        by_cases hv : v = verts[u]
        · rw [List.count_cons, if_pos (by simpa using hv), List.replicate_succ]
          have : (verts ++ ghosts).idxOf v = u := hiff.mpr hv
          simp [bucket, this]
        · rw [List.count_cons, if_neg (by simpa using hv)]
          have : (verts ++ ghosts).idxOf v ≠ u := fun h => hv (hiff.mp h)
          simp [bucket, this]
    · exact ih (n + 1) (fun v hv => hm v (by simp [hv]))

theorem bucket_arcs {verts ghosts : List Gid} (hnd : (verts ++ ghosts).Nodup) (es : List (List Gid))
    (hmem : ∀ v ∈ es.flatten, v ∈ verts ++ ghosts) (h2 : ∀ p ∈ es, p.length = 2)
    {u : Nat} (hu : u < verts.length) :
    bucket u (arcs (verts ++ ghosts) es) = adjOf false (verts ++ ghosts) es verts[u] := by
  unfold arcs adjOf
  rw [if_neg (by decide)]
  induction es with
  | nil => rfl
  | cons p es ih =>
    have ih' := ih (fun v hv => hmem v (by simp [hv])) (fun q hq => h2 q (by simp [hq]))
    obtain ⟨a, b, rfl⟩ : ∃ a b, p = [a, b] := by
      match p, h2 p (by simp) with
      | [a, b], _ => exact ⟨a, b, rfl⟩
    have hiff := idxOf_eq_iff hnd (hmem a (by simp)) hu
    rw [List.map_cons, show ∀ (x : Nat × Nat) l, x :: l = [x] ++ l from fun _ _ => rfl, bucket_append, ih']
    by_cases hv : a = verts[u]
    · have : (verts ++ ghosts).idxOf a = u := hiff.mpr hv
      rw [hv] at this
      simp [bucket, hv, this]
    · have : (verts ++ ghosts).idxOf a ≠ u := fun h => hv (hiff.mp h)
      simp [bucket, this, hv]

theorem cnt_hyper (pins : List Gid) (v : Gid) : ∀ J, J ≤ pins.length →
    cnt true pins J v = (pins.take J).count v := by
  intro J
  induction J with
  | zero => intro _; rfl
  | succ J ih =>
    intro h
    rw [cnt_succ, ih (by omega), List.take_succ_eq_append_getElem (by omega), List.count_append]
    congr 1
    rw [List.getElem?_eq_getElem (by omega)]
    by_cases hv : pins[J] = v <;> simp [hv]

theorem pinOff_two (es : List (List Gid)) (h2 : ∀ p ∈ es, p.length = 2) :
    ∀ i, i ≤ es.length → pinOff es i = 2 * i := by
  intro i
  induction i with
  | zero => intro _; rfl
  | succ i ih =>
    intro h
    rw [pinOff_succ es (by omega), ih (by omega), h2 _ (List.getElem_mem _)]; omega

theorem cnt_trad (es : List (List Gid)) (h2 : ∀ p ∈ es, p.length = 2) (v : Gid) :
    ∀ i, i ≤ es.length → cnt false es.flatten (2 * i) v = (es.take i).countP (fun p => p[0]? == some v) := by
  intro i
  induction i with
  | zero => intro _; rfl
  | succ i ih =>
    intro h
    have hi : i < es.length := by omega
    have hl2 : es[i].length = 2 := h2 _ (List.getElem_mem _)
    have g0 := flatten_getElem? es hi 0 (by omega)
    rw [pinOff_two es h2 i (by omega), Nat.add_zero] at g0
    rw [show 2 * (i + 1) = 2 * i + 1 + 1 by omega, cnt_succ, cnt_succ, ih (by omega),
      List.take_succ_eq_append_getElem hi, List.countP_append]
    have : ¬ (((2 * i + 1) % 2 = 0 ∨ false = true) ∧ es.flatten[2 * i + 1]? = some v) := by
      rintro ⟨h | h, -⟩
      · omega
      · cases h
    rw [if_neg this, g0]
    by_cases hv : es[i][0] = v
    · rw [if_pos ⟨Or.inl (by omega), by rw [hv]⟩]
      simp [hv, List.getElem?_eq_getElem (show 0 < es[i].length by omega)]
    · rw [if_neg (by rintro ⟨-, h⟩; exact hv (Option.some.inj h))]
      simp [hv, List.getElem?_eq_getElem (show 0 < es[i].length by omega)]

theorem cnt_degOf (hyper : Bool) (es : List (List Gid)) (h2 : hyper = false → ∀ p ∈ es, p.length = 2)
    (v : Gid) : cnt hyper es.flatten es.flatten.length v = degOf hyper es v := by
  cases hyper with
  | true => rw [cnt_hyper _ _ _ (Nat.le_refl _), List.take_length]; simp [degOf]
  | false =>
    have := cnt_trad es (h2 rfl) v es.length (Nat.le_refl _)
    rw [← pinOff_two es (h2 rfl) es.length (Nat.le_refl _), pinOff_length] at this
    rw [this]; simp [degOf]

theorem ofList_of_get {α : Type} {m : Mem α} {l : List α} (hl : m.length = l.length)
    (h : ∀ i (hi : i < l.length), m[i]? = some (some l[i])) : m = Mem.ofList l := by
  apply List.ext_getElem?
  intro i
  by_cases hi : i < l.length
  · rw [h i hi]; simp [Mem.ofList, hi]
  · rw [List.getElem?_eq_none (by omega), List.getElem?_eq_none (by simp [Mem.ofList]; omega)]

theorem growGhosts_spec {gu : Option (Mem Gid)} {ghosts : List Gid} {nl ng new : Nat} {known : List Gid}
    (verts : List Gid) (hnl : verts.length = nl)
    (hg : (ghosts = [] ∧ gu = none) ∨ gu = some (Mem.ofList ghosts)) (hng : ng = ghosts.length + new)
    (hk : known.length = nl + ng) (hpre : verts ++ ghosts <+: known) (hnd : known.Nodup) :
    ∃ gu', growGhosts gu ng new = .ok gu' ∧ GhostInv nl known (verts ++ ghosts) [] gu' := by
  have hold : ∀ k (h : nl + k < known.length), known[nl + k] ∈ verts ++ ghosts → k < ghosts.length ∧
      ∀ (hk : k < ghosts.length), ghosts[k] = known[nl + k] := by
    intro k h hm
    obtain ⟨r, rfl⟩ := hpre
    have hlt : nl + k < (verts ++ ghosts).length := by
      rcases Nat.lt_or_ge (nl + k) (verts ++ ghosts).length with h' | h'
      · exact h'
      · exfalso
        rw [List.getElem_append_right h'] at hm
        rw [List.nodup_append] at hnd
        exact hnd.2.2 _ hm _ (List.getElem_mem _) rfl
    have hkl : k < ghosts.length := by simp at hlt; omega
    refine ⟨hkl, fun _ => ?_⟩
    rw [List.getElem_append_left hlt, List.getElem_append_right (by omega)]
    congr 1; omega
  unfold growGhosts
  by_cases hz : new = 0
  · rw [if_pos hz]
    refine ⟨gu, rfl, ?_⟩
    rcases hg with ⟨rfl, rfl⟩ | rfl
    · simp [GhostInv]; simp at hng; omega
    · refine ⟨by simp; omega, ?_⟩
      intro k h hor
      simp at hor
      obtain ⟨h1, h2⟩ := hold k h (by simpa using hor)
      rw [← h2 h1]; simp [Mem.ofList, h1]
  · rw [if_neg hz]
    rcases hg with ⟨rfl, rfl⟩ | rfl
    · refine ⟨_, rfl, by simp; omega, ?_⟩
      intro k h hor
      simp at hor
      obtain ⟨h1, -⟩ := hold k h (by simpa using hor)
      simp at h1
    · simp only
      obtain ⟨m', e, hl, ha⟩ := range_inv
        (fun (m : Mem Gid) i => do let v ← (Mem.ofList ghosts).load i; m.store i v)
        (fun i m => m.length = ng ∧ ∀ k (h : k < i) (h : k < ghosts.length), m[k]? = some (some ghosts[k]))
        0 (ng - new)
        (by
          intro k m hk ⟨hl, ha⟩
          have hkg : 0 + k < ghosts.length := by omega
          rw [Mem.load_ofList hkg, Outcome.bind_ok, Mem.store_ok _ (by omega)]
          refine ⟨_, rfl, by simpa using hl, ?_⟩
          intro k' h1 h2
          rw [List.getElem?_set]
          by_cases he : 0 + k = k'
          · subst he; rw [if_pos rfl, if_pos (by omega)]
          · rw [if_neg he]; exact ha k' (by omega) h2)
        (Mem.alloc ng) ⟨by simp, by omega⟩
      rw [e]
      refine ⟨_, rfl, by omega, ?_⟩
      intro k h hor
      simp at hor
      obtain ⟨h1, h2⟩ := hold k h (by simpa using hor)
      rw [ha k (by omega) h1, h2 h1]

/-- **Construction of an edge type.**  Starting from a graph with local vertices `verts` and ghosts
`ghosts`, given edges `es` (pin lists), the body of `constructEdges` succeeds and builds the arrays of
`TRep`; the new ghosts are the unknown pins in order of first appearance. -/
theorem constructEdgesBody_spec {g : Graph} {verts ghosts : List Gid} (hv : VRep g verts ghosts)
    (hnt : g.numTypes ≠ maxTypes) (ids : List Gid) (es : List (List Gid))
    (hids : ids.length = es.length) (h2 : g.isHyper = false → ∀ p ∈ es, p.length = 2) :
    ∃ (g' : Graph) (e : EType) (new : List Gid),
      constructEdgesBody g ids (es.map List.length) es.flatten es.flatten.length = .ok (g', e) ∧
      extend (verts ++ ghosts) es.flatten = verts ++ ghosts ++ new ∧
      VRep g' verts (ghosts ++ new) ∧
      TRep g.isHyper e verts (verts ++ (ghosts ++ new)) ids es ∧
      g' = { g with numTypes := g.numTypes + 1, vtxMap := g'.vtxMap, numGhost := g'.numGhost,
                    ghostUnmap := g'.ghostUnmap } ∧
      e.globalEdges = 0 ∧ e.globalPins = 0 ∧ e.vevOffsets = none ∧ e.eveOffsets = none := by
  obtain ⟨hnl, hng, hnd, hmap, hloc, hgho⟩ := hv
  have hndv : verts.Nodup := (List.nodup_append.mp hnd).1
  -- the final list of known gids
  set known := extend (verts ++ ghosts) es.flatten with hknown
  have hpre : verts ++ ghosts <+: known := extend_prefix _ _
  have hkn : known.Nodup := nodup_extend _ hnd
  obtain ⟨new, hnew⟩ := hpre
  have hmem : ∀ v ∈ es.flatten, v ∈ known := fun v hv => (mem_extend _ _ _).mpr (.inr hv)
  -- first loop
  unfold constructEdgesBody
  rw [if_neg hnt]
  dsimp only
  rw [Mem.store_ok _ (by simp), Outcome.bind_ok]
  set s0 : Scan :=
    { vtxMap := g.vtxMap, numGhost := g.numGhost, newGhosts := 0,
      degree := Mem.ofList (List.replicate (g.numLocal + 1) 0),
      pinDegree := (Mem.alloc (ids.length + 1) : Mem Nat).set 0 (some 0),
      pinList := Mem.alloc es.flatten.length, edgeMap := GMap.empty, unmap := Mem.alloc ids.length } with hs0
  have hE0 : EdgeInv g.isHyper verts ghosts ids es es.flatten.length 0 s0 := by
    refine ⟨⟨?_, ?_, ?_, ?_, ?_, ?_, ?_, ?_⟩, ?_, ?_, ?_, ?_⟩
    · simp [hs0, hmap, pinOff, extend]
    · simp [hs0, pinOff, extend, hng]
    · simp [hs0, hng]
    · simp [hs0, hnl]
    · simp [hs0, Mem.ofList]
    · intro k hk
      simp only [hs0, Mem.ofList, pinOff]
      simp [cnt, hnl, hk]
    · simp [hs0]
    · intro j hj; simp [pinOff] at hj
    · simp [hs0, hids]
    · intro k hk
      rw [Nat.le_zero.mp hk]; simp [hs0, pinOff]
    · simp [hs0, hids]
    · intro k hk; omega
  obtain ⟨s, es1, hE⟩ := scan_all hndv hids (Nat.le_refl _) hE0
  rw [show (List.range' 0 ids.length) = List.range' 0 es.length by rw [hids]]
  rw [show g.numLocal = verts.length from hnl]
  rw [es1, Outcome.bind_ok]
  obtain ⟨⟨smap, sgh, snew, sdl, sdz, sde, spl, spe⟩, spdl, spde, sul, sue⟩ := hE
  rw [pinOff_length, List.take_length, ← hknown] at smap sgh spe
  rw [pinOff_length] at sde
  -- prefix sums
  have hdeg : ∀ k (h : k < verts.length), s.degree[k + 1]? =
      some (some (degOf g.isHyper es (verts.getD k 0))) := by
    intro k hk
    rw [sde k hk, cnt_degOf g.isHyper es h2]
    simp [hk]
  obtain ⟨deg, edeg, hdl, hde⟩ := prefix_loop (fun u => degOf g.isHyper es (verts.getD u 0))
    verts.length s.degree sdl sdz hdeg
  rw [edeg, Outcome.bind_ok, Mem.load_ok (hde verts.length (Nat.le_refl _)), Outcome.bind_ok]
  -- ghost table
  obtain ⟨gu, egu, hgu⟩ := growGhosts_spec (nl := verts.length) (ng := s.numGhost) (new := s.newGhosts)
    (known := known) verts rfl hgho snew sgh.symm ⟨new, hnew⟩ hkn
  rw [egu, Outcome.bind_ok]
  have hkeq : known = verts ++ (ghosts ++ new) := by rw [← hnew, List.append_assoc]
  have hkn' : (verts ++ (ghosts ++ new)).Nodup := by rw [← hkeq]; exact hkn
  have hmem' : ∀ v ∈ es.flatten, v ∈ verts ++ (ghosts ++ new) := by rw [← hkeq]; exact hmem
  -- second loop
  have hfill : ∃ f, (List.range' 0 es.length).foldlM
      (fillEdge g.isHyper verts.length es.flatten s.pinDegree s.pinList)
      { temp := deg.take verts.length,
        edgeList := Mem.alloc (offs (fun u => degOf g.isHyper es (verts.getD u 0)) verts.length),
        ghostUnmap := gu } = .ok f ∧
      GhostInv verts.length known (verts ++ ghosts) es.flatten f.ghostUnmap ∧
      f.edgeList.length = offs (fun u => degOf g.isHyper es (verts.getD u 0)) verts.length ∧
      ∀ u (h : u < verts.length) k (hk : k < (adjOf g.isHyper known es verts[u]).length),
        f.edgeList[offs (fun u => degOf g.isHyper es (verts.getD u 0)) u + k]? =
          some (some (adjOf g.isHyper known es verts[u])[k]) := by
    have hF0 : FillInv verts.length (fun u => degOf g.isHyper es (verts.getD u 0)) []
        (deg.take verts.length)
        (Mem.alloc (offs (fun u => degOf g.isHyper es (verts.getD u 0)) verts.length)) := by
      refine ⟨by simp [hdl], ?_, by simp, ?_⟩
      · intro u hu
        rw [List.getElem?_take_of_lt hu, hde u (by omega)]; simp [bucket]
      · intro u hu k hk; simp [bucket] at hk
    have hpls : ∀ j (h : j < es.flatten.length), s.pinList[j]? =
        some (some (known.idxOf es.flatten[j])) := fun j h => spe j h h
    cases hh : g.isHyper with
    | true =>
      rw [hh] at hF0
      have hc : ∀ w, w < verts.length → (bucket w (incid known es)).length =
          degOf true es (verts.getD w 0) := by
        intro w hw
        rw [hkeq, bucket_incid hkn' es hmem' hw, adjOf_length]
        simp [hw]
      obtain ⟨f, ef, hf⟩ := range_inv (fillEdge true verts.length es.flatten s.pinDegree s.pinList)
        (fun i f => LoopInv verts.length known (verts ++ ghosts) (es.take i).flatten
          (fun u => degOf true es (verts.getD u 0)) (incid known (es.take i)) f) 0 es.length
        (by
          intro k f hk hI
          rw [Nat.zero_add]
          exact fillEdge_hyper_inv hkn hmem hk spde hpls hc hI)
        { temp := deg.take verts.length,
          edgeList := Mem.alloc (offs (fun u => degOf true es (verts.getD u 0)) verts.length),
          ghostUnmap := gu } ⟨by simpa [incid] using hF0, by simpa using hgu⟩
      rw [List.take_length] at hf
      refine ⟨f, ef, hf.ghost, hf.fill.list_len, ?_⟩
      intro u hu k hk
      have hb : bucket u (incid known es) = adjOf true known es verts[u] := by
        rw [hkeq]; exact bucket_incid hkn' es hmem' hu
      have := hf.fill.list_eq u hu k (by rw [hb]; exact hk)
      simpa only [hb] using this
    | false =>
      rw [hh] at hF0
      have hc : ∀ w, w < verts.length → (bucket w (arcs known es)).length =
          degOf false es (verts.getD w 0) := by
        intro w hw
        rw [hkeq, bucket_arcs hkn' es hmem' (h2 hh) hw, adjOf_length]
        simp [hw]
      obtain ⟨f, ef, hf⟩ := range_inv (fillEdge false verts.length es.flatten s.pinDegree s.pinList)
        (fun i f => LoopInv verts.length known (verts ++ ghosts) (es.take i).flatten
          (fun u => degOf false es (verts.getD u 0)) (arcs known (es.take i)) f) 0 es.length
        (by
          intro k f hk hI
          rw [Nat.zero_add]
          exact fillEdge_trad_inv hkn hmem hk (h2 hh) spde hpls hc hI)
        { temp := deg.take verts.length,
          edgeList := Mem.alloc (offs (fun u => degOf false es (verts.getD u 0)) verts.length),
          ghostUnmap := gu } ⟨by simpa [arcs] using hF0, by simpa using hgu⟩
      rw [List.take_length] at hf
      refine ⟨f, ef, hf.ghost, hf.fill.list_len, ?_⟩
      intro u hu k hk
      have hb : bucket u (arcs known es) = adjOf false known es verts[u] := by
        rw [hkeq]; exact bucket_arcs hkn' es hmem' (h2 hh) hu
      have := hf.fill.list_eq u hu k (by rw [hb]; exact hk)
      simpa only [hb] using this
  obtain ⟨f, ef, hfg, hfl, hfa⟩ := hfill
  rw [ef, Outcome.bind_ok]
  refine ⟨_, _, new, rfl, hnew.symm, ⟨?_, ?_, hkn', ?_, ?_, ?_⟩, ⟨?_, rfl, hids, ?_, ?_, ?_, hdl, hde, ?_, hfl⟩,
    by simp only [← hnl], rfl, rfl, rfl, rfl⟩
  · rfl
  · simp only
    have := sgh
    rw [hkeq] at this
    simp at this ⊢; omega
  · simp only [smap, hkeq]
  · exact hloc
  · -- all ghosts are written
    simp only
    cases hfu : f.ghostUnmap with
    | none =>
      rw [hfu] at hfg
      simp only [GhostInv, hkeq] at hfg
      left
      refine ⟨?_, rfl⟩
      apply List.eq_nil_of_length_eq_zero
      simp at hfg ⊢; omega
    | some m =>
      rw [hfu] at hfg
      obtain ⟨h1, h3⟩ := hfg
      right
      congr 1
      apply ofList_of_get
      · rw [hkeq] at h1; simp at h1 ⊢; omega
      · intro i hi
        have hlt : verts.length + i < known.length := by rw [hkeq]; simp at hi ⊢; omega
        have hin : known[verts.length + i] ∈ verts ++ ghosts ∨ known[verts.length + i] ∈ es.flatten :=
          (mem_extend _ _ _).mp (List.getElem_mem hlt)
        rw [h3 i hlt hin]
        congr 2
        simp only [hkeq]
        rw [List.getElem_append_right (by omega)]
        congr 1; omega
  · simp only
    split
    · exact hids
    · rename_i hh
      have hh' : g.isHyper = false := by simpa using hh
      have := pinOff_two es (h2 hh') es.length (Nat.le_refl _)
      rw [pinOff_length] at this
      omega
  · exact ofList_of_get (by simp only; omega) (fun i hi => sue i (by omega) hi)
  · apply ofList_of_get
    · simp [spdl]
    · intro i hi
      rw [spde i (by simp at hi; omega)]; simp
  · apply ofList_of_get
    · simp only [List.length_map]; exact spl
    · intro i hi
      have hi' : i < es.flatten.length := by simpa only [List.length_map] using hi
      rw [spe i hi' hi', List.getElem_map, hkeq]
  · intro u hu k hk
    simp only [← hkeq] at hk ⊢
    exact hfa u hu k hk

end Verif.Agi
