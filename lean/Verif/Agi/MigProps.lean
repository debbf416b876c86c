import Verif.Agi.MigSetup
import Verif.Agi.PartitionModel
/-!
# Properties C17, C18, C19, C21: migration

The theorems are about hypergraphs with one edge type, for every sequence of migrations; see the last
section for what goes wrong with more than one.
-/
namespace Verif.Agi

/-! ## reading the result -/

theorem iterLoop_collect {σ α β : Type} {step : σ → Outcome (Handle × σ)}
    {body : List β → Handle → Outcome (List β × Bool)} {hd : α → Handle} {F : α → β} {xs : List α} {s : σ}
    {fuel : Nat} (hy : Yields step s (xs.map hd)) (hf : xs.length < fuel)
    (hb : ∀ acc, ∀ x ∈ xs, body acc (hd x) = .ok (acc ++ [F x], false)) :
    iterLoop step body fuel s [] = .ok (xs.map F) := by
  rw [iterLoop_yields body _ s fuel [] hy (by simpa using hf)]
  have : ∀ (xs : List α) (acc : List β), (∀ acc, ∀ x ∈ xs, body acc (hd x) = .ok (acc ++ [F x], false)) →
      loopList body (xs.map hd) acc = .ok (acc ++ xs.map F) := by
    intro xs
    induction xs with
    | nil => intro acc _; simp [loopList]
    | cons x xs ih =>
      intro acc h
      rw [List.map_cons, loopList, h acc x (by simp), Outcome.bind_ok]
      simp only [Bool.false_eq_true, if_false]
      rw [ih _ (fun acc y hy => h acc y (by simp [hy]))]
      simp
  exact this xs [] hb

theorem yields_verts {g : Graph} {verts ghosts : List Gid} (h : VRep g verts ghosts) :
    Yields g.iterVertex vertexBegin (verts.map (vh (verts ++ ghosts))) := by
  have := yields_vertices g
  rw [h.nl] at this
  have he : (List.range verts.length).map getVertex = verts.map (vh (verts ++ ghosts)) := by
    apply List.ext_getElem
    · simp
    · intro k h1 h2
      have hk : k < verts.length := by simpa using h2
      simp only [List.getElem_map, List.getElem_range]
      rw [vh_local (List.getElem_mem hk), (List.nodup_append.mp h.nodup).1.idxOf_getElem k hk]
  rw [he] at this; exact this

section
variable {G : GG} {own : Gid → Nat} {n p : Nat} {g : Graph} {i : Input} {gh : List Gid}

theorem PartDone.gids (h : PartDone G own n p g i gh) : g.localGids = .ok i.verts := by
  unfold Graph.localGids
  have hv := h.inv.rep.core.v
  rw [iterLoop_collect (F := fun v => v) (yields_verts hv) (by unfold Graph.bound; rw [hv.nl]; omega)]
  · simp
  · intro acc v hvm
    rw [globalID_eq hv (by simp [hvm]), Outcome.bind_ok]; rfl

theorem PartDone.nodup (h : PartDone G own n p g i gh) : i.verts.Nodup :=
  (List.nodup_append.mp h.inv.rep.core.v.nodup).1

/-- the view of the migration code, on the part itself -/
theorem PartDone.pv (hG : G.WF n own) (h : PartDone G own n p g i gh) :
    ∃ ez, PV G own own n p g i.verts gh ez := by
  obtain ⟨ez, hz⟩ := h.inv.pv hG
  rw [graph_isHyper (by rw [h.inv.rep.core.hyp, h.hyper])] at hz
  exact ⟨ez, hz⟩

theorem PartDone.edgeViews (hG : G.WF n own) (h : PartDone G own n p g i gh) :
    ∃ l : List HEdge, g.edgeViews 0 = .ok (l.map (HEdge.viewed own)) ∧ l.Perm (G.on own p) := by
  obtain ⟨ez, hz⟩ := h.pv hG
  refine ⟨ez.map Prod.snd, ?_, hz.edges⟩
  obtain ⟨it, e, hy⟩ := hz.view.edges
  unfold Graph.edgeViews
  rw [e, Outcome.bind_ok, List.map_map]
  apply iterLoop_collect hy hz.view.fuelE
  intro acc x hx
  have hat := hz.view.at_ x hx
  have hv : g.edgeView x.1 = .ok (x.2.viewed own) := by
    unfold Graph.edgeView
    rw [hat.id, Outcome.bind_ok, hat.w, Outcome.bind_ok]
    have hp : g.pinView x.1 = .ok (x.2.pins.map (fun v => (v, (own v : Int)))) := by
      obtain ⟨itp, ep, hyp⟩ := hat.pins
      unfold Graph.pinView
      rw [ep, Outcome.bind_ok]
      apply iterLoop_collect hyp (hz.view.fuelP x hx)
      intro acc v hvp
      have hk := hz.view.known x hx v hvp
      rw [globalID_eq hz.view.v hk, Outcome.bind_ok, owner_eq hz.view.v hz.owns hk, Outcome.bind_ok]
      have : ownerOf g.self i.verts (fun v => (own v : Int)) v = (own v : Int) := by
        unfold ownerOf
        split
        · next hm => rw [hz.rank, ((hz.vmem v).mp hm).2]
        · rfl
      rw [this]; rfl
    rw [hp, Outcome.bind_ok]; rfl
  rw [hv, Outcome.bind_ok]; rfl

theorem PartDone.weight (h : PartDone G own n p g i gh) {v : Gid} (hv : v ∈ i.verts) :
    g.weightG v = .ok (G.wt v) := by
  have hr := h.inv.rep.core.v
  unfold Graph.weightG
  rw [findGID_eq hr (by simp [hv]), Outcome.bind_ok]
  have := vh_local (ghosts := gh) hv
  unfold vh at this
  rw [this]
  have hlt := List.idxOf_lt_length_of_mem hv
  have hw := h.inv.rep.weights
  rw [h.inv.wts] at hw
  rw [weight_local hr hw hlt (by simpa using hlt)]
  simp

theorem PartDone.orig (h : PartDone G own n p g i gh) {v : Gid} (hv : v ∈ i.verts) :
    g.originalOwner (vh (i.verts ++ gh) v) = .ok (G.oo v) := by
  have hr := h.inv.rep.core.v
  rw [vh_local hv]
  have hlt := List.idxOf_lt_length_of_mem hv
  have hoo : g.originalOwners = some (Mem.ofList (i.verts.map G.oo)) := by
    rcases h.inv.orig with h1 | h1
    · rw [h1] at hv; simp at hv
    · exact h1
  unfold Graph.originalOwner
  simp only [hoo]
  rw [vidx_getVertex, Outcome.bind_ok, if_neg (by have := hr.nl; omega), Mem.load_ofList (by simpa using hlt)]
  simp

theorem PartDone.coord (hG : G.WF n own) (h : PartDone G own n p g i gh) {v : Gid} (hv : v ∈ i.verts)
    {c : Gid → Coord} (hc : G.co = some c) : g.coordG v = .ok (c v) := by
  obtain ⟨ez, hz⟩ := h.pv hG
  unfold Graph.coordG
  rw [findGID_eq hz.view.v (by simp [hv]), Outcome.bind_ok]
  exact hz.coord c hc v hv

end

/-! ## the properties -/

section
variable {es : List HEdge} {ins : List Input} {own : Gid → Nat} {owns : List (GMap Part)} {o1 o2 : Nat → List Nat}

theorem run_spec (h : Start es ins own owns o1 o2) (co : Option (Gid → Coord)) (rs : List Round)
    (hr : RoundsOk (allVerts ins) ins.length co.isSome own rs) :
    (startG es ins own co).WF ins.length (placeAll own rs) ∧
    ∃ gs0 gs, setupAll ins co owns o1 o2 = .ok gs0 ∧ migrateRounds gs0 rs = .ok gs ∧
      ∃ (gr : Nat → Graph) (I : Nat → Input) (GH : Nat → List Gid), gs = (List.range ins.length).map gr ∧
      ∀ p, p < ins.length → PartDone (startG es ins own co) (placeAll own rs) ins.length p (gr p) (I p) (GH p) := by
  obtain ⟨gr0, I0, GH0, e0, h0⟩ := setupAll_spec h co
  obtain ⟨hG, gr, I, GH, e, hd⟩ := migrateRounds_spec rs (h.wf co) h0 hr
  exact ⟨hG, _, _, e0, e, gr, I, GH, rfl, hd⟩

/-- **C17 (one edge type).**  Whatever sequence of migrations is done, with any message and set orders: it
succeeds; every part then has exactly the vertices that were planned for it or that it had and nobody sent
away, each once; together the parts have exactly the vertices of the start, each on one part; and every
part reports the same global vertex count as before. -/
theorem c17_vertices_partial (h : Start es ins own owns o1 o2) (co : Option (Gid → Coord)) (rs : List Round)
    (hr : RoundsOk (allVerts ins) ins.length co.isSome own rs) :
    ∃ gs0 gs, setupAll ins co owns o1 o2 = .ok gs0 ∧ migrateRounds gs0 rs = .ok gs ∧
      gs.length = ins.length ∧
      (∀ p (hp : p < gs.length), gs[p].globalVerts = ((allVerts ins).length : Int) ∧
        ∃ vs, gs[p].localGids = .ok vs ∧ vs.Nodup ∧
          ∀ v, v ∈ vs ↔ v ∈ allVerts ins ∧ placeAll own rs v = p) ∧
      ∃ vss, gs.mapM Graph.localGids = .ok vss ∧ vss.flatten.Perm (allVerts ins) := by
  obtain ⟨hG, gs0, gs, e0, e, gr, I, GH, rfl, hd⟩ := run_spec h co rs hr
  refine ⟨gs0, _, e0, e, by simp, ?_, (List.range ins.length).map (fun p => (I p).verts), ?_, ?_⟩
  · intro p hp
    have hp' : p < ins.length := by simpa using hp
    simp only [List.getElem_map, List.getElem_range]
    exact ⟨(hd p hp').total, _, (hd p hp').gids, (hd p hp').nodup, (hd p hp').inv.verts⟩
  · exact mapM_range (fun p hp => (hd p hp).gids)
  · refine (List.perm_ext_iff_of_nodup ?_ hG.nodup).mpr (fun v => ?_)
    · rw [List.nodup_flatten]
      constructor
      · intro l hl
        obtain ⟨p, hp, rfl⟩ := List.mem_map.mp hl
        exact (hd p (List.mem_range.mp hp)).nodup
      · rw [List.pairwise_iff_getElem]
        intro a b ha hb hab v h1 h2
        simp only [List.length_map, List.length_range] at ha hb
        simp only [List.getElem_map, List.getElem_range] at h1 h2
        have x := ((hd a ha).inv.verts v).mp h1
        have y := ((hd b hb).inv.verts v).mp h2
        omega
    · rw [List.mem_flatten]
      constructor
      · rintro ⟨l, hl, hv⟩
        obtain ⟨p, hp, rfl⟩ := List.mem_map.mp hl
        exact (((hd p (List.mem_range.mp hp)).inv.verts v).mp hv).1
      · intro hv
        have hp := hG.own v hv
        exact ⟨_, List.mem_map.mpr ⟨_, List.mem_range.mpr hp, rfl⟩, ((hd _ hp).inv.verts v).mpr ⟨hv, rfl⟩⟩

/-- **C18 (one edge type).**  After any sequence of migrations every vertex has, on the part where it now
lives, the weight it was given at the start, the part it started on as original owner, and its coordinates. -/
theorem c18_vertex_data_partial (h : Start es ins own owns o1 o2) (co : Option (Gid → Coord)) (rs : List Round)
    (hr : RoundsOk (allVerts ins) ins.length co.isSome own rs) :
    ∃ gs0 gs, setupAll ins co owns o1 o2 = .ok gs0 ∧ migrateRounds gs0 rs = .ok gs ∧
      ∀ v ∈ allVerts ins, ∃ g, gs[placeAll own rs v]? = some g ∧
        g.weightG v = .ok (weightOf ins own v) ∧ g.origG v = .ok (own v : Int) ∧
        ∀ c, co = some c → g.coordG v = .ok (c v) := by
  obtain ⟨hG, gs0, gs, e0, e, gr, I, GH, rfl, hd⟩ := run_spec h co rs hr
  refine ⟨gs0, _, e0, e, fun v hv => ?_⟩
  have hp := hG.own v hv
  have hv' := ((hd _ hp).inv.verts v).mpr ⟨hv, rfl⟩
  refine ⟨gr (placeAll own rs v), by simp [hp], (hd _ hp).weight hv', ?_, ?_⟩
  · unfold Graph.origG
    rw [findGID_eq (hd _ hp).inv.rep.core.v (by simp [hv']), Outcome.bind_ok]
    exact (hd _ hp).orig hv'
  · intro c hc
    exact (hd _ hp).coord hG hv' hc

/-- **C19 (one edge type).**  After any sequence of migrations every part lists exactly the hyperedges with
a pin on it, each once, complete with id, weight and pin list, and for every pin - local or ghost - tells
the part where the vertex now lives; every part reports the number of hyperedges of the whole graph. -/
theorem c19_hyperedges_partial (h : Start es ins own owns o1 o2) (co : Option (Gid → Coord)) (rs : List Round)
    (hr : RoundsOk (allVerts ins) ins.length co.isSome own rs) :
    ∃ gs0 gs, setupAll ins co owns o1 o2 = .ok gs0 ∧ migrateRounds gs0 rs = .ok gs ∧
      gs.length = ins.length ∧
      ∀ p (hp : p < gs.length), gs[p].numGlobalEdges 0 = .ok (es.length : Int) ∧
        gs[p].numGlobalPins 0 = .ok (((es.map (fun E => E.pins.length)).sum : Nat) : Int) ∧
        ∃ l, gs[p].edgeViews 0 = .ok l ∧
          l.Perm ((es.filter (fun E => decide (∃ v ∈ E.pins, placeAll own rs v = p))).map
            (HEdge.viewed (placeAll own rs))) := by
  obtain ⟨hG, gs0, gs, e0, e, gr, I, GH, rfl, hd⟩ := run_spec h co rs hr
  refine ⟨gs0, _, e0, e, by simp, ?_⟩
  intro p hp
  have hp' : p < ins.length := by simpa using hp
  simp only [List.getElem_map, List.getElem_range]
  obtain ⟨l, e1, h1⟩ := (hd p hp').edgeViews hG
  exact ⟨(hd p hp').edges, (hd p hp').pins, _, e1, h1.map _⟩

/-! ### getPartition -/

theorem PartDone.msgs {G : GG} {own : Gid → Nat} {n p : Nat} {g : Graph} {i : Input} {gh : List Gid}
    (h : PartDone G own n p g i gh) : g.partitionMsgs = .ok (i.verts.map (fun v => (G.oo v, v))) := by
  unfold Graph.partitionMsgs
  have hv := h.inv.rep.core.v
  apply iterLoop_collect (yields_verts hv) (by unfold Graph.bound; rw [hv.nl]; omega)
  intro acc v hvm
  rw [globalID_eq hv (by simp [hvm]), Outcome.bind_ok, h.orig hvm, Outcome.bind_ok]; rfl

theorem foldl_insertNew (F : Gid → Nat) : ∀ (ms : List (Nat × Gid)) (m : GMap Nat), (∀ x ∈ ms, x.1 = F x.2) →
    (∀ k a, m k = some a → a = F k) →
    ∀ k, (ms.foldl (fun m (x : Nat × Gid) => m.insertNew x.2 x.1) m) k =
      if m k ≠ none ∨ k ∈ ms.map Prod.snd then some (F k) else none := by
  intro ms
  induction ms with
  | nil =>
    intro m _ hm k
    simp only [List.foldl_nil, List.map_nil, List.not_mem_nil, or_false]
    rcases Option.eq_none_or_eq_some (m k) with hp | ⟨a, hp⟩
    · simp [hp]
    · simp [hp, hm k a hp]
  | cons x ms ih =>
    intro m hms hm k
    rw [List.foldl_cons]
    have hins : ∀ k, (m.insertNew x.2 x.1) k = if k = x.2 then some (F k) else m k := by
      intro k
      unfold GMap.insertNew
      rcases Option.eq_none_or_eq_some (m x.2) with hp | ⟨a, hp⟩
      · simp only [hp, GMap.put]
        split
        · next hk => subst hk; rw [hms x (by simp)]
        · rfl
      · simp only [hp]
        split
        · next hk => subst hk; rw [hp, hm _ _ hp]
        · rfl
    rw [ih _ (fun y hy => hms y (by simp [hy])) (by
      intro k a hka
      rw [hins] at hka
      split at hka
      · exact (Option.some.inj hka).symm
      · exact hm k a hka) k, hins]
    by_cases hk : k = x.2
    · simp [hk]
    · rw [if_neg hk]
      have : (k ∈ (x :: ms).map Prod.snd) ↔ k ∈ ms.map Prod.snd := by
        rw [List.map_cons, List.mem_cons]
        exact ⟨fun h => h.resolve_left hk, .inr⟩
      by_cases h2 : m k ≠ none ∨ k ∈ ms.map Prod.snd
      · rw [if_pos h2, if_pos (by rw [this]; exact h2)]
      · rw [if_neg h2, if_neg (by rw [this]; exact h2)]

/-- **C21 (one edge type).**  After any sequence of migrations `getPartition` gives part `q` a map whose keys
are exactly the vertices that started on `q`, and whose values are the parts where they live now. -/
theorem c21_partition_partial (h : Start es ins own owns o1 o2) (co : Option (Gid → Coord)) (rs : List Round)
    (hr : RoundsOk (allVerts ins) ins.length co.isSome own rs) {ord : Nat → List Nat} (ho : Orders ins.length ord) :
    ∃ gs0 gs maps, setupAll ins co owns o1 o2 = .ok gs0 ∧ migrateRounds gs0 rs = .ok gs ∧
      getPartition gs ord = .ok maps ∧ maps.length = ins.length ∧
      ∀ q (hq : q < maps.length) (hq' : q < ins.length) v,
        (v ∈ ins[q].verts → maps[q] v = some (placeAll own rs v)) ∧ (v ∉ ins[q].verts → maps[q] v = none) := by
  obtain ⟨hG, gs0, gs, e0, e, gr, I, GH, rfl, hd⟩ := run_spec h co rs hr
  have hmem : ∀ q (hq : q < ins.length) v, v ∈ ins[q].verts ↔ v ∈ allVerts ins ∧ own v = q := by
    intro q hq v
    rw [allVerts_own h.dist.verts]
    constructor
    · intro hv
      have := h.dist.verts q hq v hv
      subst this
      exact ⟨⟨hq, hv⟩, rfl⟩
    · rintro ⟨⟨h1, h2⟩, rfl⟩; exact h2
  have hog : ∀ v ∈ allVerts ins, own v < ins.length := fun v hv => ((allVerts_own h.dist.verts).mp hv).1
  refine ⟨gs0, _, (List.range ins.length).map (fun q => (inbox ((List.range ins.length).map (fun p =>
    (I p).verts.map (fun v => ((startG es ins own co).oo v, v)))) (ord q) q).foldl
      (fun m (x : Nat × Gid) => m.insertNew x.2 x.1) GMap.empty), e0, e, ?_, by simp, ?_⟩
  · unfold getPartition
    rw [mapM_range (fun p hp => (hd p hp).msgs), Outcome.bind_ok, exchange_range (by
      intro p hp m hm
      obtain ⟨v, hv, rfl⟩ := List.mem_map.mp hm
      have := hog v (((hd p hp).inv.verts v).mp hv).1
      simp only [startG]
      omega), Outcome.bind_ok, List.map_map]
    rfl
  · intro q hq hq' v
    simp only [List.getElem_map, List.getElem_range]
    have hin : ∀ x, x ∈ inbox ((List.range ins.length).map (fun p =>
        (I p).verts.map (fun v => ((startG es ins own co).oo v, v)))) (ord q) q ↔
        x.1 < ins.length ∧ (x.2 ∈ allVerts ins ∧ placeAll own rs x.2 = x.1) ∧ own x.2 = q := by
      intro x
      rw [mem_inbox_range ho hq']
      constructor
      · rintro ⟨h1, h2⟩
        obtain ⟨w, hw, he⟩ := List.mem_map.mp h2
        simp only [startG, Prod.mk.injEq] at he
        obtain ⟨he1, rfl⟩ := he
        exact ⟨h1, ((hd _ h1).inv.verts _).mp hw, by omega⟩
      · rintro ⟨h1, h2, h3⟩
        refine ⟨h1, List.mem_map.mpr ⟨x.2, ((hd _ h1).inv.verts _).mpr h2, ?_⟩⟩
        simp only [startG, Prod.mk.injEq, and_true]
        omega
    have hf := foldl_insertNew (placeAll own rs) (inbox ((List.range ins.length).map (fun p =>
        (I p).verts.map (fun v => ((startG es ins own co).oo v, v)))) (ord q) q) GMap.empty
        (by intro x hx; exact ((hin x).mp hx).2.1.2.symm) (by intro k a hk; simp [GMap.empty] at hk) v
    rw [hf]
    constructor
    · intro hv
      have hv' := (hmem q hq' v).mp hv
      rw [if_pos]
      right
      exact List.mem_map.mpr ⟨(placeAll own rs v, v), (hin _).mpr ⟨hG.own v hv'.1, ⟨hv'.1, rfl⟩, hv'.2⟩, rfl⟩
    · intro hv
      rw [if_neg]
      rintro (h1 | h1)
      · simp [GMap.empty] at h1
      · obtain ⟨x, hx, rfl⟩ := List.mem_map.mp h1
        obtain ⟨-, h2, h3⟩ := (hin x).mp hx
        exact hv ((hmem q hq' _).mpr ⟨h2.1, h3⟩)

/-! ### repartition -/

theorem repartPlan_rep {g : Graph} {verts ghosts : List Gid} (hv : VRep g verts ghosts) {part : List Part}
    (hl : part.length = verts.length) (hd : ∀ d ∈ part, d ≠ -1) :
    ∃ plan s, g.repartPlan part = .ok plan ∧ PlanRep verts plan s (fun v => part[verts.idxOf v]?) := by
  have hnd := (List.nodup_append.mp hv.nodup).1
  unfold Graph.repartPlan
  obtain ⟨p0, e0, h0⟩ := newPlan_rep hv.nl
  rw [e0, Outcome.bind_ok]
  rw [iterLoop_yields _ _ _ _ _ (yields_verts hv) (by unfold Graph.bound; rw [hv.nl, List.length_map]; omega)]
  let step : Plan × Nat → Handle → Outcome (Plan × Nat) := fun s v => do
    let d ← rd part s.2
    let r ← g.planInsert s.1 v d
    return (r.1, s.2 + 1)
  rw [loopList_fold (f := step) _ (by
    intro b x _
    simp only [step]
    rcases rd part b.2 with d | _ | _
    · simp only [Outcome.bind_ok]
      rcases g.planInsert b.1 x d with r | _ | _ <;> rfl
    · rfl
    · rfl)]
  obtain ⟨st, e, -, s, hs⟩ := foldlM_inv step (fun pre st => st.2 = pre.length ∧ ∃ s, PlanRep verts st.1 s
      (fun v => if verts.idxOf v < pre.length then part[verts.idxOf v]? else none))
    (verts.map (vh (verts ++ ghosts)))
    (by
      rintro pre x ⟨pl, k⟩ hpre ⟨hk, s, hs⟩
      simp only at hk hs
      subst hk
      have hlt : pre.length < verts.length := by
        have := hpre.length_le
        simp only [List.length_append, List.length_cons, List.length_nil, List.length_map] at this
        omega
      have hx : x = vh (verts ++ ghosts) verts[pre.length] := by
        obtain ⟨rest, hrest⟩ := hpre
        have h1 : (verts.map (vh (verts ++ ghosts)))[pre.length]? = some x := by
          rw [← hrest]; simp
        rw [List.getElem?_map, List.getElem?_eq_getElem hlt] at h1
        exact (Option.some.inj h1).symm
      have hm := List.getElem_mem hlt
      have hlp : pre.length < part.length := by omega
      have hdn := hd _ (List.getElem_mem hlp)
      obtain ⟨p', e', h'⟩ := planInsert_rep (g := g) hs hv.nl hnd hm hdn
      generalize (if (if verts.idxOf verts[pre.length] < pre.length then part[verts.idxOf verts[pre.length]]? else none) = none
          then s ++ [verts[pre.length]] else s) = s' at h'
      refine ⟨(p', pre.length + 1), ?_, by simp, s', ?_⟩
      · simp only [step]
        rw [rd_ok hlp, Outcome.bind_ok, hx, vh_local hm, e']; rfl
      · have hf : (fun v => if verts.idxOf v < (pre ++ [x]).length then part[verts.idxOf v]? else none) =
            planPut (fun v => if verts.idxOf v < pre.length then part[verts.idxOf v]? else none) verts[pre.length]
              part[pre.length] := by
          funext v
          unfold planPut
          have hi := hnd.idxOf_getElem pre.length hlt
          by_cases hv : v = verts[pre.length]
          · rw [if_pos hv, hv, hi]; simp [hlp]
          · rw [if_neg hv]
            have hne : verts.idxOf v ≠ pre.length := by
              intro hc
              apply hv
              have hlt' : verts.idxOf v < verts.length := by omega
              have := List.getElem_idxOf hlt'
              rw [← this]; congr 1
            simp only [List.length_append, List.length_cons, List.length_nil]
            by_cases h2 : verts.idxOf v < pre.length
            · rw [if_pos (by omega), if_pos h2]
            · rw [if_neg (by omega), if_neg h2]
        rw [hf]; exact h')
    (p0, 0) ⟨rfl, [], by simpa using h0⟩
  rw [e, Outcome.bind_ok]
  refine ⟨_, s, rfl, ?_⟩
  have hf : ∀ v, (if verts.idxOf v < (verts.map (vh (verts ++ ghosts))).length then part[verts.idxOf v]? else none) =
      part[verts.idxOf v]? := by
    intro v
    split
    · rfl
    · next hc =>
      simp only [List.length_map] at hc
      rw [List.getElem?_eq_none (by omega)]
  simp only [hf] at hs
  exact hs

/-- **C17 for `repartition` (one edge type).**  After any sequence of migrations, calling `repartition` with
the new part of the k-th vertex at position k moves exactly these vertices there. -/
theorem c17_repartition_partial (h : Start es ins own owns o1 o2) (co : Option (Gid → Coord)) (rs : List Round)
    (hr : RoundsOk (allVerts ins) ins.length co.isSome own rs) :
    ∃ gs0 gs vss, setupAll ins co owns o1 o2 = .ok gs0 ∧ migrateRounds gs0 rs = .ok gs ∧
      gs.mapM Graph.localGids = .ok vss ∧
      ∀ (parts : List (List Part)) (env : MigrateEnv), EnvOk ins.length co.isSome env →
        parts.map List.length = vss.map List.length →
        (∀ l ∈ parts, ∀ d ∈ l, 0 ≤ d ∧ d < (ins.length : Int)) →
        ∃ gs', repartition gs parts env = .ok gs' ∧ gs'.length = ins.length ∧
          ∀ q (hq : q < gs'.length), ∃ ws, gs'[q].localGids = .ok ws ∧ ws.Nodup ∧
            ∀ v, v ∈ ws ↔ ∃ p k : Nat, (vss.getD p [])[k]? = some v ∧ (parts.getD p [])[k]? = some (q : Int) := by
  obtain ⟨hG, gs0, gs, e0, e, gr, I, GH, rfl, hd⟩ := run_spec h co rs hr
  refine ⟨gs0, _, (List.range ins.length).map (fun p => (I p).verts), e0, e,
    mapM_range (fun p hp => (hd p hp).gids), ?_⟩
  intro parts env henv hlen hrange
  set n := ins.length with hn
  have hpl : parts.length = n := by have := congrArg List.length hlen; simpa using this
  have hparts : parts = (List.range n).map (fun p => parts.getD p []) := by
    have := list_range parts []; rw [hpl] at this; exact this
  have hpd : ∀ p, p < n → (parts.getD p []).length = (I p).verts.length ∧ ∀ d ∈ parts.getD p [], 0 ≤ d ∧ d < (n : Int) := by
    intro p hp
    have hp' : p < parts.length := by omega
    have hg : parts.getD p [] = parts[p] := by rw [List.getD_eq_getElem?_getD, List.getElem?_eq_getElem hp']; rfl
    rw [hg]
    refine ⟨?_, hrange _ (List.getElem_mem hp')⟩
    have h1 : (parts.map List.length)[p]? = some parts[p].length := by simp [hp']
    rw [hlen] at h1
    simpa [hp] using h1.symm
  have hps : ∀ p, p < n → ∃ plan, (gr p).repartPlan (parts.getD p []) = .ok plan ∧ ∃ s, PlanRep (I p).verts plan s
      (fun v => (parts.getD p [])[(I p).verts.idxOf v]?) := by
    intro p hp
    obtain ⟨h1, h2⟩ := hpd p hp
    obtain ⟨plan, s, a, b⟩ := repartPlan_rep (hd p hp).inv.rep.core.v h1 (fun d hd => by have := h2 d hd; omega)
    exact ⟨plan, a, s, b⟩
  haveI : Inhabited Plan := ⟨⟨none, []⟩⟩
  obtain ⟨pl, hpl'⟩ := choose_part hps
  let cur := placeAll own rs
  let own' : Gid → Nat := fun v => ((parts.getD (cur v) [])[(I (cur v)).verts.idxOf v]?.getD 0).toNat
  have hown : ∀ p, p < n → ∀ v ∈ (I p).verts, ∃ d, (parts.getD p [])[(I p).verts.idxOf v]? = some d ∧
      0 ≤ d ∧ d < (n : Int) ∧ (own' v : Int) = d := by
    intro p hp v hv
    obtain ⟨h1, h2⟩ := hpd p hp
    have hlt := List.idxOf_lt_length_of_mem hv
    have hlt' : (I p).verts.idxOf v < (parts.getD p []).length := by omega
    have hm := h2 _ (List.getElem_mem hlt')
    refine ⟨_, List.getElem?_eq_getElem hlt', hm.1, hm.2, ?_⟩
    have hc : cur v = p := (((hd p hp).inv.verts v).mp hv).2
    simp only [own', hc]
    rw [List.getElem?_eq_getElem hlt', Option.getD_some]
    omega
  have hall : ∀ v ∈ allVerts ins, cur v < n ∧ v ∈ (I (cur v)).verts := fun v hv =>
    ⟨hG.own v hv, ((hd _ (hG.own v hv)).inv.verts v).mpr ⟨hv, rfl⟩⟩
  obtain ⟨gr', I', GH', em, hd'⟩ := migrate_step (own' := own') hG (by
      intro v hv
      obtain ⟨h1, h2⟩ := hall v hv
      obtain ⟨d, -, h3, h4, h5⟩ := hown _ h1 v h2
      omega) (fun p hp => (hd p hp).inv) (pl := pl)
    (by
      intro p hp
      obtain ⟨-, s, hs⟩ := hpl' p hp
      refine ⟨s, _, hs, fun v hv => ?_⟩
      obtain ⟨d, h1, -, -, h2⟩ := hown p hp v hv
      rw [h1, h2]; rfl) henv
  refine ⟨(List.range n).map gr', ?_, by simp, ?_⟩
  · unfold repartition
    have hz : ((List.range n).map gr).zip parts = (List.range n).map (fun p => (gr p, parts.getD p [])) := by
      conv_lhs => rw [hparts]
      exact zip_range _ _ _
    rw [hz, mapM_range (G := pl) (fun p hp => (hpl' p hp).1), Outcome.bind_ok, List.map_map]
    rw [← em]
    congr 1
    apply List.map_congr_left
    intro p hp
    have hp' := List.mem_range.mp hp
    have := (hd p hp').origSet
    simp only [Function.comp, Graph.setOriginalOwners]
    rcases Option.eq_none_or_eq_some (gr p).originalOwners with h1 | ⟨m, h1⟩
    · rw [h1] at this; simp at this
    · simp [h1]
  · intro q hq
    have hq' : q < n := by simpa using hq
    simp only [List.getElem_map, List.getElem_range]
    refine ⟨_, (hd' q hq').gids, (hd' q hq').nodup, fun v => ?_⟩
    rw [(hd' q hq').inv.verts v]
    constructor
    · rintro ⟨h1, h2⟩
      obtain ⟨h3, h4⟩ := hall v h1
      obtain ⟨d, h5, -, -, h6⟩ := hown _ h3 v h4
      refine ⟨cur v, (I (cur v)).verts.idxOf v, ?_, ?_⟩
      · rw [getD_range _ h3, List.getElem?_eq_getElem (List.idxOf_lt_length_of_mem h4), List.getElem_idxOf]
      · rw [h5]; congr 1; omega
    · rintro ⟨p, k, h1, h2⟩
      have hp : p < n := by
        by_contra hc
        have hz : ((List.range n).map (fun p => (I p).verts)).getD p [] = [] := by
          rw [List.getD_eq_getElem?_getD, List.getElem?_eq_none (by rw [List.length_map, List.length_range]; omega)]
          rfl
        rw [hz] at h1
        simp at h1
      rw [getD_range _ hp] at h1
      have hv : v ∈ (I p).verts := List.mem_of_getElem? h1
      have hk : (I p).verts.idxOf v = k := by
        obtain ⟨hlt, rfl⟩ := List.getElem?_eq_some_iff.mp h1
        exact (hd p hp).nodup.idxOf_getElem k hlt
      obtain ⟨d, h5, -, -, h6⟩ := hown p hp v hv
      rw [hk, h2] at h5
      refine ⟨(((hd p hp).inv.verts v).mp hv).1, ?_⟩
      have := Option.some.inj h5
      omega

/-- **C18, the other side.**  A part has coordinates for the vertices that live on it only: asking it for those of a vertex it merely knows
(as a ghost) is refused, never answered with another vertex's. -/
theorem c18_no_ghost_coords (h : Start es ins own owns o1 o2) (co : Option (Gid → Coord)) (rs : List Round)
    (hr : RoundsOk (allVerts ins) ins.length co.isSome own rs) :
    ∃ gs0 gs, setupAll ins co owns o1 o2 = .ok gs0 ∧ migrateRounds gs0 rs = .ok gs ∧
      ∀ p g v x, gs[p]? = some g → v ∈ allVerts ins → placeAll own rs v ≠ p → g.findGID v = .ok x → g.coord x = .fail := by
  obtain ⟨hG, gs0, gs, e0, e, gr, I, GH, rfl, hd⟩ := run_spec h co rs hr
  refine ⟨gs0, _, e0, e, fun p g v x hg hv hne hx => ?_⟩
  have hp : p < ins.length := by
    by_contra hc
    rw [List.getElem?_eq_none (by rw [List.length_map, List.length_range]; omega)] at hg
    simp at hg
  have hgr : g = gr p := by simpa [hp] using hg.symm
  subst hgr
  have hnot : v ∉ (I p).verts := fun hm => hne (((hd p hp).inv.verts v).mp hm).2
  have hrep := (hd p hp).inv.rep.core.v
  by_cases hgh : v ∈ (I p).verts ++ GH p
  · rw [findGID_eq hrep hgh] at hx
    have hx' := Outcome.ok.inj hx
    subst hx'
    unfold Graph.coord
    rw [vidx_getVertex, Outcome.bind_ok, if_pos ?_]
    rw [hrep.nl, List.idxOf_append_of_notMem hnot]
    omega
  · exfalso
    unfold Graph.findGID at hx
    rw [hrep.map, lookup_of_not_mem hgh] at hx
    simp [Outcome.ofOption] at hx

end
end Verif.Agi
