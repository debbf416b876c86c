import Verif.Agi.GhostLemmas
/-!
# Lemmas: global counts and ghost weights on all parts
-/
namespace Verif.Agi

/-- changing the global counts of a type changes nothing else -/
theorem PartRep.setCounts {g : Graph} {me n : Nat} {i : Input} {own : Gid → Nat} {ghosts : List Gid}
    (h : PartRep g me n i own ghosts) {t : Nat} (ht : t < i.types.length) (a b : Int) :
    ∃ g', g.setGlobalCounts t a b = .ok g' ∧ PartRep g' me n i own ghosts ∧
      g'.numGlobalEdges t = .ok a ∧ g'.numGlobalPins t = .ok (if i.hyper then b else 2 * a) ∧
      (∀ t', t' ≠ t → g'.types[t']? = g.types[t']?) ∧ g' = { g with types := g'.types } := by
  obtain ⟨e, he, hr, hw⟩ := h.core.typ t ht
  have htl : t < g.types.length := by
    rcases Nat.lt_or_ge t g.types.length with h | h
    · exact h
    · rw [List.getElem?_eq_none h] at he; simp at he
  unfold Graph.setGlobalCounts
  rw [Graph.slot_ok he, Outcome.bind_ok]
  have hself : (g.types.set t (some { e with globalEdges := a, globalPins := if g.isHyper then b else 2 * a }))[t]? =
      some (some { e with globalEdges := a, globalPins := if g.isHyper then b else 2 * a }) := by
    rw [List.getElem?_set, if_pos rfl, if_pos htl]
  refine ⟨_, rfl, ⟨⟨⟨h.core.v.nl, h.core.v.ng, h.core.v.nodup, h.core.v.map, h.core.v.loc, h.core.v.gho⟩,
    h.core.hyp, h.core.numTypes, ?_, h.core.pins, h.core.wf⟩, h.rank, h.peers, h.owners, h.weights,
    h.ghosts_eq⟩, ?_, ?_, ?_, rfl⟩
  · intro t' ht'
    by_cases hte : t' = t
    · subst hte
      refine ⟨_, hself, ?_, hw⟩
      obtain ⟨a, b, c, d, f, g, i, j, k, l⟩ := hr
      exact ⟨a, b, c, d, f, g, i, j, k, l⟩
    · obtain ⟨e', he', hr', hw'⟩ := h.core.typ t' ht'
      refine ⟨e', ?_, hr', hw'⟩
      simp only
      rw [List.getElem?_set, if_neg (fun h => hte h.symm)]; exact he'
  · unfold Graph.numGlobalEdges
    rw [Graph.slot_ok hself]; rfl
  · unfold Graph.numGlobalPins
    rw [Graph.slot_ok hself, h.core.hyp]; rfl
  · intro t' hte
    simp only
    rw [List.getElem?_set, if_neg (fun h => hte h.symm)]

/-- what one part contributes to the global counts of type `t` -/
def contribution (ins : List Input) (own : Gid → Nat) (t p : Nat) : Int × Int :=
  match ins[p]? with
  | none => (0, 0)
  | some i => match i.types[t]? with
    | none => (0, 0)
    | some e => if i.hyper then (((e.pins.filter (countedBy own p)).length : Int),
        (((e.pins.filter (countedBy own p)).map (fun p => p.length)).sum : Nat))
      else ((e.pins.length : Int), 2 * (e.pins.length : Int))

/-- all parts agree on the kind of graph and the number of types -/
structure Uniform (ins : List Input) (hyper : Bool) (T : Nat) : Prop where
  hyper : ∀ i ∈ ins, i.hyper = hyper
  types : ∀ i ∈ ins, i.types.length = T

def edgeTotal (ins : List Input) (own : Gid → Nat) (t : Nat) : Int :=
  ((List.range ins.length).map (fun p => (contribution ins own t p).1)).sum
def pinTotal (ins : List Input) (own : Gid → Nat) (t : Nat) : Int :=
  ((List.range ins.length).map (fun p => (contribution ins own t p).2)).sum

theorem countType_spec {gs : List Graph} {ins : List Input} {own : Gid → Nat} {hyper : Bool} {T : Nat}
    (hw : World gs ins own) (hu : Uniform ins hyper T)
    (hv : ∀ p (h : p < ins.length), ∀ v ∈ ins[p].verts, own v = p) {t : Nat} (ht : t < T) :
    ∃ gs', countType gs t = .ok gs' ∧ World gs' ins own ∧ gs'.length = gs.length ∧
      ∀ p (h : p < gs'.length) (h' : p < gs.length),
        gs'[p].numGlobalEdges t = .ok (edgeTotal ins own t) ∧
        gs'[p].numGlobalPins t = .ok (if hyper then pinTotal ins own t else 2 * edgeTotal ins own t) ∧
        (∀ t', t' ≠ t → gs'[p].types[t']? = gs[p].types[t']?) ∧
        gs'[p] = { gs[p] with types := gs'[p].types } := by
  obtain ⟨hl, hr⟩ := hw
  obtain ⟨cs, e1, hcl, hcs⟩ := mapM_idx (f := fun g : Graph => g.ownedCounts t)
    (fun p c => c = contribution ins own t p) gs
    (by
      intro p hp
      obtain ⟨ghosts, hg⟩ := hr p hp (by omega)
      have hi : ins[p]? = some ins[p] := List.getElem?_eq_getElem _
      have hT := hu.types _ (List.getElem_mem (l := ins) (n := p) (by omega))
      have hH := hu.hyper _ (List.getElem_mem (l := ins) (n := p) (by omega))
      have ht' : t < ins[p].types.length := by omega
      have hit : ins[p].types[t]? = some ins[p].types[t] := List.getElem?_eq_getElem _
      unfold contribution
      simp only [hi, hit]
      cases hyp : ins[p].hyper with
      | true =>
        rw [ownedCounts_hyper hg hyp (hv p (by omega)) ht']
        exact ⟨_, rfl, by simp⟩
      | false =>
        obtain ⟨e, he, hrt, -⟩ := hg.core.typ t ht'
        unfold Graph.ownedCounts
        rw [Graph.slot_ok he, Outcome.bind_ok, hg.core.hyp, hyp]
        refine ⟨_, rfl, ?_⟩
        rw [hrt.numE]; simp)
  have hcs' : cs = (List.range ins.length).map (contribution ins own t) := by
    apply List.ext_getElem
    · simp [hcl, hl]
    · intro k h1 h2
      rw [hcs k h1]; simp
  obtain ⟨gs', e2, hl2, hr2⟩ := mapM_idx
    (f := fun g : Graph => g.setGlobalCounts t (cs.map (fun c => c.1)).sum (cs.map (fun c => c.2)).sum)
    (fun p g => ∀ (h' : p < ins.length) (h : p < gs.length),
      (∃ ghosts, PartRep g p ins.length ins[p] own ghosts) ∧
        g.numGlobalEdges t = .ok (edgeTotal ins own t) ∧
        g.numGlobalPins t = .ok (if hyper then pinTotal ins own t else 2 * edgeTotal ins own t) ∧
        (∀ t', t' ≠ t → g.types[t']? = gs[p].types[t']?) ∧
        g = { gs[p] with types := g.types }) gs
    (by
      intro p hp
      obtain ⟨ghosts, hg⟩ := hr p hp (by omega)
      have hT := hu.types _ (List.getElem_mem (l := ins) (n := p) (by omega))
      have hH := hu.hyper _ (List.getElem_mem (l := ins) (n := p) (by omega))
      obtain ⟨g', e, h1, h2, h3, h4, h5⟩ := hg.setCounts (t := t) (by omega)
        (cs.map (fun c => c.1)).sum (cs.map (fun c => c.2)).sum
      refine ⟨g', e, fun h' h => ⟨⟨ghosts, h1⟩, ?_, ?_, h4, h5⟩⟩
      · rw [h2, hcs', List.map_map]; rfl
      · rw [h3, hH, hcs', List.map_map, List.map_map]; rfl)
  unfold countType
  rw [e1, Outcome.bind_ok]
  refine ⟨gs', e2, ⟨by omega, fun p h h' => (hr2 p h h' (by omega)).1⟩, hl2, fun p h h' => ?_⟩
  exact (hr2 p h (by omega) h').2

theorem countTypes_spec {gs : List Graph} {ins : List Input} {own : Gid → Nat} {hyper : Bool} {T : Nat}
    (hw : World gs ins own) (hu : Uniform ins hyper T)
    (hv : ∀ p (h : p < ins.length), ∀ v ∈ ins[p].verts, own v = p) :
    ∃ gs', countTypes gs = .ok gs' ∧ World gs' ins own ∧ gs'.length = gs.length ∧
      ∀ p (h : p < gs'.length) (h' : p < gs.length),
        (∀ t, t < T → gs'[p].numGlobalEdges t = .ok (edgeTotal ins own t) ∧
          gs'[p].numGlobalPins t = .ok (if hyper then pinTotal ins own t else 2 * edgeTotal ins own t)) ∧
        gs'[p] = { gs[p] with types := gs'[p].types } := by
  have hnt : ∀ g ∈ gs, g.numTypes = T := by
    intro g hg
    obtain ⟨p, hp, rfl⟩ := List.mem_iff_getElem.mp hg
    obtain ⟨ghosts, hr⟩ := hw.2 p hp (by have := hw.1; omega)
    rw [hr.core.numTypes]
    exact hu.types _ (List.getElem_mem _)
  have hrun : ∃ gs', (List.range' 0 T).foldlM countType gs = .ok gs' ∧
      (World gs' ins own ∧ gs'.length = gs.length ∧
      ∀ p (h : p < gs'.length) (h' : p < gs.length),
        (∀ t, t < T → gs'[p].numGlobalEdges t = .ok (edgeTotal ins own t) ∧
          gs'[p].numGlobalPins t = .ok (if hyper then pinTotal ins own t else 2 * edgeTotal ins own t)) ∧
        gs'[p] = { gs[p] with types := gs'[p].types }) := by
    refine range_inv countType (fun k gs' => World gs' ins own ∧ gs'.length = gs.length ∧
      ∀ p (h : p < gs'.length) (h' : p < gs.length),
        (∀ t, t < k → gs'[p].numGlobalEdges t = .ok (edgeTotal ins own t) ∧
          gs'[p].numGlobalPins t = .ok (if hyper then pinTotal ins own t else 2 * edgeTotal ins own t)) ∧
        gs'[p] = { gs[p] with types := gs'[p].types }) 0 T ?_ gs
      ⟨hw, rfl, fun p h h' => ⟨by omega, rfl⟩⟩
    intro k s hk ⟨h1, h2, h3⟩
    rw [Nat.zero_add]
    obtain ⟨s', e, w', l', r'⟩ := countType_spec h1 hu hv hk
    refine ⟨s', e, w', by omega, fun p h h' => ?_⟩
    obtain ⟨a, b, c, d⟩ := r' p h (by omega)
    obtain ⟨f1, f2⟩ := h3 p (by omega) h'
    constructor
    · intro t ht
      by_cases hte : t = k
      · subst hte; exact ⟨a, b⟩
      · obtain ⟨f3, f4⟩ := f1 t (by omega)
        have hs : s'[p].slot t = s[p].slot t := by unfold Graph.slot; rw [c t hte]
        unfold Graph.numGlobalEdges Graph.numGlobalPins at *
        rw [hs]; exact ⟨f3, f4⟩
    · rw [d, f2]
  unfold countTypes
  cases hgs : gs with
  | nil => 
    subst hgs
    exact ⟨[], rfl, hw, rfl, fun p h => by simp at h⟩
  | cons g0 rest =>
    simp only
    rw [← hgs, if_pos (fun g hg => by rw [hnt g hg, hnt g0 (by rw [hgs]; simp)]), hnt g0 (by rw [hgs]; simp),
      List.range_eq_range']
    exact hrun

theorem weight_local {g : Graph} {verts ghosts : List Gid} (h : VRep g verts ghosts) {ws : List Wgt}
    (hw : g.weights = Mem.ofList ws) {u : Nat} (hu : u < verts.length) (hu' : u < ws.length) :
    g.weight (getVertex u) = .ok ws[u] := by
  unfold Graph.weight
  rw [vidx_getVertex, Outcome.bind_ok, h.nl, h.ng, if_neg (by omega), if_neg (by omega), hw,
    Mem.load_ofList hu']

/-- the weight of a vertex as its part was given it -/
def weightOf (ins : List Input) (own : Gid → Nat) (v : Gid) : Wgt :=
  match ins[own v]? with
  | none => 1
  | some i => (vertWeights i.verts i.wgts).getD (i.verts.idxOf v) 1

theorem vertWeights_length (verts : List Gid) (wgts : List Wgt) :
    (vertWeights verts wgts).length = verts.length := by simp [vertWeights]

theorem setGhostWeights_spec {gs : List Graph} {ins : List Input} {own : Gid → Nat}
    (hw : World gs ins own) (hd : Dist ins own)
    {o1 o2 : Nat → List Nat} (ho1 : Orders gs.length o1) (ho2 : Orders gs.length o2) :
    ∃ gs', setGhostWeights gs o1 o2 = .ok gs' ∧ World gs' ins own ∧ gs'.length = gs.length ∧
      ∀ p (h : p < gs'.length) (h' : p < gs.length) (hi : p < ins.length),
        gs'[p] = { gs[p] with ghostWeights := gs'[p].ghostWeights } ∧
        (1 < gs.length → ∃ ghosts, PartRep gs'[p] p ins.length ins[p] own ghosts ∧
          gs'[p].ghostWeights = some (Mem.ofList (ghosts.map (weightOf ins own)))) := by
  unfold setGhostWeights
  by_cases hn : 1 < gs.length
  · rw [if_pos hn]
    obtain ⟨tags, e, htl, htr⟩ := createGhostTag_spec hw hd (fun g h => g.weight h) (weightOf ins own)
      (by
        intro q h h' v hv hh hf
        obtain ⟨ghosts, hg⟩ := hw.2 q h h'
        obtain ⟨u, hu, rfl⟩ := List.mem_iff_getElem.mp hv
        rw [findGID_local hg.core.v hu] at hf
        simp only [Outcome.ok.injEq] at hf
        subst hf
        have hq := hd.verts q h' _ hv
        rw [weight_local hg.core.v hg.weights hu (by rw [vertWeights_length]; exact hu)]
        congr 1
        unfold weightOf
        have hi : ins[q]? = some ins[q] := List.getElem?_eq_getElem _
        rw [hq, hi]
        simp only
        rw [((hd.wf _ (List.getElem_mem h')).nodup).idxOf_getElem]
        rw [List.getD_eq_getElem?_getD, List.getElem?_eq_getElem (by rw [vertWeights_length]; exact hu)]
        rfl) ho1 ho2
    rw [e, Outcome.bind_ok]
    have hlen : ((gs.zip tags).map (fun p => ({ p.1 with ghostWeights := some p.2 } : Graph))).length = gs.length := by
      simp; omega
    have hrep : ∀ {g : Graph} {me n i own gh} (m : Option (Mem Wgt)), PartRep g me n i own gh →
        PartRep { g with ghostWeights := m } me n i own gh := by
      intro g me n i own gh m h
      exact ⟨⟨⟨h.core.v.nl, h.core.v.ng, h.core.v.nodup, h.core.v.map, h.core.v.loc, h.core.v.gho⟩,
        h.core.hyp, h.core.numTypes, h.core.typ, h.core.pins, h.core.wf⟩, h.rank, h.peers, h.owners,
        h.weights, h.ghosts_eq⟩
    refine ⟨_, rfl, ⟨by rw [hlen]; exact hw.1, ?_⟩, hlen, ?_⟩
    · intro p h h'
      obtain ⟨ghosts, hg, -⟩ := htr p (by omega) (by omega) h'
      refine ⟨ghosts, ?_⟩
      simp only [List.getElem_map, List.getElem_zip]
      exact hrep _ hg
    · intro p h h' hi
      obtain ⟨ghosts, hg, ht⟩ := htr p (by omega) (by omega) hi
      simp only [List.getElem_map, List.getElem_zip]
      refine ⟨trivial, fun _ => ⟨ghosts, hrep _ hg, ?_⟩⟩
      rw [ht]
  · rw [if_neg hn]
    exact ⟨gs, rfl, hw, rfl, fun p h h' hi => ⟨rfl, fun h => absurd h hn⟩⟩

/-- **constructGhosts on all parts** -/
theorem constructGhosts_spec {gs : List Graph} {ins : List Input} {own : Gid → Nat} {hyper : Bool} {T : Nat}
    {owns : List (GMap Part)} (hb : Built gs ins) (hd : Dist ins own) (hu : Uniform ins hyper T)
    (ho : OwnMaps ins own owns)
    {o1 o2 : Nat → List Nat} (ho1 : Orders ins.length o1) (ho2 : Orders ins.length o2) :
    ∃ gs', constructGhosts gs owns o1 o2 = .ok gs' ∧ World gs' ins own ∧
      ∀ p (h : p < gs'.length) (h' : p < gs.length) (hi : p < ins.length),
        (∀ t, t < T → gs'[p].numGlobalEdges t = .ok (edgeTotal ins own t) ∧
          gs'[p].numGlobalPins t = .ok (if hyper then pinTotal ins own t else 2 * edgeTotal ins own t)) ∧
        gs'[p].globalVerts = gs[p].globalVerts ∧ gs'[p].coords = gs[p].coords ∧
        gs'[p].originalOwners = gs[p].originalOwners ∧
        (1 < ins.length → ∃ ghosts, PartRep gs'[p] p ins.length ins[p] own ghosts ∧
          gs'[p].ghostWeights = some (Mem.ofList (ghosts.map (weightOf ins own)))) := by
  obtain ⟨g1, e1, w1, r1⟩ := fillOwnersAll_spec hb hd.wf ho
  obtain ⟨g2, e2, w2, l2, r2⟩ := countTypes_spec w1 hu hd.verts
  obtain ⟨g3, e3, w3, l3, r3⟩ := setGhostWeights_spec (o1 := o1) (o2 := o2) w2 hd
    (by rw [w2.1]; exact ho1) (by rw [w2.1]; exact ho2)
  have hl1 := w1.1
  have hl0 := hb.1
  unfold constructGhosts
  rw [e1, Outcome.bind_ok, e2, Outcome.bind_ok]
  refine ⟨g3, e3, w3, fun p h h' hi => ?_⟩
  obtain ⟨a1, a2⟩ := r3 p h (by omega) hi
  obtain ⟨b1, b2⟩ := r2 p (by omega) (by omega)
  have c1 := r1 p (by omega) h'
  refine ⟨?_, ?_, ?_, ?_, ?_⟩
  · intro t ht
    rw [a1]; exact b1 t ht
  · rw [a1, b2, c1]
  · rw [a1, b2, c1]
  · rw [a1, b2, c1]
  · intro hn; exact a2 (by omega)

end Verif.Agi
