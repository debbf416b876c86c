import Verif.Agi.MigSetup
/-!
# What every operation leaves alone on the vertices of a part

For arbitrary graphs (traditional or hypergraphs, any number of edge types): inversion lemmas, "if the
operation returned, then …".
-/
namespace Verif.Agi

theorem mapM_inv {α β : Type} {f : α → Outcome β} : ∀ {l : List α} {r : List β}, l.mapM f = .ok r →
    r.length = l.length ∧ ∀ k (h : k < l.length) (h' : k < r.length), f l[k] = .ok r[k] := by
  intro l
  induction l with
  | nil =>
    intro r h
    rw [List.mapM_nil, Outcome.pure_eq] at h
    have := Outcome.ok.inj h
    subst this
    exact ⟨rfl, fun k h => by simp at h⟩
  | cons a l ih =>
    intro r h
    rw [List.mapM_cons] at h
    obtain ⟨b, h1, h2⟩ := bind_ok_iff.mp h
    obtain ⟨bs, h3, h4⟩ := bind_ok_iff.mp h2
    have := Outcome.ok.inj h4
    subst this
    obtain ⟨h5, h6⟩ := ih h3
    refine ⟨by simp [h5], ?_⟩
    intro k hk hk'
    cases k with
    | zero => exact h1
    | succ k => exact h6 k (by simpa using hk) (by simpa using hk')

theorem mapM_range_inv {α β : Type} [hβ : Nonempty β] {n : Nat} {F : Nat → α} {f : α → Outcome β} {r : List β}
    (h : ((List.range n).map F).mapM f = .ok r) :
    ∃ G : Nat → β, r = (List.range n).map G ∧ ∀ p, p < n → f (F p) = .ok (G p) := by
  obtain ⟨h1, h2⟩ := mapM_inv h
  simp only [List.length_map, List.length_range] at h1 h2
  obtain ⟨d⟩ := hβ
  refine ⟨fun p => r.getD p d, ?_, ?_⟩
  · have := list_range r d
    rw [h1] at this
    exact this
  · intro p hp
    have := h2 p hp (by omega)
    simp only [List.getElem_map, List.getElem_range] at this
    rw [this]
    simp only
    rw [List.getD_eq_getElem?_getD, List.getElem?_eq_getElem (by omega), Option.getD_some]

theorem foldlM_keeps {σ α : Type} {f : σ → α → Outcome σ} (P : σ → Prop)
    (hf : ∀ s x s', P s → f s x = .ok s' → P s') : ∀ (l : List α) {s s' : σ}, P s → l.foldlM f s = .ok s' → P s' := by
  intro l
  induction l with
  | nil => intro s s' hp h; rw [List.foldlM_nil] at h; have := Outcome.ok.inj h; subst this; exact hp
  | cons a l ih =>
    intro s s' hp h
    rw [List.foldlM_cons] at h
    obtain ⟨s1, h1, h2⟩ := bind_ok_iff.mp h
    exact ih (hf _ _ _ hp h1) h2

theorem exchange_inv {M : Type} {n : Nat} {O : Nat → List (Part × M)} {ord : Nat → List Nat}
    {r : List (List (Nat × M))} (h : exchange ((List.range n).map O) ord = .ok r) :
    r = (List.range n).map (fun q => inbox ((List.range n).map O) (ord q) q) := by
  unfold exchange at h
  split at h
  · have := Outcome.ok.inj h
    rw [← this]; simp
  · simp at h

instance : Nonempty Plan := ⟨⟨none, []⟩⟩

/-- `g'` has the local vertices of `g`, with the same data -/
structure Keeps (g g' : Graph) : Prop where
  rank : g'.self = g.self
  nl : g'.numLocal = g.numLocal
  total : g'.globalVerts = g.globalVerts
  wts : g'.weights = g.weights
  orig : g'.originalOwners = g.originalOwners
  coords : g'.coords = g.coords
  loc : g'.localUnmap = g.localUnmap
  map : ∀ v l, g.vtxMap v = some l → g'.vtxMap v = some l

theorem Keeps.refl (g : Graph) : Keeps g g := ⟨rfl, rfl, rfl, rfl, rfl, rfl, rfl, fun _ _ h => h⟩

theorem Keeps.trans {a b c : Graph} (h : Keeps a b) (h' : Keeps b c) : Keeps a c :=
  ⟨h'.rank.trans h.rank, h'.nl.trans h.nl, h'.total.trans h.total, h'.wts.trans h.wts, h'.orig.trans h.orig,
    h'.coords.trans h.coords, h'.loc.trans h.loc, fun v l hv => h'.map v l (h.map v l hv)⟩

/-! ## construction of edges -/

theorem scanPin_map {hyper : Bool} {nl : Nat} {pins : List Gid} {s s' : Scan} {j : Nat}
    (h : scanPin hyper nl pins s j = .ok s') : ∀ v l, s.vtxMap v = some l → s'.vtxMap v = some l := by
  unfold scanPin at h
  obtain ⟨u, -, h⟩ := bind_ok_iff.mp h
  rcases hu : s.vtxMap u with _ | l
  · rw [hu] at h
    simp only at h
    obtain ⟨pl, -, h⟩ := bind_ok_iff.mp h
    have := Outcome.ok.inj h
    subst this
    intro v l hv
    simp only [GMap.put]
    rw [if_neg (by rintro rfl; rw [hu] at hv; simp at hv)]
    exact hv
  · rw [hu] at h
    simp only at h
    split at h
    · obtain ⟨d, -, h⟩ := bind_ok_iff.mp h
      obtain ⟨pl, -, h⟩ := bind_ok_iff.mp h
      have := Outcome.ok.inj h
      subst this
      exact fun v l hv => hv
    · obtain ⟨pl, -, h⟩ := bind_ok_iff.mp h
      have := Outcome.ok.inj h
      subst this
      exact fun v l hv => hv

theorem scanEdge_map {hyper : Bool} {nl : Nat} {ids : List Gid} {degs : List Nat} {pins : List Gid} {s s' : Scan}
    {i : Nat} (h : scanEdge hyper nl ids degs pins s i = .ok s') :
    ∀ v l, s.vtxMap v = some l → s'.vtxMap v = some l := by
  unfold scanEdge at h
  obtain ⟨gid, -, h⟩ := bind_ok_iff.mp h
  obtain ⟨um, -, h⟩ := bind_ok_iff.mp h
  obtain ⟨lo, -, h⟩ := bind_ok_iff.mp h
  obtain ⟨d, -, h⟩ := bind_ok_iff.mp h
  obtain ⟨pd, -, h⟩ := bind_ok_iff.mp h
  dsimp only at h
  have hstep : ∀ (a : Scan) (x : Nat) (b : Scan), (∀ v l, s.vtxMap v = some l → a.vtxMap v = some l) →
      scanPin hyper nl pins a x = .ok b → ∀ v l, s.vtxMap v = some l → b.vtxMap v = some l :=
    fun a x b ha hb v l hv => scanPin_map hb v l (ha v l hv)
  refine foldlM_keeps (fun t : Scan => ∀ v l, s.vtxMap v = some l → t.vtxMap v = some l) hstep _ ?_ h
  exact fun v l hv => hv

theorem constructEdgesBody_keeps {g : Graph} {ids : List Gid} {degs : List Nat} {pins : List Gid} {np : Nat}
    {r : Graph × EType} (h : constructEdgesBody g ids degs pins np = .ok r) : Keeps g r.1 := by
  unfold constructEdgesBody at h
  split at h
  · simp at h
  · dsimp only at h
    obtain ⟨pd0, -, h⟩ := bind_ok_iff.mp h
    obtain ⟨s, hs, h⟩ := bind_ok_iff.mp h
    obtain ⟨deg, -, h⟩ := bind_ok_iff.mp h
    obtain ⟨total, -, h⟩ := bind_ok_iff.mp h
    obtain ⟨gu, -, h⟩ := bind_ok_iff.mp h
    obtain ⟨f, -, h⟩ := bind_ok_iff.mp h
    have := Outcome.ok.inj h
    subst this
    refine ⟨rfl, rfl, rfl, rfl, rfl, rfl, rfl, ?_⟩
    refine foldlM_keeps (fun t : Scan => ∀ v l, g.vtxMap v = some l → t.vtxMap v = some l)
      (fun a x b ha hb v l hv => scanEdge_map hb v l (ha v l hv)) _ ?_ hs
    exact fun v l hv => hv

theorem constructEdgesA_keeps {g g' : Graph} {ids : List Gid} {degs : List Nat} {pins : List Gid}
    {w : Option (List Wgt)} (h : constructEdgesA g ids degs pins w = .ok g') : Keeps g g' := by
  unfold constructEdgesA at h
  obtain ⟨r, hr, h⟩ := bind_ok_iff.mp h
  obtain ⟨ws, -, h⟩ := bind_ok_iff.mp h
  have := Outcome.ok.inj h
  subst this
  have k := constructEdgesBody_keeps hr
  exact ⟨k.rank, k.nl, k.total, k.wts, k.orig, k.coords, k.loc, k.map⟩

theorem constructEdgesV_keeps {g g' : Graph} {ids : List Gid} {degs : List Nat} {pins : List Gid}
    {w : List Wgt} (h : constructEdgesV g ids degs pins w = .ok g') : Keeps g g' := by
  unfold constructEdgesV at h
  obtain ⟨r, hr, h⟩ := bind_ok_iff.mp h
  obtain ⟨ws, -, h⟩ := bind_ok_iff.mp h
  have := Outcome.ok.inj h
  subst this
  have k := constructEdgesBody_keeps hr
  exact ⟨k.rank, k.nl, k.total, k.wts, k.orig, k.coords, k.loc, k.map⟩

/-! ## ghosts -/

theorem fillOwners_keeps {g g' : Graph} {o : GMap Part} (h : g.fillOwners o = .ok g') : Keeps g g' := by
  unfold Graph.fillOwners at h
  split at h
  · have := Outcome.ok.inj h
    subst this
    exact ⟨rfl, rfl, rfl, rfl, rfl, rfl, rfl, fun _ _ h => h⟩
  · obtain ⟨gu, -, h⟩ := bind_ok_iff.mp h
    obtain ⟨m, -, h⟩ := bind_ok_iff.mp h
    have := Outcome.ok.inj h
    subst this
    exact ⟨rfl, rfl, rfl, rfl, rfl, rfl, rfl, fun _ _ h => h⟩

theorem setGlobalCounts_keeps {g g' : Graph} {t : Nat} {a b : Int} (h : g.setGlobalCounts t a b = .ok g') :
    Keeps g g' := by
  unfold Graph.setGlobalCounts at h
  obtain ⟨e, -, h⟩ := bind_ok_iff.mp h
  have := Outcome.ok.inj h
  subst this
  exact ⟨rfl, rfl, rfl, rfl, rfl, rfl, rfl, fun _ _ h => h⟩

/-- a relation on all parts -/
def RelAll (R : Graph → Graph → Prop) (n : Nat) (F : Nat → Graph) (gs : List Graph) : Prop :=
  ∃ G : Nat → Graph, gs = (List.range n).map G ∧ ∀ p, p < n → R (F p) (G p)

/-- what is needed of a relation between the graph of a part before and after `constructGhosts` -/
structure GhostRel (R : Graph → Graph → Prop) : Prop where
  trans : ∀ {a b c}, R a b → R b c → R a c
  fill : ∀ {g g' : Graph} {o : GMap Part}, g.fillOwners o = .ok g' → R g g'
  count : ∀ {g g' : Graph} {t : Nat} {a b : Int}, g.setGlobalCounts t a b = .ok g' → R g g'
  weights : ∀ (g : Graph) w, R g { g with ghostWeights := w }

theorem countType_rel {R : Graph → Graph → Prop} (hR : GhostRel R) {n : Nat} {F : Nat → Graph} {gs gs' : List Graph}
    {t : Nat} (hk : RelAll R n F gs) (h : countType gs t = .ok gs') : RelAll R n F gs' := by
  obtain ⟨G, rfl, hG⟩ := hk
  unfold countType at h
  obtain ⟨cs, -, h⟩ := bind_ok_iff.mp h
  obtain ⟨G', rfl, hG'⟩ := mapM_range_inv h
  exact ⟨G', rfl, fun p hp => hR.trans (hG p hp) (hR.count (hG' p hp))⟩

theorem constructGhosts_rel {R : Graph → Graph → Prop} (hR : GhostRel R) {n : Nat} {F : Nat → Graph}
    {O : Nat → GMap Part} {o1 o2 : Nat → List Nat}
    {gs : List Graph} (h : constructGhosts ((List.range n).map F) ((List.range n).map O) o1 o2 = .ok gs) :
    RelAll R n F gs := by
  unfold constructGhosts at h
  rw [zip_range] at h
  obtain ⟨g1, h1, h⟩ := bind_ok_iff.mp h
  obtain ⟨G1, rfl, hG1⟩ := mapM_range_inv h1
  have k1 : RelAll R n F ((List.range n).map G1) := ⟨G1, rfl, fun p hp => hR.fill (hG1 p hp)⟩
  obtain ⟨g2, h2, h⟩ := bind_ok_iff.mp h
  have k2 : RelAll R n F g2 := by
    generalize (List.range n).map G1 = gs1 at h2 k1
    unfold countTypes at h2
    split at h2
    · have := Outcome.ok.inj h2
      subst this
      exact k1
    · split at h2
      · exact foldlM_keeps (RelAll R n F) (fun s x s' hs he => countType_rel hR hs he) _ k1 h2
      · simp at h2
  obtain ⟨G2, rfl, hG2⟩ := k2
  unfold setGhostWeights at h
  split at h
  · obtain ⟨tags, ht, h⟩ := bind_ok_iff.mp h
    have := Outcome.ok.inj h
    subst this
    have hl : tags.length = n := by
      unfold createGhostTag at ht
      obtain ⟨reqs, hr, ht⟩ := bind_ok_iff.mp ht
      obtain ⟨ins, hi, ht⟩ := bind_ok_iff.mp ht
      obtain ⟨reps, hp, ht⟩ := bind_ok_iff.mp ht
      obtain ⟨ins2, hi2, ht⟩ := bind_ok_iff.mp ht
      obtain ⟨R, rfl, -⟩ := mapM_range_inv hr
      have := exchange_inv hi
      subst this
      rw [zip_range] at hp
      obtain ⟨P, rfl, -⟩ := mapM_range_inv hp
      have := exchange_inv hi2
      subst this
      rw [zip_range] at ht
      have := (mapM_inv ht).1
      simpa using this
    obtain ⟨T, rfl⟩ : ∃ T : Nat → Mem Wgt, tags = (List.range n).map T := by
      have := list_range tags []
      rw [hl] at this
      exact ⟨_, this⟩
    rw [zip_range, List.map_map]
    refine ⟨_, rfl, fun p hp => ?_⟩
    exact hR.trans (hG2 p hp) (hR.weights _ _)
  · have := Outcome.ok.inj h
    subst this
    exact ⟨G2, rfl, hG2⟩

theorem ghostRel_keeps : GhostRel Keeps :=
  ⟨Keeps.trans, fillOwners_keeps, setGlobalCounts_keeps, fun _ _ => ⟨rfl, rfl, rfl, rfl, rfl, rfl, rfl, fun _ _ h => h⟩⟩

/-! ## the edges -/

/-- whatever edges `g` represents, `g'` represents -/
def KeepsC (g g' : Graph) : Prop :=
  ∀ ⦃hyper verts ghosts types⦄, CRep g hyper verts ghosts types → CRep g' hyper verts ghosts types

theorem keepsC_with (g : Graph) (o w oo c) :
    KeepsC g { g with owners := o, ghostWeights := w, originalOwners := oo, coords := c } := by
  intro hyper verts ghosts types h
  exact ⟨⟨h.v.nl, h.v.ng, h.v.nodup, h.v.map, h.v.loc, h.v.gho⟩, h.hyp, h.numTypes, h.typ, h.pins, h.wf⟩

theorem fillOwners_keepsC {g g' : Graph} {o : GMap Part} (h : g.fillOwners o = .ok g') : KeepsC g g' := by
  unfold Graph.fillOwners at h
  split at h
  · have := Outcome.ok.inj h
    subst this
    exact keepsC_with _ _ _ _ _
  · obtain ⟨gu, -, h⟩ := bind_ok_iff.mp h
    obtain ⟨m, -, h⟩ := bind_ok_iff.mp h
    have := Outcome.ok.inj h
    subst this
    exact keepsC_with _ _ _ _ _

theorem setGlobalCounts_keepsC {g g' : Graph} {t : Nat} {a b : Int} (h : g.setGlobalCounts t a b = .ok g') :
    KeepsC g g' := by
  unfold Graph.setGlobalCounts at h
  obtain ⟨e, he, h⟩ := bind_ok_iff.mp h
  have := Outcome.ok.inj h
  subst this
  intro hyper verts ghosts types c
  refine ⟨⟨c.v.nl, c.v.ng, c.v.nodup, c.v.map, c.v.loc, c.v.gho⟩, c.hyp, c.numTypes, ?_, c.pins, c.wf⟩
  intro t' ht'
  obtain ⟨e', he', hr, hw⟩ := c.typ t' ht'
  by_cases htt : t = t'
  · subst htt
    rw [Graph.slot_ok he'] at he
    have := Outcome.ok.inj he
    subst this
    have htl : t < g.types.length := by
      rcases Nat.lt_or_ge t g.types.length with h | h
      · exact h
      · rw [List.getElem?_eq_none h] at he'; simp at he'
    refine ⟨{ e' with globalEdges := a, globalPins := if g.isHyper then b else 2 * a }, ?_, ?_, hw⟩
    · show (g.types.set t _)[t]? = _
      rw [List.getElem?_set, if_pos rfl, if_pos htl]
    exact ⟨hr.numE, hr.numP, hr.ids_len, hr.unmap, hr.pd, hr.pl, hr.deg_len, hr.deg, hr.adj, hr.list_len⟩
  · refine ⟨e', ?_, hr, hw⟩
    show (g.types.set t _)[t']? = _
    rw [List.getElem?_set, if_neg htt]; exact he'

theorem ghostRel_keepsC : GhostRel KeepsC :=
  ⟨fun h h' _ _ _ _ c => h' (h c), fillOwners_keepsC, setGlobalCounts_keepsC, fun _ _ => keepsC_with _ _ _ _ _⟩

/-- both -/
def KeepsB (g g' : Graph) : Prop := Keeps g g' ∧ KeepsC g g'

theorem ghostRel_both : GhostRel KeepsB :=
  ⟨fun h h' => ⟨h.1.trans h'.1, fun _ _ _ _ c => h'.2 (h.2 c)⟩, fun h => ⟨fillOwners_keeps h, fillOwners_keepsC h⟩,
    fun h => ⟨setGlobalCounts_keeps h, setGlobalCounts_keepsC h⟩, fun g w => ⟨ghostRel_keeps.weights g w, ghostRel_keepsC.weights g w⟩⟩

theorem applyOwner_keepsC {g g' : Graph} {m : Nat × (Gid × Part)} (h : g.applyOwner m = .ok g') : KeepsC g g' := by
  unfold Graph.applyOwner at h
  split at h
  · have := Outcome.ok.inj h
    subst this
    exact keepsC_with _ _ _ _ _
  · obtain ⟨o, -, h⟩ := bind_ok_iff.mp h
    obtain ⟨o', -, h⟩ := bind_ok_iff.mp h
    have := Outcome.ok.inj h
    subst this
    exact keepsC_with _ _ _ _ _

theorem applyOwner_keeps {g g' : Graph} {m : Nat × (Gid × Part)} (h : g.applyOwner m = .ok g') : Keeps g g' := by
  unfold Graph.applyOwner at h
  split at h
  · have := Outcome.ok.inj h
    subst this
    exact Keeps.refl _
  · obtain ⟨o, -, h⟩ := bind_ok_iff.mp h
    obtain ⟨o', -, h⟩ := bind_ok_iff.mp h
    have := Outcome.ok.inj h
    subst this
    exact ⟨rfl, rfl, rfl, rfl, rfl, rfl, rfl, fun _ _ h => h⟩

end Verif.Agi
