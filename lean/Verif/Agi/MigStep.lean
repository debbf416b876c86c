import Verif.Agi.MigList
import Verif.Agi.GhostCount
import Verif.Agi.MigrateModel
/-!
# One migration of a distributed hypergraph with one edge type: the parts
-/
namespace Verif.Agi

/-- the global hypergraph: vertices, hyperedges, and what every vertex carries -/
structure GG where
  verts : List Gid
  edges : List HEdge
  wt : Gid → Wgt
  oo : Gid → Part
  co : Option (Gid → Coord)

/-- a proper hypergraph, its vertices placed on parts `0 … n-1` -/
structure GG.WF (G : GG) (n : Nat) (own : Gid → Nat) : Prop where
  some_vertex : G.verts ≠ []
  nodup : G.verts.Nodup
  ids : (G.edges.map HEdge.id).Nodup
  ne : ∀ E ∈ G.edges, E.pins ≠ []
  pins : ∀ E ∈ G.edges, ∀ v ∈ E.pins, v ∈ G.verts
  own : ∀ v ∈ G.verts, own v < n

/-- the hyperedges with a pin on part `p` -/
def GG.on (G : GG) (own : Gid → Nat) (p : Nat) : List HEdge :=
  G.edges.filter (fun E => decide (∃ v ∈ E.pins, own v = p))

theorem GG.mem_on {G : GG} {own : Gid → Nat} {p : Nat} {E : HEdge} :
    E ∈ G.on own p ↔ E ∈ G.edges ∧ ∃ v ∈ E.pins, own v = p := by
  unfold GG.on; rw [List.mem_filter, decide_eq_true_iff]

/-- what part `p` of `n` stores of `G` placed by `own` -/
structure PartInv (G : GG) (own : Gid → Nat) (n p : Nat) (g : Graph) (i : Input) (ghosts : List Gid) : Prop where
  rep : PartRep g p n i own ghosts
  verts : ∀ v, v ∈ i.verts ↔ v ∈ G.verts ∧ own v = p
  wts : vertWeights i.verts i.wgts = i.verts.map G.wt
  shape : (i.hyper = true ∧ ∃ e, i.types = [e] ∧ e.edges.Perm (G.on own p)) ∨
    (i.verts = [] ∧ i.types = [] ∧ g.types[0]? = some none)
  orig : i.verts = [] ∨ g.originalOwners = some (Mem.ofList (i.verts.map G.oo))
  cnone : G.co = none → g.coords = none
  csome : ∀ c, G.co = some c → i.verts = [] ∨ g.coords = some (Mem.ofList (i.verts.map c))

/-- the same as the migration code sees it; `o` is what the owner table of the ghosts says -/
structure PV (G : GG) (own o : Gid → Nat) (n p : Nat) (g : Graph) (verts ghosts : List Gid)
    (ez : List (Handle × HEdge)) : Prop where
  view : MView g verts ghosts ez
  rank : g.self = (p : Int)
  peers : g.peers = n
  owns : ORep g ghosts (fun v => (o v : Int))
  vmem : ∀ v, v ∈ verts ↔ v ∈ G.verts ∧ own v = p
  edges : (ez.map Prod.snd).Perm (G.on own p)
  gho : ∀ v ∈ ghosts, ∃ E ∈ G.on own p, v ∈ E.pins
  vrec : ∀ v ∈ verts, g.vrec (vh (verts ++ ghosts) v) = .ok ⟨v, G.wt v, G.oo v⟩
  coord : ∀ c, G.co = some c → ∀ v ∈ verts, g.coord (vh (verts ++ ghosts) v) = .ok (c v)
  cnone : G.co = none → g.coords = none
  csome : G.co ≠ none → verts ≠ [] → g.coords.isSome = true
  numTypes : g.numTypes = 1 ∨ (g.numTypes = 0 ∧ ez = [] ∧ verts = [])

theorem edges_getElem_pins {e : EdgeInput} {hyper : Bool} (h : e.WF hyper) (v : Gid) :
    v ∈ e.pins.flatten ↔ ∃ E ∈ e.edges, v ∈ E.pins := by
  rw [← edges_pins h, List.mem_flatten]
  constructor
  · rintro ⟨l, hl, hv⟩
    obtain ⟨E, hE, rfl⟩ := List.mem_map.mp hl
    exact ⟨E, hE, hv⟩
  · rintro ⟨E, hE, hv⟩; exact ⟨_, List.mem_map.mpr ⟨E, hE, rfl⟩, hv⟩

theorem allPins_one (h : Bool) (vs : List Gid) (ws : List Wgt) (e : EdgeInput) :
    (Input.mk h vs ws [e]).allPins = e.pins.flatten := by simp [Input.allPins]

theorem CRep.isHyper_empty {g : Graph} {h : Bool} {verts ghosts : List Gid} (hc : CRep g h verts ghosts []) :
    CRep { g with isHyper := true } true verts ghosts [] := by
  obtain ⟨a, b, c, d, e, f⟩ := hc
  refine ⟨⟨a.nl, a.ng, a.nodup, a.map, a.loc, a.gho⟩, rfl, c, ?_, ?_, ?_⟩
  · intro t ht; simp at ht
  · intro t ht; simp at ht
  · intro e he; simp at he

theorem graph_isHyper {g : Graph} (h : g.isHyper = true) : ({ g with isHyper := true } : Graph) = g := by
  cases g; simp only [Graph.mk.injEq] at *; simp_all

theorem PartInv.pv {G : GG} {own : Gid → Nat} {n p : Nat} {g : Graph} {i : Input} {ghosts : List Gid}
    (hG : G.WF n own) (h : PartInv G own n p g i ghosts) :
    ∃ ez, PV G own own n p { g with isHyper := true } i.verts ghosts ez := by
  have hvr : VRep ({ g with isHyper := true } : Graph) i.verts ghosts := by
    have a := h.rep.core.v
    exact ⟨a.nl, a.ng, a.nodup, a.map, a.loc, a.gho⟩
  have hnd : i.verts.Nodup := (List.nodup_append.mp hvr.nodup).1
  have hvrec : ∀ v ∈ i.verts, ({ g with isHyper := true } : Graph).vrec (vh (i.verts ++ ghosts) v) =
      .ok ⟨v, G.wt v, G.oo v⟩ := by
    intro v hv
    unfold Graph.vrec
    rw [globalID_eq hvr (by simp [hv]), Outcome.bind_ok, vh_local hv]
    have hlt := List.idxOf_lt_length_of_mem hv
    have hw := h.rep.weights
    rw [h.wts] at hw
    rw [weight_local hvr hw hlt (by simpa using hlt), Outcome.bind_ok]
    have hoo : g.originalOwners = some (Mem.ofList (i.verts.map G.oo)) := by
      rcases h.orig with h1 | h1
      · rw [h1] at hv; simp at hv
      · exact h1
    have : ({ g with isHyper := true } : Graph).originalOwner (getVertex (i.verts.idxOf v)) = .ok (G.oo v) := by
      unfold Graph.originalOwner
      simp only [hoo]
      rw [vidx_getVertex, Outcome.bind_ok, if_neg (by have := hvr.nl; simp only at this; omega),
        Mem.load_ofList (by simpa using hlt)]
      simp
    rw [this, Outcome.bind_ok]
    simp
  have hcoord : ∀ c, G.co = some c → ∀ v ∈ i.verts,
      ({ g with isHyper := true } : Graph).coord (vh (i.verts ++ ghosts) v) = .ok (c v) := by
    intro c hc v hv
    have hlt := List.idxOf_lt_length_of_mem hv
    have hco : g.coords = some (Mem.ofList (i.verts.map c)) := by
      rcases h.csome c hc with h1 | h1
      · rw [h1] at hv; simp at hv
      · exact h1
    rw [vh_local hv]
    unfold Graph.coord
    rw [vidx_getVertex, Outcome.bind_ok, if_neg (by have := hvr.nl; simp only at this ⊢; omega)]
    simp only [hco, deref, Outcome.ofOption_some, Outcome.bind_ok]
    rw [Mem.load_ofList (by simpa using hlt)]
    simp
  have hcs : G.co ≠ none → i.verts ≠ [] → ({ g with isHyper := true } : Graph).coords.isSome = true := by
    intro h1 h2
    obtain ⟨c, hc⟩ := Option.ne_none_iff_exists'.mp h1
    rcases h.csome c hc with h3 | h3
    · exact absurd h3 h2
    · simp [h3]
  rcases h.shape with ⟨hh, e, het, hperm⟩ | ⟨h1, h2, h3⟩
  · have hg : ({ g with isHyper := true } : Graph) = g := graph_isHyper (by rw [h.rep.core.hyp, hh])
    have hc := h.rep.core
    rw [hh, het] at hc
    rw [hg] at hvrec hcoord hcs ⊢
    have hwf : e.WF true := hc.wf e (by simp)
    have hne : ∀ p ∈ e.pins, p ≠ [] := by
      intro p hp
      rw [← edges_pins hwf] at hp
      obtain ⟨E, hE, rfl⟩ := List.mem_map.mp hp
      exact hG.ne E (GG.mem_on.mp (hperm.mem_iff.mp hE)).1
    refine ⟨_, MView.of_crep hc hne, h.rep.rank, h.rep.peers, h.rep.owners, h.verts, ?_, ?_, hvrec, hcoord,
      h.cnone, hcs, .inl ?_⟩
    · rw [edgeHandles_snd]; exact hperm
    · intro v hv
      have := ((h.rep.mem_ghosts v).mp hv).1
      unfold Input.allPins at this
      rw [het] at this
      simp only [List.map_cons, List.map_nil, List.flatten_cons, List.flatten_nil, List.append_nil] at this
      obtain ⟨E, hE, hvE⟩ := (edges_getElem_pins hwf v).mp this
      exact ⟨E, hperm.mem_iff.mp hE, hvE⟩
    · exact hc.numTypes
  · have hc := h.rep.core
    rw [h1, h2] at hc
    have hgh : ghosts = [] := by
      by_contra hcon
      obtain ⟨v, hv⟩ := List.exists_mem_of_ne_nil _ hcon
      have := ((h.rep.mem_ghosts v).mp hv).1
      unfold Input.allPins at this
      rw [h2] at this; simp at this
    subst hgh
    have hno : G.on own p = [] := by
      unfold GG.on
      rw [List.filter_eq_nil_iff]
      intro E hE
      rw [decide_eq_true_iff]
      rintro ⟨v, hv, ho⟩
      have := (h.verts v).mpr ⟨hG.pins E hE v hv, ho⟩
      rw [h1] at this; simp at this
    have hmv := MView.of_empty (g := { g with isHyper := true }) hc.isHyper_empty h3
    refine ⟨[], ⟨by rw [h1]; exact hmv, h.rep.rank, h.rep.peers, h.rep.owners, h.verts, ?_, by simp, hvrec, hcoord,
      h.cnone, hcs, .inr ⟨hc.numTypes, rfl, h1⟩⟩⟩
    rw [hno]; simp

theorem PV.of_owners {G : GG} {own o o' : Gid → Nat} {n p : Nat} {g g' : Graph} {verts ghosts : List Gid}
    {ez : List (Handle × HEdge)} (h : PV G own o n p g verts ghosts ez) (he : g' = { g with owners := g'.owners })
    (ho : ORep g' ghosts (fun v => (o' v : Int))) : PV G own o' n p g' verts ghosts ez := by
  have hmv := h.view.of_owners he
  obtain ⟨-, b, c, -, d, e, f, i, j, k, l, m⟩ := h
  refine ⟨hmv, ?_, ?_, ho, d, e, f, ?_, ?_, ?_, ?_, ?_⟩
  · rw [he]; exact b
  · rw [he]; exact c
  · generalize g'.owners = oo at he; subst he; exact i
  · generalize g'.owners = oo at he; subst he; exact j
  · rw [he]; exact k
  · rw [he]; exact l
  · rw [he]; exact m

/-- a plan that moves exactly the vertices `s` of part `p` that `own'` puts elsewhere -/
def PlanTo (verts : List Gid) (plan : Plan) (s : List Gid) (own' : Gid → Nat) (p : Nat) : Prop :=
  ∃ f, PlanRep verts plan s f ∧ (∀ v ∈ s, f v = some (own' v : Int)) ∧ ∀ v, v ∈ s ↔ v ∈ verts ∧ own' v ≠ p

theorem cleanup_to {g : Graph} {verts : List Gid} {plan : Plan} {s : List Gid} {f : Gid → Option Part}
    {own' : Gid → Nat} {p : Nat} (hn : g.numLocal = verts.length) (hnd : verts.Nodup) (hr : g.self = (p : Int))
    (hp : PlanRep verts plan s f) (hown : ∀ v ∈ verts, (own' v : Int) = (f v).getD p) :
    ∃ plan' s', g.cleanup plan = .ok plan' ∧ PlanTo verts plan' s' own' p := by
  obtain ⟨plan', s', e, h⟩ := cleanup_rep hn hnd hp
  have hmem : ∀ v, v ∈ s' ↔ v ∈ verts ∧ own' v ≠ p := by
    intro v
    rw [h.mem]
    constructor
    · rintro ⟨h1, h2⟩
      refine ⟨h1, ?_⟩
      have := hown v h1
      split at h2
      · rename_i hc
        obtain ⟨d, hd⟩ := Option.ne_none_iff_exists'.mp h2
        rw [hd] at this
        simp only [Option.getD_some] at this
        intro hcon
        apply hc.2
        rw [hd, hr, ← this, hcon]
      · exact absurd rfl h2
    · rintro ⟨h1, h2⟩
      refine ⟨h1, ?_⟩
      have := hown v h1
      have hne : f v ≠ none := by
        intro hc; rw [hc] at this; simp only [Option.getD_none] at this
        exact h2 (by exact_mod_cast this)
      obtain ⟨d, hd⟩ := Option.ne_none_iff_exists'.mp hne
      rw [hd] at this
      simp only [Option.getD_some] at this
      rw [if_pos ⟨(hp.mem v).mpr ⟨h1, hne⟩, by rw [hd, hr]; simp only [ne_eq, Option.some.injEq]; omega⟩]
      exact hne
  refine ⟨plan', s', e, _, h, ?_, hmem⟩
  intro v hvs
  obtain ⟨h1, h2⟩ := (h.mem v).mp hvs
  split at h2
  · rename_i hc
    obtain ⟨d, hd⟩ := Option.ne_none_iff_exists'.mp h2
    rw [if_pos hc]
    have := hown v h1
    rw [hd] at this ⊢
    simp only [Option.getD_some] at this
    rw [this]
  · exact absurd rfl h2

theorem PV.mctx {G : GG} {own own' : Gid → Nat} {n p : Nat} {g : Graph} {verts ghosts : List Gid}
    {ez : List (Handle × HEdge)} {plan : Plan} {s : List Gid} (h : PV G own own' n p g verts ghosts ez)
    (hp : PlanTo verts plan s own' p) : MCtx g p verts ghosts ez plan s (fun v => (own' v : Int)) := by
  obtain ⟨f, h1, h2, h3⟩ := hp
  refine ⟨h.view, h.rank, ⟨f, h1, h2⟩, ?_, ?_, ?_⟩
  · intro v hv; have := ((h3 v).mp hv).2; simp only [ne_eq]; omega
  · intro v hv hs
    have : ¬ own' v ≠ p := fun hc => hs ((h3 v).mpr ⟨hv, hc⟩)
    show (own' v : Int) = p; omega
  · intro u hu
    rw [owner_eq h.view.v h.owns hu]
    unfold ownerOf
    rw [h.rank]

end Verif.Agi
