import Verif.Part.SplitWitness
import Verif.Part.ParmetisSym
import Verif.Agi.MigBlank
import Verif.Agi.TradReturnProps
/-!
# C54 for traditional graphs

A split of a graph in which every edge has its opposite returns; the vertices go where the partitioner says; the edges
lost are those between two vertices of one part of which the source stays on its rank and the destination leaves.
-/
namespace Verif.Part
open Verif.Agi

/-! ## specification -/

/-- the ranks show the traditional graph with vertices `V` and edges `T`, vertex weights `wt`, original owners `oo` and
coordinates `co`, its vertices placed by `place`: every rank has exactly its vertices, each once, with their data, and
exactly the edges that leave them, with the right owner at both ends -/
def ShowsT (V : List Gid) (T : List (List Gid)) (wt : Gid → Wgt) (oo : Gid → Part) (co : Option (Gid → Coord)) (n : Nat)
    (place : Gid → Nat) (gs : List Graph) : Prop :=
  gs.length = n ∧ (∀ v ∈ V, place v < n) ∧ ∀ r (hr : r < gs.length),
    gs[r].globalVerts = (V.length : Int) ∧
    (∃ vs, gs[r].localGids = .ok vs ∧ vs.Nodup ∧ ∀ v, v ∈ vs ↔ v ∈ V ∧ place v = r) ∧
    (∃ l, gs[r].arcViews 0 = .ok l ∧
      l.Perm ((T.filter (fun x => decide (place (src x) = r))).map (fun x => x.map (fun v => (v, (place v : Int)))))) ∧
    ∀ v ∈ V, place v = r → gs[r].weightG v = .ok (wt v) ∧ gs[r].origG v = .ok (oo v) ∧
      ∀ c, co = some c → gs[r].coordG v = .ok (c v)

/-! ## proof -/

section
variable {ins : List Input} {own : Gid → Nat} {n : Nat} {gr : Nat → Graph}

/-- everything about the parts directly after the construction -/
theorem setup_split {owns : List (GMap Part)} {o1 o2 : Nat → List Nat} {co : Option (Gid → Coord)} (h : TradStart ins own)
    (ho : OwnMaps ins own owns) (h1 : Orders ins.length o1) (h2 : Orders ins.length o2) :
    ∃ (gr : Nat → Graph) (GH : Nat → List Gid), setupAll ins co owns o1 o2 = .ok ((List.range ins.length).map gr) ∧
      World ((List.range ins.length).map gr) ins own ∧
      ∀ p, p < ins.length → TState (startD ins own co) (allArcs ins) own ins.length p (gr p) (vertsAt ins p) ∧
        VRep (gr p) (vertsAt ins p) (GH p) ∧ ∀ v ∈ GH p, own v < ins.length := by
  have hd := h.dist
  obtain ⟨gr, GH, e, hpf⟩ := Io.setup_full (T := 1) (hyper := false) hd ⟨h.trad, fun i hi => by
    obtain ⟨e, he, -⟩ := h.one i hi
    rw [he]; rfl⟩ ho h1 h2 (fun _ i hi e he x hx => by
    obtain ⟨u, hu, w, -, hne, rfl⟩ := h.arcs i hi e he x hx
    exact ⟨u, hu, w, hne, rfl⟩) co
  obtain ⟨gr', V, e', hst⟩ := setup_trad_ok (co := co) h ho h1 h2
  have heq := Outcome.ok.inj (e.symm.trans e')
  have hget : ∀ p (hp : p < ins.length), ins.getD p ⟨true, [], [], []⟩ = ins[p] := by
    intro p hp; rw [List.getD_eq_getElem?_getD, List.getElem?_eq_getElem hp]; rfl
  have hrep : ∀ p (hp : p < ins.length), PartRep (gr p) p ins.length ins[p] own (GH p) := by
    intro p hp
    have := (hpf p hp).1.rep
    rw [hget p hp] at this
    exact this
  refine ⟨gr, GH, e, ⟨by simp, fun p hp hp' => ⟨GH p, ?_⟩⟩, fun p hp => ?_⟩
  · simp only [List.getElem_map, List.getElem_range]
    exact hrep p hp'
  have hgp : gr' p = gr p := by
    have := congrArg (fun l => l[p]?) heq
    simp only [List.getElem?_map, List.getElem?_range hp, Option.map_some, Option.some.injEq] at this
    exact this.symm
  have hs := hst p hp
  rw [hgp] at hs
  have hr := hrep p hp
  rw [vertsAt_eq hp]
  have hV : V p = ins[p].verts := ofList_inj (hs.loc.loc.symm.trans hr.core.v.loc)
  rw [hV] at hs
  refine ⟨hs, hr.core.v, fun v hv => ?_⟩
  exact (hd.pins p hp v ((hr.mem_ghosts v).mp hv).1).1

/-- an original part, expanded and switched to the large communicator -/
theorem expand_trad {D : VD} {T : List (List Gid)} {m p : Nat} {g : Graph} {V gh : List Gid} (hst : TState D T own m p g V)
    (hv : VRep g V gh) (hgl : ∀ v ∈ gh, own v < m) (hT : ArcsIn D.verts T) (hown : ∀ v ∈ D.verts, own v < m) (hp : p < m)
    {ranks : List Nat} (hl : ranks.length = m) (hnd : ranks.Nodup) :
    ∃ g', g.changeOwners (ranks.map Int.ofNat) = .ok g' ∧
      TState D T (rankOf ranks own) n (ranks.getD p 0)
        (Graph.switchComm g' ((ranks.getD p 0 : Nat) : Int) n).setOriginalOwners V := by
  obtain ⟨hloc, -, ghosts, ids, es, wgts, ⟨hc, hperm⟩, hor⟩ := hst
  have hgh : ghosts = gh := by
    have h4 := hc.v.gho
    have h5 := hv.gho
    rcases h4 with ⟨h4, h6⟩ | h4 <;> rcases h5 with ⟨h5, h7⟩ | h5
    · rw [h4, h5]
    · exact absurd (h6.symm.trans h5) (by simp)
    · exact absurd (h4.symm.trans h7) (by simp)
    · exact ofList_inj (Option.some.inj (h4.symm.trans h5))
  subst hgh
  obtain ⟨g', e, heq, ho⟩ := changeOwners_rep hv hor (ranks := ranks) (fun v hv => by rw [hl]; exact hgl v hv)
  refine ⟨g', e, ?_⟩
  have hr1 : ∀ v ∈ D.verts, rankOf ranks own v = ranks.getD p 0 ↔ own v = p := by
    intro v hv
    have := hown v hv
    unfold rankOf
    rw [getD_rank (by omega), getD_rank (by omega), hnd.getElem_inj_iff]
  set r := ranks.getD p 0 with hr
  have hq : (Graph.switchComm g' (r : Int) n).setOriginalOwners =
      { g with owners := g'.owners, self := (r : Int), peers := n } := by
    rw [heq]
    unfold Graph.switchComm Graph.setOriginalOwners
    rw [hloc.orig]
  rw [hq]
  refine ⟨⟨rfl, hloc.nl, hloc.nodup, ?_, hloc.loc, hloc.map, hloc.wts, hloc.orig, hloc.coords, hloc.total⟩, rfl,
    ghosts, ids, es, wgts, ⟨⟨⟨hc.v.nl, hc.v.ng, hc.v.nodup, hc.v.map, hc.v.loc, hc.v.gho⟩, hc.hyp, hc.numTypes, hc.typ,
      hc.pins, hc.wf⟩, ?_⟩, ?_⟩
  · intro v
    rw [hloc.mem v]
    constructor
    · rintro ⟨a, b⟩; exact ⟨a, (hr1 v a).mpr b⟩
    · rintro ⟨a, b⟩; exact ⟨a, (hr1 v a).mp b⟩
  · refine hperm.trans (List.Perm.of_eq (List.filter_congr (fun x hx => ?_)))
    obtain ⟨u, hu, w, -, -, rfl⟩ := hT x hx
    have := hr1 u hu
    show decide (own u = p) = decide (rankOf ranks own u = r)
    simp only [this]
  · rcases ho with h | h
    · exact .inl h
    · exact .inr h

/-- a rank without vertices, in the form a part without vertices has after construction -/
theorem blank_part {D : VD} {T : List (List Gid)} {place : Gid → Nat} {r : Nat} (hT : ArcsIn D.verts T)
    (hr : ∀ v ∈ D.verts, place v ≠ r) :
    ∃ g, TState D T place n r g [] ∧ Blank 1 g ∧ g.self = (r : Int) ∧ g.peers = n ∧ g.numTypes = 1 ∧
      (g.coords.isSome = D.co.isSome) := by
  have hwf : (⟨false, [], [], [⟨[], [], []⟩]⟩ : Input).WF := by
    refine ⟨by simp, by simp [maxTypes], ?_⟩
    intro e he
    simp only [List.mem_cons, List.not_mem_nil, or_false] at he
    subst he
    exact ⟨rfl, .inl rfl, fun _ x hx => by simp at hx⟩
  obtain ⟨g, gh, -, hg, hco⟩ := build_spec' (r : Int) n (D.verts.length : Int) ⟨false, [], [], [⟨[], [], []⟩]⟩ hwf
  have hc := hg.core hwf
  have hgh : gh = [] := by
    have := hg.ghosts_eq
    simpa [Input.allPins, extend] using this
  subst hgh
  refine ⟨{ g with coords := D.co.map (fun _ => Mem.ofList []), originalOwners := some (Mem.ofList []) }, ?_, ?_, hg.rank,
    hg.peers, hg.numTypes, ?_⟩
  · refine ⟨⟨hg.rank, hc.v.nl, by simp, ?_, hc.v.loc, by simp, ?_, rfl, ?_, hg.total⟩, hg.peers, [], [], [], [],
      ⟨⟨⟨hc.v.nl, hc.v.ng, hc.v.nodup, hc.v.map, hc.v.loc, hc.v.gho⟩, hc.hyp, hc.numTypes, hc.typ,
        hc.pins, hc.wf⟩, ?_⟩, .inl ⟨rfl, hg.owners⟩⟩
    · intro v
      constructor
      · intro h; simp at h
      · rintro ⟨a, b⟩; exact absurd b (hr v a)
    · simpa [vertWeights] using hg.weights
    · cases D.co <;> rfl
    · rw [List.filter_eq_nil_iff.mpr]
      intro x hx
      obtain ⟨u, hu, w, -, -, rfl⟩ := hT x hx
      exact fun hc => hr u hu (of_decide_eq_true hc)
  · refine ⟨hc.v.nl, hg.owners, hg.hyper, ?_⟩
    intro t ht
    have : t = 0 := by omega
    subst this
    obtain ⟨e, he, ht, -⟩ := hg.types 0 (by simp)
    unfold Graph.edgeBegin
    simp only [he]
    refine ⟨_, rfl, ?_⟩
    have : e.numEdges = 0 := by simpa using ht.numE
    unfold mkEdgeIt
    simp [this]
  · cases D.co <;> rfl

theorem empty_blank (r : Nat) : Blank 1 (emptyGraph (r : Int) n).setOriginalOwners := by
  refine ⟨rfl, rfl, rfl, ?_⟩
  intro t ht
  have : t = 0 := by omega
  subst this
  exact ⟨_, rfl, Nat.le_refl _⟩


/-- the opposite of every edge, as the neighbour relation handed to the partitioner -/
theorem sym_arc (h : TradStart ins own) (hs : SymArcs (allArcs ins)) (v w : Gid) (ha : Arc ins 0 v w) : Arc ins 0 w v := by
  obtain ⟨x, hx, he⟩ := ha
  obtain ⟨i, hi, hx⟩ := List.mem_flatMap.mp hx
  obtain ⟨e, hie, he1, -⟩ := h.one i hi
  rw [hie] at hx
  have hm : [v, w] ∈ allArcs ins := by
    refine List.mem_flatMap.mpr ⟨i, hi, List.mem_flatMap.mpr ⟨e, by rw [hie]; simp, ?_⟩⟩
    rw [← he]
    exact edge_pins_mem hx
  obtain ⟨j, hj, hy⟩ := List.mem_flatMap.mp (hs _ hm)
  obtain ⟨f, hf, hy⟩ := List.mem_flatMap.mp hy
  obtain ⟨f', hjf, -⟩ := h.one j hj
  rw [hjf, List.mem_singleton] at hf
  subst hf
  have hwf := (h.wf j hj).edges f (by rw [hjf]; simp)
  rw [← edges_pins hwf] at hy
  obtain ⟨y, hy, hye⟩ := List.mem_map.mp hy
  refine ⟨y, List.mem_flatMap.mpr ⟨j, hj, ?_⟩, hye⟩
  rw [hjf]
  exact hy

theorem tradStart_dist (h : TradStart ins own) : TradDist ins own 1 :=
  ⟨h.dist, ⟨h.trad, fun i hi => by obtain ⟨e, he, -⟩ := h.one i hi; rw [he]; rfl⟩, fun i hi e he x hx => by
    obtain ⟨u, hu, w, -, hne, rfl⟩ := h.arcs i hi e he x hx
    exact ⟨u, hu, w, hne, rfl⟩⟩

/-- from any plans on: every vertex goes where its plan says, or stays on the rank of its part -/
theorem apply_trad {GH : Nat → List Gid} {co : Option (Gid → Coord)} (h : TradStart ins own) (h0 : 0 < ins.length)
    (hsym : SymArcs (allArcs ins))
    (hst : ∀ p, p < ins.length → TState (startD ins own co) (allArcs ins) own ins.length p (gr p) (vertsAt ins p) ∧
        VRep (gr p) (vertsAt ins p) (GH p) ∧ ∀ v ∈ GH p, own v < ins.length)
    {ranks : List Nat} (hl : ranks.length = ins.length) (hdis : ranks.Nodup) (hrl : ∀ r ∈ ranks, r < n) {env : MigrateEnv}
    (henv : EnvOk n co.isSome env) {dest : Gid → Nat} (hdest : ∀ v ∈ allVerts ins, dest v < n) {pl : Nat → Plan}
    (hpl : ∀ p, p < ins.length → ∃ sd f, PlanRep (vertsAt ins p) (pl p) sd f ∧
      ∀ v ∈ vertsAt ins p, (dest v : Int) = (f v).getD ((ranks.getD p 0 : Nat) : Int)) :
    ∃ (gr' : Nat → Graph) (V' : Nat → List Gid),
      splitApply n ranks ((List.range ins.length).map gr) ((List.range ins.length).map pl) env = .ok ((List.range n).map gr') ∧
      ∀ r, r < n → TState (startD ins own co) ((allArcs ins).filter (fun x => decide (¬ Lost (rankOf ranks own) dest x)))
        dest n r (gr' r) (V' r) := by
  have hn : 0 < n := by
    have := hrl _ (List.getElem_mem (show 0 < ranks.length by omega))
    omega
  obtain ⟨g2, hg2⟩ := choose_part (fun p hp => expand_trad (n := n) (hst p hp).1 (hst p hp).2.1 (hst p hp).2.2 h.arcsIn
    h.placed.lt hp hl hdis)
  have hidx : ∀ r, r ∈ ranks → ranks.idxOf r < ins.length ∧ ranks.getD (ranks.idxOf r) 0 = r := by
    intro r hr
    have h1 : ranks.idxOf r < ranks.length := List.idxOf_lt_length_of_mem hr
    refine ⟨by omega, ?_⟩
    rw [getD_rank h1]
    exact List.getElem_idxOf h1
  have hbl : ∀ r : Nat, ∃ g : Graph, r ∉ ranks → TState (startD ins own co) (allArcs ins) (rankOf ranks own) n r g [] ∧
      Blank 1 g ∧ g.self = (r : Int) ∧ g.peers = n ∧ g.numTypes = 1 ∧ (g.coords.isSome = co.isSome) := by
    intro r
    by_cases hr : r ∈ ranks
    · exact ⟨emptyGraph 0 0, fun h => absurd hr h⟩
    · obtain ⟨g, hg⟩ := blank_part (n := n) (D := startD ins own co) (place := rankOf ranks own) (r := r) h.arcsIn (by
        intro v hv
        have := h.placed.lt v hv
        unfold rankOf
        rw [getD_rank (by omega)]
        intro h
        exact hr (h ▸ List.getElem_mem _))
      exact ⟨g, fun _ => hg⟩
  choose bl hbl using hbl
  let A : Nat → Graph := fun r =>
    if r ∈ ranks then (Graph.switchComm (g2 (ranks.idxOf r)) (r : Int) n).setOriginalOwners else bl r
  let B : Nat → Graph := fun r =>
    if r ∈ ranks then (Graph.switchComm (g2 (ranks.idxOf r)) (r : Int) n).setOriginalOwners
    else (emptyGraph (r : Int) n).setOriginalOwners
  let P : Nat → Plan := fun r => if r ∈ ranks then pl (ranks.idxOf r) else ⟨none, []⟩
  let W : Nat → List Gid := fun r => if r ∈ ranks then vertsAt ins (ranks.idxOf r) else []
  have hpart : ∀ r, r ∈ ranks → TState (startD ins own co) (allArcs ins) (rankOf ranks own) n r
      (Graph.switchComm (g2 (ranks.idxOf r)) (r : Int) n).setOriginalOwners (vertsAt ins (ranks.idxOf r)) := by
    intro r hm
    obtain ⟨hi, hge⟩ := hidx r hm
    have h1 := (hg2 _ hi).2
    rw [hge] at h1
    exact h1
  have hA : ∀ r, r < n → TState (startD ins own co) (allArcs ins) (rankOf ranks own) n r (A r) (W r) := by
    intro r _
    by_cases hm : r ∈ ranks
    · rw [show A r = _ from if_pos hm, show W r = _ from if_pos hm]; exact hpart r hm
    · rw [show A r = _ from if_neg hm, show W r = _ from if_neg hm]; exact (hbl r hm).1
  have hlt : ∀ v ∈ allVerts ins, rankOf ranks own v < n := by
    intro v hv
    have h1 := h.placed.lt v hv
    unfold rankOf
    rw [getD_rank (by omega)]
    exact hrl _ (List.getElem_mem _)
  obtain ⟨gr', V', e, hd⟩ := round_trad_ok (own' := dest) hn
    (show (startD ins own co).verts.Nodup from allVerts_nodup h.placed.nodup h.placed.verts) hlt
    (hdest) h.arcsIn (sym_told hsym _ _) hA (pl := P) (by
      intro r _
      by_cases hm : r ∈ ranks
      · obtain ⟨hi, hge⟩ := hidx r hm
        rw [show P r = _ from if_pos hm, show W r = _ from if_pos hm]
        have := hpl _ hi
        rwa [hge] at this
      · rw [show P r = _ from if_neg hm, show W r = _ from if_neg hm]
        obtain ⟨q, hq, hq2⟩ := newPlan_rep (g := emptyGraph (r : Int) n) (verts := []) rfl
        rw [(empty_blank (n := n) r).newPlan.symm.trans (by exact hq) |> Outcome.ok.inj]
        exact ⟨_, _, hq2, fun v hv => by simp at hv⟩) henv
  refine ⟨gr', V', ?_, hd⟩
  have hhy : ∀ r, r ∈ ranks → (Graph.switchComm (g2 (ranks.idxOf r)) (r : Int) n).setOriginalOwners.isHyper = false ∧
      (Graph.switchComm (g2 (ranks.idxOf r)) (r : Int) n).setOriginalOwners.numTypes = 1 := by
    intro r hm
    obtain ⟨gh, ids, es, wgts, hp, -⟩ := (hpart r hm).arcs
    exact ⟨hp.rep.hyp, hp.rep.numTypes⟩
  obtain ⟨r0, hr0⟩ : ∃ r0, r0 ∈ ranks := ⟨_, List.getElem_mem (show 0 < ranks.length by omega)⟩
  have hr0n := hrl r0 hr0
  have maxOne : ∀ f : Nat → Graph, (∀ r, r < n → (f r).numTypes ≤ 1) → (f r0).numTypes = 1 →
      ((List.range n).map f).foldl (fun m g => max m g.numTypes) 0 = 1 := by
    intro f h1 h2
    obtain ⟨-, hb, hc⟩ := foldl_max (fun g : Graph => g.numTypes) ((List.range n).map f) 0
    have h3 := hb (f r0) (List.mem_map.mpr ⟨r0, List.mem_range.mpr hr0n, rfl⟩)
    have h4 := hc 1 (by omega) (by
      intro g hg
      obtain ⟨r, hr, rfl⟩ := List.mem_map.mp hg
      exact h1 r (List.mem_range.mp hr))
    rw [h2] at h3
    exact Nat.le_antisymm h4 h3
  have hm := migrate_alike (nt := 1) (gr := B) (gr' := A) (pl := P) (by
      intro r _
      by_cases hm : r ∈ ranks
      · left
        rw [show A r = _ from if_pos hm, show B r = _ from if_pos hm]
      · right
        rw [show A r = _ from if_neg hm, show B r = _ from if_neg hm, show P r = _ from if_neg hm]
        obtain ⟨-, b2, b3, b4, -⟩ := hbl r hm
        exact ⟨empty_blank r, b2, b3.symm ▸ rfl, b4.symm ▸ rfl, rfl⟩)
    (maxOne B (by
      intro r _
      by_cases hm : r ∈ ranks
      · rw [show B r = _ from if_pos hm, (hhy r hm).2]
      · rw [show B r = _ from if_neg hm]; exact Nat.zero_le _) (by rw [show B r0 = _ from if_pos hr0, (hhy r0 hr0).2]))
    (maxOne A (by
      intro r _
      by_cases hm : r ∈ ranks
      · rw [show A r = _ from if_pos hm, (hhy r hm).2]
      · rw [show A r = _ from if_neg hm, (hbl r hm).2.2.2.2.1]) (by rw [show A r0 = _ from if_pos hr0, (hhy r0 hr0).2]))
    (by
      have hco : ∀ r, r ∈ ranks → (Graph.switchComm (g2 (ranks.idxOf r)) (r : Int) n).setOriginalOwners.coords.isSome = co.isSome := by
        intro r hm
        rw [(hpart r hm).loc.coords]
        show (co.map _).isSome = _
        simp
      have anyCo : ∀ f : Nat → Graph, (∀ r, r < n → (f r).coords.isSome = true → co.isSome = true) →
          (f r0).coords.isSome = co.isSome → ((List.range n).map f).any (fun g => g.coords.isSome) = co.isSome := by
        intro f h1 h2
        cases hc : co.isSome with
        | true =>
          rw [List.any_eq_true]
          exact ⟨f r0, List.mem_map.mpr ⟨r0, List.mem_range.mpr hr0n, rfl⟩, by rw [h2, hc]⟩
        | false =>
          rw [List.any_eq_false]
          intro g hg
          obtain ⟨r, hr, rfl⟩ := List.mem_map.mp hg
          intro hcc
          have := h1 r (List.mem_range.mp hr) hcc
          rw [hc] at this
          exact absurd this (by simp)
      rw [anyCo B ?_ ?_, anyCo A ?_ ?_]
      · intro r _ hx
        by_cases hm : r ∈ ranks
        · rw [show A r = _ from if_pos hm, hco r hm] at hx; exact hx
        · rw [show A r = _ from if_neg hm, (hbl r hm).2.2.2.2.2] at hx; exact hx
      · rw [show A r0 = _ from if_pos hr0, hco r0 hr0]
      · intro r _ hx
        by_cases hm : r ∈ ranks
        · rw [show B r = _ from if_pos hm, hco r hm] at hx; exact hx
        · rw [show B r = _ from if_neg hm] at hx; exact absurd hx (by simp [emptyGraph, Graph.setOriginalOwners])
      · rw [show B r0 = _ from if_pos hr0, hco r0 hr0])
    (by
      intro r _
      by_cases hm : r ∈ ranks
      · rw [show B r = _ from if_pos hm, (hhy r hm).1]
      · rw [show B r = _ from if_neg hm]; rfl)
    (by
      intro r _
      by_cases hm : r ∈ ranks
      · rw [show A r = _ from if_pos hm, (hhy r hm).1]
      · rw [show A r = _ from if_neg hm]; exact (hbl r hm).2.1.hyp)
    henv.shuffle e
  unfold splitApply
  rw [mapM_range (G := g2) (fun p hp => (hg2 p hp).1), Outcome.bind_ok]
  have e2 : (List.range n).mapM (onRank n ranks ((List.range ins.length).map g2)) = .ok ((List.range n).map (fun r =>
      if r ∈ ranks then Graph.switchComm (g2 (ranks.idxOf r)) (r : Int) n else emptyGraph (r : Int) n)) := by
    apply mapM_ok
    intro r hr
    unfold onRank
    by_cases hm : r ∈ ranks
    · rw [if_pos hm, if_pos hm, Io.rd_some (x := g2 (ranks.idxOf r)) (by simp [(hidx r hm).1])]
      rfl
    · rw [if_neg hm, if_neg hm]
  have e3 : (List.range n).mapM (planOnRank n ranks ((List.range ins.length).map pl)) = .ok ((List.range n).map P) := by
    apply mapM_ok
    intro r hr
    unfold planOnRank
    by_cases hm : r ∈ ranks
    · rw [if_pos hm, Io.rd_some (x := pl (ranks.idxOf r)) (by simp [(hidx r hm).1])]
      simp only [P, if_pos hm]
    · rw [if_neg hm]
      simp only [P, if_neg hm]
      exact (empty_blank (n := n) r).newPlan
  rw [e2, Outcome.bind_ok, e3, Outcome.bind_ok, List.map_map]
  rw [← hm]
  congr 1
  apply List.map_congr_left
  intro r _
  simp only [Function.comp, B]
  split <;> rfl

/-- the whole split -/
theorem split_trad {GH : Nat → List Gid} {co : Option (Gid → Coord)} (h : TradStart ins own) (h0 : 0 < ins.length)
    (hsym : SymArcs (allArcs ins)) (hw : World ((List.range ins.length).map gr) ins own)
    (hst : ∀ p, p < ins.length → TState (startD ins own co) (allArcs ins) own ins.length p (gr p) (vertsAt ins p) ∧
        VRep (gr p) (vertsAt ins p) (GH p) ∧ ∀ v ∈ GH p, own v < ins.length)
    {ranks : List Nat} {meth : SplitMethod} {s : SplitInput} (hs : SplitOk n ins.length ranks meth co.isSome s)
    {pm : Partitioner} (hpm : PartitionerOk pm) :
    0 < n ∧ ∃ dest : Gid → Nat, (∀ v ∈ allVerts ins, dest v < n) ∧
      (∀ p, p < ins.length → ∀ u (hu : u < (vertsAt ins p).length),
        Chosen n ((List.range ins.length).map gr) meth s pm p u (dest (vertsAt ins p)[u])) ∧
      ∃ (gr' : Nat → Graph) (V' : Nat → List Gid),
        split n ranks ((List.range ins.length).map gr) meth s pm = .ok ((List.range n).map gr') ∧
        ∀ r, r < n → TState (startD ins own co) ((allArcs ins).filter (fun x => decide (¬ Lost (rankOf ranks own) dest x)))
          dest n r (gr' r) (V' r) := by
  have hl := hs.count
  have hn : 0 < n := by
    have := hs.ranks_lt _ (List.getElem_mem (show 0 < ranks.length by omega))
    omega
  refine ⟨hn, ?_⟩
  obtain ⟨ew, hpw⟩ := pmWorld_arcs (t := 0) (tradStart_dist h) hw (by omega)
  obtain ⟨ans, pl, e1, hpl⟩ := splitPlans_gen h.dist hpw hs rfl
    (fun _ v w => sym_arc h hsym v w) hpm hn (V := vertsAt ins) (fun p hp => vertsAt_eq hp)
  let dest : Gid → Nat := fun v => ((ans (own v))[(vertsAt ins (own v)).idxOf v]?.getD 0).toNat
  have hdest : ∀ v ∈ allVerts ins, ∃ h : (vertsAt ins (own v)).idxOf v < (ans (own v)).length,
      (dest v : Int) = (ans (own v))[(vertsAt ins (own v)).idxOf v] ∧ dest v < n := by
    intro v hv
    have hp := h.placed.lt v hv
    have hmem := ((hst _ hp).1.loc.mem v).mpr ⟨hv, rfl⟩
    have hlt := List.idxOf_lt_length_of_mem hmem
    obtain ⟨h1, h2, -⟩ := hpl _ hp
    have hlt' : (vertsAt ins (own v)).idxOf v < (ans (own v)).length := by omega
    have hb := h2 _ (List.getElem_mem hlt')
    have hde : dest v = ((ans (own v))[(vertsAt ins (own v)).idxOf v]).toNat := by
      show ((ans (own v))[(vertsAt ins (own v)).idxOf v]?.getD 0).toNat = _
      rw [List.getElem?_eq_getElem hlt', Option.getD_some]
    refine ⟨hlt', ?_, ?_⟩
    · rw [hde]; omega
    · rw [hde]; omega
  refine ⟨dest, fun v hv => (hdest v hv).2.2, ?_, ?_⟩
  · intro p hp u hu
    have hv := ((hst p hp).1.loc.mem _).mp (List.getElem_mem hu)
    obtain ⟨h1, h2, -⟩ := hdest _ hv.1
    apply (hpl p hp).2.2.2
    have hix : (vertsAt ins p).idxOf (vertsAt ins p)[u] = u := (hst p hp).1.loc.nodup.idxOf_getElem u hu
    have hu2 : u < (ans p).length := by rw [(hpl p hp).1]; exact hu
    rw [List.getElem?_eq_getElem hu2]
    congr 1
    rw [h2]
    simp only [hv.2, hix]
  · obtain ⟨gr', V', e, h'⟩ := apply_trad (n := n) h h0 hsym hst hl hs.distinct hs.ranks_lt hs.env
      (fun v hv => (hdest v hv).2.2) (pl := pl) (by
        intro p hp
        obtain ⟨-, -, ⟨f, hf1, hf2⟩, -⟩ := hpl p hp
        refine ⟨_, f, hf1, fun v hv => ?_⟩
        have hv' := ((hst p hp).1.loc.mem v).mp hv
        obtain ⟨h2, h3, -⟩ := hdest v hv'.1
        have hlt := List.idxOf_lt_length_of_mem hv
        have := hf2 _ hlt
        rw [List.getElem_idxOf hlt] at this
        rw [this, h3]
        simp only [hv'.2] at h2 ⊢
        rw [List.getElem?_eq_getElem h2, Option.getD_some])
    refine ⟨gr', V', ?_, h'⟩
    unfold split
    rw [e1, Outcome.bind_ok]
    exact e

theorem shows_trad {D : VD} {T : List (List Gid)} {place : Gid → Nat} {V : Nat → List Gid} (hT : ArcsIn D.verts T)
    (hlt : ∀ v ∈ D.verts, place v < n) (hd : ∀ p, p < n → TState D T place n p (gr p) (V p)) :
    ShowsT D.verts T D.wt D.oo D.co n place ((List.range n).map gr) := by
  refine ⟨by simp, hlt, fun r hr => ?_⟩
  have hr' : r < n := by simpa using hr
  have h := hd r hr'
  simp only [List.getElem_map, List.getElem_range]
  refine ⟨h.loc.total, ⟨_, h.loc.gids, h.loc.nodup, h.loc.mem⟩, ?_, ?_⟩
  · obtain ⟨ghosts, ids, es, wgts, hp3, hor⟩ := h.arcs
    have hon := arcsOn_arcs h.loc hT hp3.perm
    refine ⟨_, arcViews_eq hp3.rep hon hor (fun v hv => ?_), ((Io.grouped_perm h.loc.nodup hon).trans hp3.perm).map _⟩
    rw [h.loc.rank, ((h.loc.mem v).mp hv).2]
  · intro v hv ho
    have hv' := (h.loc.mem v).mpr ⟨hv, ho⟩
    refine ⟨?_, ?_, ?_⟩
    · unfold Graph.weightG
      rw [h.loc.findGID hv', Outcome.bind_ok]; exact h.loc.weight hv'
    · unfold Graph.origG
      rw [h.loc.findGID hv', Outcome.bind_ok]; exact h.loc.originalOwner hv'
    · intro c hc
      unfold Graph.coordG
      rw [h.loc.findGID hv', Outcome.bind_ok]; exact h.loc.coord hc hv'

theorem survivors_in {V : List Gid} : ∀ (rs : List Round) (own : Gid → Nat) (T : List (List Gid)), ArcsIn V T →
    ArcsIn V (survivors own rs T) := by
  intro rs
  induction rs with
  | nil => intro own T hT; exact hT
  | cons r rs ih => intro own T hT; exact ih _ _ (fun x hx => hT x (List.mem_filter.mp hx).1)

theorem rounds_lt {V : List Gid} {b : Bool} : ∀ (rs : List Round) {own : Gid → Nat}, (∀ v ∈ V, own v < n) →
    RoundsOk V n b own rs → ∀ v ∈ V, placeAll own rs v < n := by
  intro rs
  induction rs with
  | nil => intro own h _; exact h
  | cons r rs ih => intro own h hr; exact ih (place_lt h hr.1) hr.2

end

/-! ## the properties -/

section
variable {ins : List Input} {own : Gid → Nat} {owns : List (GMap Part)} {o1 o2 : Nat → List Nat}
variable {n : Nat} {ranks : List Nat} {meth : SplitMethod} {s : SplitInput}

/-- **C54, traditional graphs** (directly after the construction; every edge has its opposite; one edge type).  `split`, by either ParMETIS method and for whatever the partitioner answers, succeeds
on all `n` ranks of the large communicator, and every vertex is then on exactly the rank chosen for it, with its weight,
coordinates and original owner.  The edges are those of the start except those that the migration loses: the ones between
two vertices of one part of which the source stays on its rank and the destination leaves.  All this stays so in further
migrations over the large communicator, as long as `ToldAll` holds.  (Missing: without the opposites the migration can be
undefined behaviour; an edge that is lost is one the English property promises, see `c54_trad_loses`; the global edge
counts.) -/
theorem c54_trad_partial (h : TradStart ins own) (h0 : ins ≠ []) (ho : OwnMaps ins own owns) (h1 : Orders ins.length o1)
    (h2 : Orders ins.length o2) (co : Option (Gid → Coord)) (hsym : SymArcs (allArcs ins))
    (hs : SplitOk n ins.length ranks meth co.isSome s) (pm : Partitioner) (hpm : PartitionerOk pm) :
    ∃ gs gs' dest, setupAll ins co owns o1 o2 = .ok gs ∧ split n ranks gs meth s pm = .ok gs' ∧
      (∀ p (hp : p < gs.length), ∃ vs, gs[p].localGids = .ok vs ∧
        ∀ u (hu : u < vs.length), Chosen n gs meth s pm p u (dest vs[u])) ∧
      ∀ rs', RoundsOk (allVerts ins) n co.isSome dest rs' →
        ToldAll dest rs' ((allArcs ins).filter (fun x => decide (¬ Lost (rankOf ranks own) dest x))) →
        ∃ gs'', migrateRounds gs' rs' = .ok gs'' ∧
          ShowsT (allVerts ins)
            (survivors dest rs' ((allArcs ins).filter (fun x => decide (¬ Lost (rankOf ranks own) dest x))))
            (weightOf ins own) (fun v => (own v : Int)) co n (placeAll dest rs') gs'' := by
  obtain ⟨gr, GH, e0, hw, hst⟩ := setup_split (co := co) h ho h1 h2
  obtain ⟨hn, dest, hlt, hch, gr', V', e1, hd⟩ := split_trad h (List.length_pos_iff.mpr h0) hsym hw hst hs hpm
  refine ⟨_, _, dest, e0, e1, ?_, ?_⟩
  · intro p hp
    have hp' : p < ins.length := by simpa using hp
    simp only [List.getElem_map, List.getElem_range]
    exact ⟨_, (hst p hp').1.loc.gids, hch p hp'⟩
  · intro rs' hr' ht'
    have hT : ArcsIn (allVerts ins) ((allArcs ins).filter (fun x => decide (¬ Lost (rankOf ranks own) dest x))) :=
      fun x hx => h.arcsIn x (List.mem_filter.mp hx).1
    obtain ⟨gr2, V2, e2, hd2⟩ := rounds_trad_ok hn
      (show (startD ins own co).verts.Nodup from allVerts_nodup h.placed.nodup h.placed.verts) rs' hT hlt hd hr' ht'
    exact ⟨_, e2, shows_trad (survivors_in rs' dest _ hT) (rounds_lt rs' hlt hr') hd2⟩

end

/-! ## the hypotheses are met, and the limit -/

theorem symThree_owns : OwnMaps symThree symOwn symOwns := by
  refine ⟨rfl, ?_⟩
  intro p hp h' v _ _
  have h1 : p = 0 ∨ p = 1 := by simp [symThree] at hp; omega
  rcases h1 with rfl | rfl <;> rfl

/-- the path 1 - 2 - 3 over two parts, which are the ranks 0 and 2 of four -/
example : TradStart symThree symOwn ∧ symThree ≠ [] ∧ OwnMaps symThree symOwn symOwns ∧ Orders symThree.length twoOrder ∧
    Orders symThree.length flipOrder ∧ SymArcs (allArcs symThree) ∧
    SplitOk 4 symThree.length [0, 2] .globalParmetis false splitSample ∧
    SplitOk 4 symThree.length [0, 2] .localParmetis false splitSample ∧ PartitionerOk dealer :=
  ⟨symThree_start, by decide, symThree_owns, orders_two.1, orders_two.2, by decide, splitSample_ok _ _, splitSample_ok _ _, dealer_ok⟩

/-- vertex 1 stays, 2 goes to rank 1: what every rank has after the split -/
def stayer : Partitioner := fun As _ p =>
  match As[p]? with
  | none => []
  | some A => (List.range A.vwgts.length).map (fun u => Int.ofNat ((2 * p + u) % 4))

def splitArcs (pm : Partitioner) : Outcome (List (List Gid × List (List (Gid × Part)))) := do
  let gs ← setupAll symThree none symOwns twoOrder flipOrder
  let gs ← split 4 [0, 2] gs .globalParmetis splitSample pm
  gs.mapM (fun g => do
    let vs ← g.localGids
    let es ← g.arcViews 0
    return (vs, es))

/-- both 1 and 2 leave: all four edges are there, with the right owners -/
example : splitArcs dealer = .ok [([], []), ([1], [[(1, 1), (2, 2)]]), ([3, 2], [[(3, 2), (2, 2)], [(2, 2), (3, 2)], [(2, 2), (1, 1)]]), ([], [])] := by
  decide +kernel

/-- **C54 fails for traditional graphs**: 1 stays on rank 0 while 2 goes to rank 1, and the edge 1→2 is gone -/
theorem c54_trad_loses : SymArcs (allArcs symThree) ∧
    splitArcs stayer = .ok [([1], []), ([2], [[(2, 1), (3, 2)], [(2, 1), (1, 0)]]), ([3], [[(3, 2), (2, 1)]]), ([], [])] := by
  decide +kernel

end Verif.Part
