import Verif.Part.SplitZoltanLemmas
/-!
# Properties C51, C54: splitting with Zoltan
-/
namespace Verif.Part
open Verif.Agi

/-! ## proof -/

section
variable {n m : Nat} {ranks : List Nat} {gr : Nat → Graph} {zid : Gid → Int}

theorem switch_core {g : Graph} {hyper : Bool} {verts ghosts : List Gid} {types : List EdgeInput}
    (h : CRep g hyper verts ghosts types) (r : Part) (n : Nat) : CRep (Graph.switchComm g r n) hyper verts ghosts types :=
  ⟨⟨h.v.nl, h.v.ng, h.v.nodup, h.v.map, h.v.loc, h.v.gho⟩, h.hyp, h.numTypes, h.typ, h.pins, h.wf⟩

theorem verts_switch {g : Graph} {p m : Nat} {i : Input} {own : Gid → Nat} {gh : List Gid} (h : PartRep g p m i own gh)
    (r : Part) (n : Nat) : zVertices (Graph.switchComm g r n) zid =
      .ok ⟨(List.range i.verts.length).map (fun k : Nat => (k : Int)), i.verts.map zid, vertWeights i.verts i.wgts⟩ := by
  have hwl := vertWeights_length i.verts i.wgts
  have hc := switch_core h.core r n
  exact zVertices_eq hc hwl (fun k hk => weight_local hc.v h.weights hk (by omega))

theorem data_hyper {g : Graph} {p m : Nat} {i : Input} {own : Gid → Nat} {gh : List Gid} (h : PartRep g p m i own gh)
    (hh : i.hyper = true) {e : EdgeInput} (he : i.types = [e]) (r : Part) (n : Nat) :
    ((i.verts ≠ [] ∧ ∀ x ∈ e.pins.flatten, x ∈ i.verts) →
      ∃ d, zoltanData true zid (Graph.switchComm g r n) = .ok d ∧ d.count = i.verts.length) ∧
    (¬ (i.verts ≠ [] ∧ ∀ x ∈ e.pins.flatten, x ∈ i.verts) → zoltanData true zid (Graph.switchComm g r n) = .ub) := by
  have hc := switch_core h.core r n
  rw [hh, he] at hc
  have hz := zHyper_eq (zid := zid) hc (by simp)
  have hw := zEdgeWeights_eq (zid := zid) hc (by simp)
  simp only [List.getElem_cons_zero] at hz hw
  unfold zoltanData
  rw [verts_switch h, Outcome.bind_ok, if_pos rfl]
  constructor
  · intro hcond
    rw [hz, if_pos hcond, Outcome.bind_ok, hw, Outcome.bind_ok]
    exact ⟨_, rfl, by simp [ZData.count]⟩
  · intro hcond
    rw [hz, if_neg hcond]; rfl

theorem empty_vertices (r : Part) (n : Nat) : zVertices (emptyGraph r n) zid = .ok ⟨[], [], []⟩ := rfl

theorem data_empty_hyper (r : Part) (n : Nat) : zoltanData true zid (emptyGraph r n) = .ub := rfl

theorem data_empty (r : Part) (n : Nat) : zoltanData false zid (emptyGraph r n) = .ok (.graph ⟨[], [], []⟩ []) := rfl

theorem RanksOk.all (h : RanksOk n n ranks) {r : Nat} (hr : r < n) : r ∈ ranks := by
  have h1 : ranks ⊆ List.range n := fun x hx => List.mem_range.mpr (h.ranks_lt x hx)
  have h2 := (List.subperm_of_subset h.distinct h1).perm_of_length_le (by simp [h.count])
  exact h2.mem_iff.mpr (List.mem_range.mpr hr)

theorem RanksOk.other (h : RanksOk n m ranks) (hne : n ≠ m) : ∃ r, r < n ∧ r ∉ ranks := by
  have hle := ranks_le h.count h.distinct h.ranks_lt
  by_contra hc
  push Not at hc
  have h1 : List.range n ⊆ ranks := fun x hx => hc x (List.mem_range.mp hx)
  have h2 := (List.subperm_of_subset List.nodup_range h1).length_le
  have := h.count
  simp at h2
  omega

theorem any_hyper (h : RanksOk n m ranks) {p : Nat} (hp : p < m) (hh : (gr p).isHyper = true) :
    anyHyper ((List.range n).map (rankGraph n ranks gr)) = true := by
  unfold anyHyper
  rw [List.any_eq_true]
  obtain ⟨-, h2, -⟩ := h.rank hp
  refine ⟨_, List.mem_map.mpr ⟨_, List.mem_range.mpr h2, rfl⟩, ?_⟩
  rw [rankGraph_part h hp]
  exact hh

theorem no_hyper (h : RanksOk n m ranks) (hh : ∀ p, p < m → (gr p).isHyper = false) :
    anyHyper ((List.range n).map (rankGraph n ranks gr)) = false := by
  unfold anyHyper
  rw [List.any_eq_false]
  intro g hg
  obtain ⟨r, -, rfl⟩ := List.mem_map.mp hg
  unfold rankGraph
  by_cases hm : r ∈ ranks
  · rw [if_pos hm]
    have := hh _ (h.idx hm).1
    show ¬ (gr (ranks.idxOf r)).isHyper = true
    rw [this]; simp
  · rw [if_neg hm]; simp [emptyGraph]

end

/-! ## the properties -/

section
variable {es : List HEdge} {ins : List Input} {own : Gid → Nat} {owns : List (GMap Part)} {o1 o2 : Nat → List Nat}
variable {n : Nat} {ranks : List Nat} {env : MigrateEnv} {zid : Gid → Int} {z : ZoltanLib}

/-- **C54 with Zoltan, hypergraphs, exactly** (after any history of migrations; one edge type).  If no rank is added, every
part has a vertex and no hyperedge has pins on two parts, then `split` with Zoltan, for whatever Zoltan answers, succeeds,
every vertex is then on exactly the rank chosen for it, and through any further migrations all data are those of the
start.  In every other case - so whenever there really are more ranks than parts - it is undefined behaviour: a rank
without vertices writes `offsets[0]` of an empty array (`c51_no_vertices`), and a part with remote pins reports more pins
than it lists (`c51_remote_pin`). -/
theorem c54_zoltan_hyper_exact (h : Start es ins own owns o1 o2) (co : Option (Gid → Coord)) (rs : List Round)
    (hr : RoundsOk (allVerts ins) ins.length co.isSome own rs) (hs : RanksOk n ins.length ranks)
    (henv : EnvOk n co.isSome env) (hz : ZoltanOk z) :
    ∃ gs0 gs, setupAll ins co owns o1 o2 = .ok gs0 ∧ migrateRounds gs0 rs = .ok gs ∧
      ((n = ins.length ∧ (∀ p, p < ins.length → ∃ v ∈ allVerts ins, placeAll own rs v = p) ∧
          (∀ E ∈ es, ∀ v ∈ E.pins, ∀ w ∈ E.pins, placeAll own rs v = placeAll own rs w)) →
        ∃ gs' dest, splitZoltan n ranks gs zid z env = .ok gs' ∧
          (∀ p (hp : p < gs.length), ∃ vs, gs[p].localGids = .ok vs ∧
            ∀ u (hu : u < vs.length), ChosenZ n ranks gs zid z (ranks.getD p 0) u (dest vs[u])) ∧
          ∀ rs', RoundsOk (allVerts ins) n co.isSome dest rs' →
            ∃ gs'', migrateRounds gs' rs' = .ok gs'' ∧
              ShowsG (allVerts ins) es (weightOf ins own) (fun v => (own v : Int)) co n (placeAll dest rs') gs'') ∧
      (¬ (n = ins.length ∧ (∀ p, p < ins.length → ∃ v ∈ allVerts ins, placeAll own rs v = p) ∧
          (∀ E ∈ es, ∀ v ∈ E.pins, ∀ w ∈ E.pins, placeAll own rs v = placeAll own rs w)) →
        splitZoltan n ranks gs zid z env = .ub) := by
  obtain ⟨hG, gs0, gs, e0, e, gr, I, GH, rfl, hd⟩ := run_spec h co rs hr
  obtain ⟨v0, hv0⟩ := List.exists_mem_of_ne_nil _ hG.some_vertex
  have hm0 := hG.own v0 hv0
  have hle := ranks_le hs.count hs.distinct hs.ranks_lt
  have hn : 0 < n := by omega
  have hset : ∀ p, p < ins.length → (gr p).setOriginalOwners = gr p := by
    intro p hp
    have := (hd p hp).origSet
    unfold Graph.setOriginalOwners
    cases hh : (gr p).originalOwners with
    | none => rw [hh] at this; simp at this
    | some a => rfl
  have hshape : ∀ p, p < ins.length → ∃ e, (I p).types = [e] ∧ e.edges.Perm ((startG es ins own co).on (placeAll own rs) p) := by
    intro p hp
    rcases (hd p hp).inv.shape with ⟨-, e, h1, h2⟩ | ⟨-, h1, -⟩
    · exact ⟨e, h1, h2⟩
    · have := (hd p hp).one
      rw [h1] at this; simp at this
  have hany : anyHyper ((List.range n).map (rankGraph n ranks gr)) = true :=
    any_hyper hs hm0 (by rw [(hd _ hm0).inv.rep.core.hyp]; exact (hd _ hm0).hyper)
  have hloc : ∀ p (hp : p < ins.length) e, (I p).types = [e] → e.edges.Perm ((startG es ins own co).on (placeAll own rs) p) →
      ((∀ x ∈ e.pins.flatten, x ∈ (I p).verts) ↔ ∀ E ∈ es, ∀ v ∈ E.pins, placeAll own rs v = p → ∀ w ∈ E.pins, placeAll own rs w = p) := by
    intro p hp e he hperm
    have hwf := (hd p hp).inv.rep.core.wf e (by rw [he]; simp)
    rw [(hd p hp).hyper] at hwf
    have hpins := edges_pins hwf
    constructor
    · intro h1 E hE v hv hvp w hw
      have hon : E ∈ (startG es ins own co).on (placeAll own rs) p := GG.mem_on.mpr ⟨hE, v, hv, hvp⟩
      have : E.pins ∈ e.pins := by
        rw [← hpins]
        exact List.mem_map.mpr ⟨E, hperm.mem_iff.mpr hon, rfl⟩
      exact (((hd p hp).inv.verts w).mp (h1 w (List.mem_flatten.mpr ⟨_, this, hw⟩))).2
    · intro h1 x hx
      obtain ⟨l, hl, hxl⟩ := List.mem_flatten.mp hx
      rw [← hpins] at hl
      obtain ⟨E, hE, rfl⟩ := List.mem_map.mp hl
      obtain ⟨hE1, v, hv, hvp⟩ := GG.mem_on.mp (hperm.mem_iff.mp hE)
      exact ((hd p hp).inv.verts x).mpr ⟨hG.pins E hE1 x hxl, h1 E hE1 v hv hvp x hxl⟩
  have hne : ∀ p, p < ins.length → ((I p).verts ≠ [] ↔ ∃ v ∈ allVerts ins, placeAll own rs v = p) := by
    intro p hp
    constructor
    · intro h1
      obtain ⟨v, hv⟩ := List.exists_mem_of_ne_nil _ h1
      obtain ⟨a, b⟩ := ((hd p hp).inv.verts v).mp hv
      exact ⟨v, a, b⟩
    · rintro ⟨v, a, b⟩ hc
      have := ((hd p hp).inv.verts v).mpr ⟨a, b⟩
      rw [hc] at this; simp at this
  refine ⟨gs0, _, e0, e, ?_, ?_⟩
  · rintro ⟨hnm, hv, hE⟩
    have hdata : ∀ r, r < n → ∃ d, zoltanData (anyHyper ((List.range n).map (rankGraph n ranks gr))) zid
        (rankGraph n ranks gr r) = .ok d ∧ d.count = (rankGraph n ranks gr r).numLocal := by
      intro r hr
      have hs' : RanksOk n n ranks := by rw [← hnm] at hs; exact hs
      obtain ⟨hi, -⟩ := hs.idx (hs'.all hr)
      have hg : rankGraph n ranks gr r = Graph.switchComm (gr (ranks.idxOf r)) (r : Int) n := if_pos (hs'.all hr)
      rw [hany, hg]
      obtain ⟨e1, h1, h2⟩ := hshape _ hi
      obtain ⟨d, h3, h4⟩ := (data_hyper (zid := zid) (hd _ hi).inv.rep (hd _ hi).hyper h1 (r : Int) n).1 ⟨(hne _ hi).mpr (hv _ hi),
        (hloc _ hi e1 h1 h2).mpr (fun E hE' v hv hvp w hw => by rw [← hE E hE' v hv w hw]; exact hvp)⟩
      exact ⟨d, h3, h4.trans (hd _ hi).inv.rep.core.v.nl.symm⟩
    haveI : Inhabited ZData := ⟨.graph ⟨[], [], []⟩ []⟩
    obtain ⟨D, hD⟩ := choose_part hdata
    obtain ⟨pl, f, e1, hf⟩ := zoltan_plans hs hn (V := fun p => (I p).verts) (fun p hp => (hd p hp).inv.rep.core.v.nl)
      (fun p hp => (hd p hp).nodup) hz (fun r hr => (hD r hr).1) (fun r hr => (hD r hr).2) env
    let dest : Gid → Nat := fun v => ((f (placeAll own rs v) v).getD ((ranks.getD (placeAll own rs v) 0 : Nat) : Int)).toNat
    have hdest : ∀ p, p < ins.length → ∀ u (hu : u < (I p).verts.length),
        (dest (I p).verts[u] : Int) = (f p (I p).verts[u]).getD ((ranks.getD p 0 : Nat) : Int) := by
      intro p hp u hu
      have hown := (((hd p hp).inv.verts _).mp (List.getElem_mem hu)).2
      have := (hf p hp).2 u hu
      show ((((f (placeAll own rs (I p).verts[u]) (I p).verts[u]).getD _).toNat : Nat) : Int) = _
      rw [hown]
      exact Int.toNat_of_nonneg this.1
    have hlt : ∀ v ∈ allVerts ins, dest v < n := by
      intro v hv
      have hp := hG.own v hv
      have hmem := ((hd _ hp).inv.verts v).mpr ⟨hv, rfl⟩
      have hlt := List.idxOf_lt_length_of_mem hmem
      have h1 := hdest _ hp _ hlt
      have h2 := ((hf _ hp).2 _ hlt).2.1
      rw [List.getElem_idxOf hlt] at h1 h2
      omega
    obtain ⟨gr', I', GH', e2, hd'⟩ := apply_spec (n := n) hG (fun p hp => by rw [hset p hp]; exact hd p hp) true
      (fun p hp => (hd p hp).origSet) hs.count hs.distinct hs.ranks_lt henv (dest := dest) hlt (pl := pl) (by
        intro p hp
        obtain ⟨⟨s, hrep⟩, -⟩ := hf p hp
        refine ⟨s, f p, hrep, fun v hv => ?_⟩
        have hlt := List.idxOf_lt_length_of_mem hv
        have := hdest p hp _ hlt
        rwa [List.getElem_idxOf hlt] at this)
    refine ⟨_, dest, e1.trans e2, ?_, ?_⟩
    · intro p hp
      have hp' : p < ins.length := by simpa using hp
      simp only [List.getElem_map, List.getElem_range]
      exact ⟨_, (hd p hp').gids, fun u hu => ((hf p hp').2 u hu).2.2 _ (hdest p hp' u hu)⟩
    · intro rs' hr'
      have hG' := withOO_wf hG (splitOO (startG es ins own co) ranks (placeAll own rs) true)
      obtain ⟨hG'', gr'', I'', GH'', e3, hd''⟩ := migrateRounds_spec rs'
        ⟨hG'.some_vertex, hG'.nodup, hG'.ids, hG'.ne, hG'.pins, hlt⟩ hd' hr'
      exact ⟨_, e3, shows_done hG'' hd''⟩
  · intro hcond
    have hpart : ∀ p, p < ins.length → (zoltanData true zid (rankGraph n ranks gr (ranks.getD p 0)) ≠ .fail) ∧
        (¬ ((∃ v ∈ allVerts ins, placeAll own rs v = p) ∧
          ∀ E ∈ es, ∀ v ∈ E.pins, placeAll own rs v = p → ∀ w ∈ E.pins, placeAll own rs w = p) →
          zoltanData true zid (rankGraph n ranks gr (ranks.getD p 0)) = .ub) := by
      intro p hp
      obtain ⟨e1, h1, h2⟩ := hshape _ hp
      obtain ⟨a, b⟩ := data_hyper (zid := zid) (hd _ hp).inv.rep (hd _ hp).hyper h1 ((ranks.getD p 0 : Nat) : Int) n
      rw [rankGraph_part hs hp, ← hne p hp, ← hloc p hp e1 h1 h2]
      refine ⟨?_, b⟩
      by_cases hc : (I p).verts ≠ [] ∧ ∀ x ∈ e1.pins.flatten, x ∈ (I p).verts
      · obtain ⟨d, hd, -⟩ := a hc
        rw [hd]; simp
      · rw [b hc]; simp
    have hnf : ∀ r, r < n → zoltanData true zid (rankGraph n ranks gr r) ≠ .fail := by
      intro r hr
      by_cases hm : r ∈ ranks
      · obtain ⟨hi, hge⟩ := hs.idx hm
        have := (hpart _ hi).1
        rwa [hge] at this
      · rw [show rankGraph n ranks gr r = _ from if_neg hm, data_empty_hyper]; simp
    have hub : ∃ r, r < n ∧ zoltanData true zid (rankGraph n ranks gr r) = .ub := by
      by_cases hnm : n = ins.length
      · by_cases hv : ∀ p, p < ins.length → ∃ v ∈ allVerts ins, placeAll own rs v = p
        · have hE : ¬ ∀ E ∈ es, ∀ v ∈ E.pins, ∀ w ∈ E.pins, placeAll own rs v = placeAll own rs w := fun hE => hcond ⟨hnm, hv, hE⟩
          push Not at hE
          obtain ⟨E, hE, v, hv, w, hw, hvw⟩ := hE
          have hp := hG.own v (hG.pins E hE v hv)
          exact ⟨_, (hs.rank hp).2.1, (hpart _ hp).2 (fun hc => hvw (hc.2 E hE v hv rfl w hw).symm)⟩
        · push Not at hv
          obtain ⟨p, hp, hv⟩ := hv
          refine ⟨_, (hs.rank hp).2.1, (hpart _ hp).2 ?_⟩
          rintro ⟨⟨v, h1, h2⟩, -⟩
          exact hv v h1 h2
      · obtain ⟨r, hr, hm⟩ := hs.other hnm
        exact ⟨r, hr, by rw [show rankGraph n ranks gr r = _ from if_neg hm, data_empty_hyper]⟩
    obtain ⟨r, hr, hub⟩ := hub
    unfold splitZoltan zoltanAll
    rw [onRank_all hs, Outcome.bind_ok, hany, mapM_ub (List.mem_map.mpr ⟨r, List.mem_range.mpr hr, rfl⟩) hub (by
      intro g hg
      obtain ⟨r', hr', rfl⟩ := List.mem_map.mp hg
      exact hnf r' (List.mem_range.mp hr'))]
    rfl

end

end Verif.Part
