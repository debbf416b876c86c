import Verif.Part.SplitZoltanProps
import Verif.Part.SplitWitness
/-!
# Properties C51, C54: splitting traditional graphs with Zoltan
-/
namespace Verif.Part
open Verif.Agi

/-! ## proof -/

section
variable {g : Graph} {verts ghosts : List Gid} {types : List EdgeInput} {zid : Gid → Int}

/-- the neighbour callback, whatever the order of the edges: the destinations and their owners are right (the weights may
be those of other edges, C08) -/
theorem zEdges_any (h : CRep g false verts ghosts types) (ht : 0 < types.length) {own : Gid → Nat}
    (hown : ∀ v ∈ verts ++ ghosts, g.owner (getVertex ((verts ++ ghosts).idxOf v)) = .ok (own v : Int))
    (hs : ∀ x ∈ types[0].pins, ∃ u ∈ verts, ∃ w, u ≠ w ∧ x = [u, w]) {u : Nat} (hu : u < verts.length) :
    ∃ ws : List Wgt, zEdges g zid u = .ok ((outEdges own types[0] verts[u]).zipWith (fun x w => (zid x.1, x.2.1, w)) ws) ∧
      ws.length = (outEdges own types[0] verts[u]).length := by
  have hwf := h.wf _ (List.getElem_mem ht)
  have hnd := (List.nodup_append.mp h.v.nodup).1
  set o := offs (fun u => degOf false types[0].pins (verts.getD u 0)) u with ho
  set d := degOf false types[0].pins verts[u] with hd
  set es := types[0].edges.filter (fun E => E.pins[0]? == some verts[u]) with hes
  have hel : types[0].edges.length = types[0].pins.length := edges_length hwf
  have hpl := edges_pins hwf
  have hd' : d = es.length := by
    rw [hd, Io.degOf_filter, hes, ← List.countP_eq_length_filter, ← List.countP_eq_length_filter, ← hpl, List.countP_map]
    rfl
  have hod : o + d ≤ types[0].pins.length := by
    have h1 := (Io.grouped_perm hnd hs).length_eq
    rw [Io.grouped_length] at h1
    have h2 := offs_mono (fun u => degOf false types[0].pins (verts.getD u 0)) (show u + 1 ≤ verts.length by omega)
    rw [offs_succ] at h2
    have h3 : verts.getD u 0 = verts[u] := getD_at hu
    simp only [h3] at h2
    omega
  set ws := (types[0].weights.drop o).take d with hws
  have hwl : ws.length = d := by
    rw [hws, List.length_take, List.length_drop, weights_length hwf]; omega
  refine ⟨ws, ?_, by rw [hwl, hd']; simp [outEdges, hes]⟩
  unfold zEdges
  simp only
  rw [degreeV_eq h ht hu, Outcome.bind_ok]
  obtain ⟨it, e1, hy⟩ := yields_edges_trad h ht hu
  rw [e1, Outcome.bind_ok, ← hd, Int.toNat_natCast]
  obtain ⟨e, he, hr, -⟩ := h.typ 0 ht
  have hbd := bound_ge he
  have hne := hr.numE
  have hal := adjOf_length false (verts ++ ghosts) types[0].pins verts[u]
  rw [← hd] at hal
  have hadj : adjOf false (verts ++ ghosts) types[0].pins verts[u] =
      es.map (fun E => (verts ++ ghosts).idxOf (E.pins.getD 1 0)) := by
    unfold adjOf
    simp only [Bool.false_eq_true, if_false]
    rw [← hpl, List.filter_map, List.map_map, hes]
    rfl
  have hmemk : ∀ E ∈ es, E.pins.getD 1 0 ∈ verts ++ ghosts := by
    intro E hE
    have h1 : E.pins ∈ types[0].pins := by
      rw [← hpl]
      exact List.mem_map.mpr ⟨E, (List.mem_filter.mp hE).1, rfl⟩
    apply h.pins 0 ht
    rw [List.mem_flatten]
    refine ⟨_, h1, ?_⟩
    have h2 := hwf.two rfl _ h1
    rw [List.getD_eq_getElem?_getD, List.getElem?_eq_getElem (by omega), Option.getD_some]
    exact List.getElem_mem _
  have hin := iterLoop_states (body := zNbr g zid) (fuel := g.bound) hy (by simp only [List.length_map, List.length_range']; omega)
    (fun j => ⟨filled (es.map (fun E => zid (E.pins.getD 1 0))) d j, filled (es.map (fun E => (own (E.pins.getD 1 0) : Int))) d j,
      filled ws d j, j⟩) (by
      intro j hj
      have hj' : j < d := by simpa using hj
      have hje : j < es.length := by omega
      have hoj : o + j < types[0].pins.length := by omega
      have hwj : ws[j]'(by omega) = types[0].weights[o + j]'(by rw [weights_length hwf]; exact hoj) := by
        simp [hws]
      simp only [List.getElem_map, List.getElem_range', Nat.one_mul]
      unfold zNbr
      have hv := vOf_eq h ht hu (k := j) (by omega)
      rw [← ho] at hv ⊢
      have hdj : (adjOf false (verts ++ ghosts) types[0].pins verts[u])[j]'(by omega) =
          (verts ++ ghosts).idxOf (es[j].pins.getD 1 0) := by
        have : (adjOf false (verts ++ ghosts) types[0].pins verts[u])[j]? =
            some ((verts ++ ghosts).idxOf (es[j].pins.getD 1 0)) := by
          rw [hadj, List.getElem?_map, List.getElem?_eq_getElem hje]; rfl
        rw [List.getElem?_eq_getElem (by omega)] at this
        exact Option.some.inj this
      have hk := hmemk es[j] (List.getElem_mem hje)
      rw [hv, Outcome.bind_ok, hdj, globalID_eq h.v hk, Outcome.bind_ok]
      simp only
      rw [filled_store (by simpa using hje) hj' (by simp), Outcome.bind_ok, hown _ hk, Outcome.bind_ok,
        filled_store (by simpa using hje) hj' (by simp), Outcome.bind_ok,
        weightE_eq h ht (by rw [weights_length hwf]; exact hoj), Outcome.bind_ok,
        filled_store (by omega) hj' hwj]
      rfl)
  simp only [filled_zero, List.length_map, List.length_range'] at hin
  rw [hin, Outcome.bind_ok]
  simp only
  rw [readArr_filled (by simp [hd']), Outcome.bind_ok, readArr_filled (by simp [hd']), Outcome.bind_ok,
    readArr_filled hwl]
  unfold outEdges
  rw [Outcome.bind_ok]
  simp only [Outcome.pure_eq]
  congr 1
  apply List.ext_getElem
  · simp [hwl, hd', hes]
  · intro k h1 h2
    simp [hes]

end

section
variable {n m : Nat} {ranks : List Nat} {gr : Nat → Graph} {zid : Gid → Int}

/-- the owner of a vertex as a part sees it that has switched to the large communicator but not yet renumbered the owners -/
def mixedOwner (ranks : List Nat) (own : Gid → Nat) (p : Nat) (v : Gid) : Nat := if own v = p then ranks.getD p 0 else own v

theorem switch_owner {g : Graph} {p m n r : Nat} {i : Input} {own : Gid → Nat} {gh : List Gid} (h : PartRep g p m i own gh)
    (hr : ranks.getD p 0 = r) (hl : ∀ v, v ∈ i.verts → own v = p) (hg : ∀ v ∈ gh, own v ≠ p) : ∀ v ∈ i.verts ++ gh,
      (Graph.switchComm g (r : Int) n).owner (getVertex ((i.verts ++ gh).idxOf v)) = .ok (mixedOwner ranks own p v : Int) := by
  intro v hv
  have ho : ORep (Graph.switchComm g (r : Int) n) gh (fun v => (own v : Int)) := h.owners
  rw [owner_eq (switch_core h.core (r : Int) n).v ho hv]
  unfold ownerOf mixedOwner
  by_cases hm : v ∈ i.verts
  · rw [if_pos hm, if_pos (hl v hm), hr]; rfl
  · have : v ∈ gh := by simpa [hm] using hv
    rw [if_neg hm, if_neg (hg v this)]

theorem data_trad {g : Graph} {p m n r : Nat} {i : Input} {own : Gid → Nat} {gh : List Gid} (h : PartRep g p m i own gh)
    (hr : ranks.getD p 0 = r) (hl : ∀ v, v ∈ i.verts → own v = p) (hg : ∀ v ∈ gh, own v ≠ p) (hh : i.hyper = false)
    {e : EdgeInput} (he : i.types = [e]) (hs : ∀ x ∈ e.pins, ∃ u ∈ i.verts, ∃ w, u ≠ w ∧ x = [u, w]) :
    ∃ d, zoltanData false zid (Graph.switchComm g (r : Int) n) = .ok d ∧ d.count = i.verts.length := by
  have hc := switch_core h.core (r : Int) n
  rw [hh, he] at hc
  have hz : ∀ u (hu : u < i.verts.length), ∃ l, zEdges (Graph.switchComm g (r : Int) n) zid u = .ok l := by
    intro u hu
    obtain ⟨ws, h1, -⟩ := zEdges_any (zid := zid) hc (by simp) (own := mixedOwner ranks own p) (switch_owner h hr hl hg) hs hu
    exact ⟨_, h1⟩
  obtain ⟨L, hL⟩ := choose_part hz
  unfold zoltanData
  rw [verts_switch h, Outcome.bind_ok, if_neg (by simp), show (Graph.switchComm g (r : Int) n).numLocal = i.verts.length from h.core.v.nl,
    mapM_ok (g := L) (fun u hu => hL u (List.mem_range.mp hu)), Outcome.bind_ok]
  exact ⟨_, rfl, by simp [ZData.count]⟩

end

/-! ## the properties -/

section
variable {ins : List Input} {own : Gid → Nat} {owns : List (GMap Part)} {o1 o2 : Nat → List Nat}
variable {n : Nat} {ranks : List Nat} {env : MigrateEnv} {zid : Gid → Int} {z : ZoltanLib}

/-- **C54 with Zoltan, traditional graphs** (directly after the construction; every edge has its opposite; one edge type;
any edge weights in any order).  `split` with Zoltan, for whatever Zoltan answers, succeeds on all `n` ranks of the large
communicator, and every vertex is then on exactly the rank Zoltan exports it to, or on the rank of its part, with its
weight, coordinates and original owner.  The edges are those of the start except those that the migration loses, and all
this stays so in further migrations as long as `ToldAll` holds.  (Missing: what is missing in `c54_trad_partial`.) -/
theorem c54_zoltan_trad_partial (h : TradStart ins own) (h0 : ins ≠ []) (ho : OwnMaps ins own owns) (h1 : Orders ins.length o1)
    (h2 : Orders ins.length o2) (co : Option (Gid → Coord)) (hsym : SymArcs (allArcs ins))
    (hs : RanksOk n ins.length ranks) (henv : EnvOk n co.isSome env) (hz : ZoltanOk z) :
    ∃ gs gs' dest, setupAll ins co owns o1 o2 = .ok gs ∧ splitZoltan n ranks gs zid z env = .ok gs' ∧
      (∀ p (hp : p < gs.length), ∃ vs, gs[p].localGids = .ok vs ∧
        ∀ u (hu : u < vs.length), ChosenZ n ranks gs zid z (ranks.getD p 0) u (dest vs[u])) ∧
      ∀ rs', RoundsOk (allVerts ins) n co.isSome dest rs' →
        ToldAll dest rs' ((allArcs ins).filter (fun x => decide (¬ Lost (rankOf ranks own) dest x))) →
        ∃ gs'', migrateRounds gs' rs' = .ok gs'' ∧
          ShowsT (allVerts ins)
            (survivors dest rs' ((allArcs ins).filter (fun x => decide (¬ Lost (rankOf ranks own) dest x))))
            (weightOf ins own) (fun v => (own v : Int)) co n (placeAll dest rs') gs'' := by
  obtain ⟨gr, GH, e0, hw, hst⟩ := setup_split (co := co) h ho h1 h2
  have hpos := List.length_pos_iff.mpr h0
  have hle := ranks_le hs.count hs.distinct hs.ranks_lt
  have hn : 0 < n := by omega
  have hrep : ∀ p (hp : p < ins.length), ∃ gh, PartRep (gr p) p ins.length ins[p] own gh := by
    intro p hp
    obtain ⟨gh, hr⟩ := hw.2 p (by simpa using hp) hp
    simp only [List.getElem_map, List.getElem_range, List.length_map, List.length_range] at hr
    exact ⟨gh, hr⟩
  have hnone : anyHyper ((List.range n).map (rankGraph n ranks gr)) = false := by
    apply no_hyper hs
    intro p hp
    obtain ⟨gh, hr⟩ := hrep p hp
    rw [hr.core.hyp]
    exact h.trad _ (List.getElem_mem hp)
  have hdata : ∀ r, r < n → ∃ d, zoltanData (anyHyper ((List.range n).map (rankGraph n ranks gr))) zid
      (rankGraph n ranks gr r) = .ok d ∧ d.count = (rankGraph n ranks gr r).numLocal := by
    intro r hr
    rw [hnone]
    by_cases hm : r ∈ ranks
    · obtain ⟨hi, hge⟩ := hs.idx hm
      rw [show rankGraph n ranks gr r = _ from if_pos hm]
      obtain ⟨gh, hrp⟩ := hrep _ hi
      have him := List.getElem_mem (l := ins) hi
      obtain ⟨e, he, -⟩ := h.one _ him
      have hl : ∀ v, v ∈ ins[ranks.idxOf r].verts → own v = ranks.idxOf r := h.dist.verts _ hi
      obtain ⟨d, a, b⟩ := data_trad (zid := zid) (n := n) hrp hge hl (by
        intro v hv hc
        obtain ⟨h3, h4⟩ := (hrp.mem_ghosts v).mp hv
        obtain ⟨h5, h6⟩ := h.dist.pins _ hi v h3
        apply h4
        simpa only [hc] using h6) (h.trad _ him) he (by
        intro x hx
        obtain ⟨u, hu, w, -, hne, rfl⟩ := h.arcs _ him e (by rw [he]; simp) x hx
        exact ⟨u, hu, w, hne, rfl⟩)
      exact ⟨d, a, b.trans hrp.core.v.nl.symm⟩
    · rw [show rankGraph n ranks gr r = _ from if_neg hm]
      exact ⟨_, data_empty _ _, rfl⟩
  haveI : Inhabited ZData := ⟨.graph ⟨[], [], []⟩ []⟩
  obtain ⟨D, hD⟩ := choose_part hdata
  obtain ⟨pl, f, e1, hf⟩ := zoltan_plans hs hn (V := vertsAt ins) (fun p hp => (hst p hp).2.1.nl)
    (fun p hp => (hst p hp).1.loc.nodup) hz (fun r hr => (hD r hr).1) (fun r hr => (hD r hr).2) env
  let dest : Gid → Nat := fun v => ((f (own v) v).getD ((ranks.getD (own v) 0 : Nat) : Int)).toNat
  have hdest : ∀ p, p < ins.length → ∀ u (hu : u < (vertsAt ins p).length),
      (dest (vertsAt ins p)[u] : Int) = (f p (vertsAt ins p)[u]).getD ((ranks.getD p 0 : Nat) : Int) := by
    intro p hp u hu
    have hown := (((hst p hp).1.loc.mem _).mp (List.getElem_mem hu)).2
    have := (hf p hp).2 u hu
    show ((((f (own (vertsAt ins p)[u]) (vertsAt ins p)[u]).getD _).toNat : Nat) : Int) = _
    rw [hown]
    exact Int.toNat_of_nonneg this.1
  have hlt : ∀ v ∈ allVerts ins, dest v < n := by
    intro v hv
    have hp := h.placed.lt v hv
    have hmem := ((hst _ hp).1.loc.mem v).mpr ⟨hv, rfl⟩
    have hlt := List.idxOf_lt_length_of_mem hmem
    have h1 := hdest _ hp _ hlt
    have h2 := ((hf _ hp).2 _ hlt).2.1
    rw [List.getElem_idxOf hlt] at h1 h2
    omega
  obtain ⟨gr', V', e2, hd⟩ := apply_trad (n := n) h hpos hsym hst hs.count hs.distinct hs.ranks_lt henv (dest := dest) hlt
    (pl := pl) (by
      intro p hp
      obtain ⟨⟨s, hrep⟩, -⟩ := hf p hp
      refine ⟨s, f p, hrep, fun v hv => ?_⟩
      have hlt := List.idxOf_lt_length_of_mem hv
      have := hdest p hp _ hlt
      rwa [List.getElem_idxOf hlt] at this)
  refine ⟨_, _, dest, e0, e1.trans e2, ?_, ?_⟩
  · intro p hp
    have hp' : p < ins.length := by simpa using hp
    simp only [List.getElem_map, List.getElem_range]
    exact ⟨_, (hst p hp').1.loc.gids, fun u hu => ((hf p hp').2 u hu).2.2 _ (hdest p hp' u hu)⟩
  · intro rs' hr' ht'
    have hT : ArcsIn (allVerts ins) ((allArcs ins).filter (fun x => decide (¬ Lost (rankOf ranks own) dest x))) :=
      fun x hx => h.arcsIn x (List.mem_filter.mp hx).1
    obtain ⟨gr2, V2, e3, hd2⟩ := rounds_trad_ok hn
      (show (startD ins own co).verts.Nodup from allVerts_nodup h.placed.nodup h.placed.verts) rs' hT hlt hd hr' ht'
    exact ⟨_, e3, shows_trad (survivors_in rs' dest _ hT) (rounds_lt rs' hlt hr') hd2⟩

/-- **C51 fails in a split.**  When `split` calls Zoltan, the part `p` has its new rank but the owners of its ghosts are
still numbered by the small communicator: for every vertex of the part, Zoltan is given the neighbours in order, each
neighbour on the part itself with the right rank `ranks[p]`, and each other neighbour `w` with `own w` where
`ranks[own w]` is the rank that has it. -/
theorem c51_split_owners (h : TradStart ins own) (ho : OwnMaps ins own owns) (h1 : Orders ins.length o1)
    (h2 : Orders ins.length o2) (co : Option (Gid → Coord)) (hs : RanksOk n ins.length ranks) :
    ∃ gs all, setupAll ins co owns o1 o2 = .ok gs ∧ (List.range n).mapM (onRank n ranks gs) = .ok all ∧
      ∀ p (hp : p < ins.length) r, ranks[p]? = some r → ∃ g, all[r]? = some g ∧
        ∀ e, ins[p].types = [e] → ∀ u (hu : u < ins[p].verts.length), ∃ l, zEdges g zid u = .ok l ∧
          l.map (fun x => (x.1, x.2.1)) = (e.pins.filter (fun x => x[0]? == some ins[p].verts[u])).map (fun x =>
            (zid (x.getD 1 0), ((if own (x.getD 1 0) = p then r else own (x.getD 1 0) : Nat) : Int))) := by
  obtain ⟨gr, GH, e0, hw, hst⟩ := setup_split (co := co) h ho h1 h2
  refine ⟨_, _, e0, onRank_all hs, ?_⟩
  intro p hp r hr
  have hpr : p < ranks.length := by rw [hs.count]; exact hp
  have hge : ranks.getD p 0 = r := by
    rw [getD_rank hpr]
    rw [List.getElem?_eq_getElem hpr] at hr
    exact Option.some.inj hr
  obtain ⟨-, hrn, -⟩ := hs.rank hp
  rw [hge] at hrn
  have hg := rankGraph_part (gr := gr) hs hp
  rw [hge] at hg
  refine ⟨Graph.switchComm (gr p) (r : Int) n, ?_, ?_⟩
  · rw [List.getElem?_map, List.getElem?_range hrn, Option.map_some, hg]
  · intro e he u hu
    obtain ⟨gh, hrp⟩ := hw.2 p (by simpa using hp) hp
    simp only [List.getElem_map, List.getElem_range, List.length_map, List.length_range] at hrp
    have him := List.getElem_mem (l := ins) hp
    have hc := switch_core hrp.core (r : Int) n
    rw [h.trad _ him, he] at hc
    obtain ⟨ws, e1, hl⟩ := zEdges_any (zid := zid) hc (by simp) (own := mixedOwner ranks own p)
      (switch_owner hrp hge (h.dist.verts _ hp) (by
        intro v hv hc
        obtain ⟨h3, h4⟩ := (hrp.mem_ghosts v).mp hv
        obtain ⟨h5, h6⟩ := h.dist.pins _ hp v h3
        apply h4
        simpa only [hc] using h6)) (by
        intro x hx
        obtain ⟨u, hu, w, -, hne, rfl⟩ := h.arcs _ him e (by rw [he]; simp) x hx
        exact ⟨u, hu, w, hne, rfl⟩) hu
    refine ⟨_, e1, ?_⟩
    simp only [List.getElem_cons_zero] at hl ⊢
    have hwf : e.WF false := by
      have := hc.wf e (by simp)
      exact this
    have hpins := edges_pins hwf
    rw [← hpins, List.filter_map, List.map_map]
    unfold outEdges at hl ⊢
    apply List.ext_getElem
    · simp only [List.length_map] at hl
      simp only [List.length_map, List.length_zipWith, hl]
      rw [Nat.min_self]
      rfl
    · intro k h1 h2
      simp only [List.getElem_map, List.getElem_zipWith, Function.comp, mixedOwner, hge]
      rfl

end

end Verif.Part
