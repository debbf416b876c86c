import Verif.Agi.TradReturn
import Verif.Agi.TradProps
import Verif.Io.FileProps
/-!
# C17, C18, C20, C21: migrations of traditional graphs that do return

`AnyProps` and `TradProps` say what holds after a sequence of migrations of a traditional graph *if* it returns.  Here is
when it returns: in every migration, for every edge that joins two parts and whose destination moves away (and not to
where the source goes), some edge must lead back from the destination to the part of the source, because only then does
`updateGhostOwners` tell that part.  For a symmetric graph this is so in the first migration, but not always in the second.
-/
namespace Verif.Agi
open Verif.Io (grouped grouped_perm grouped_length SourcesLocal)

/-- `Told` in every round, with the edges and owners of that round -/
def ToldAll : (Gid → Nat) → List Round → List (List Gid) → Prop
  | _, [], _ => True
  | own, r :: rs, T => Told own (place own r.ops) T ∧
      ToldAll (place own r.ops) rs (T.filter (fun x => decide (¬ Lost own (place own r.ops) x)))

/-- every edge has its opposite -/
def SymArcs (T : List (List Gid)) : Prop := ∀ x ∈ T, [dst x, src x] ∈ T

section
variable {ins : List Input} {own : Gid → Nat} {owns : List (GMap Part)} {o1 o2 : Nat → List Nat}
  {co : Option (Gid → Coord)} {gs0 gs : List Graph} {rs : List Round}

theorem rounds_trad_ok {D : VD} {n : Nat} (hn : 0 < n) (hnd : D.verts.Nodup) : ∀ (rs : List Round) {own : Gid → Nat}
    {T : List (List Gid)}, ArcsIn D.verts T →
    (∀ v ∈ D.verts, own v < n) → ∀ {gr : Nat → Graph} {V : Nat → List Gid},
    (∀ p, p < n → TState D T own n p (gr p) (V p)) →
    RoundsOk D.verts n D.co.isSome own rs → ToldAll own rs T →
    ∃ (gr' : Nat → Graph) (V' : Nat → List Gid), migrateRounds ((List.range n).map gr) rs = .ok ((List.range n).map gr') ∧
      ∀ p, p < n → TState D (survivors own rs T) (placeAll own rs) n p (gr' p) (V' p) := by
  intro rs
  induction rs with
  | nil =>
    intro own T hT hown gr V hst _ _
    exact ⟨gr, V, rfl, hst⟩
  | cons r rs ih =>
    intro own T hT hown gr V hst hr htold
    obtain ⟨hr1, hr2⟩ := hr
    obtain ⟨ht1, ht2⟩ := htold
    have hl := fun p hp => (hst p hp).loc
    have hpl : ∀ p, p < n → ∃ plan, (gr p).planG (r.ops p) = .ok plan ∧ ∃ s, PlanRep (V p) plan s
        (fun v => plannedG v (r.ops p).reverse) := by
      intro p hp
      obtain ⟨plan, s, e, h⟩ := planG_local (hl p hp).nl (hl p hp).nodup (fun v hv => (hl p hp).findGID hv) (r.ops p) (by
        intro v d hv
        obtain ⟨h1, h2, h3⟩ := hr1.ops p hp v d hv
        exact ⟨((hl p hp).mem v).mpr h1, by omega⟩)
      exact ⟨plan, e, s, h⟩
    haveI : Inhabited Plan := ⟨⟨none, []⟩⟩
    obtain ⟨pl, hpl'⟩ := choose_part hpl
    obtain ⟨gr1, V1, e1, hst1⟩ := round_trad_ok hn hnd hown (place_lt hown hr1) hT ht1 hst (by
      intro p hp
      obtain ⟨-, s, h⟩ := hpl' p hp
      refine ⟨s, _, h, fun v hv => ?_⟩
      exact place_planned hr1 hp (((hl p hp).mem v).mp hv).2) hr1.env
    obtain ⟨gr2, V2, e2, hst2⟩ := ih (fun x hx => hT x (List.mem_filter.mp hx).1) (place_lt hown hr1) hst1 hr2 ht2
    refine ⟨gr2, V2, ?_, hst2⟩
    unfold migrateRounds
    rw [List.foldlM_cons]
    have : migrateRound ((List.range n).map gr) r = .ok ((List.range n).map gr1) := by
      unfold migrateRound
      rw [zipIdx_range, mapM_range (G := pl) (fun p hp => (hpl' p hp).1), Outcome.bind_ok]
      exact e1
    rw [this, Outcome.bind_ok]
    exact e2

theorem TradStart.wf (h : TradStart ins own) : ∀ i ∈ ins, i.WF := by
  intro i hm
  obtain ⟨e, he, he1, he2⟩ := h.one _ hm
  refine ⟨h.placed.nodup _ hm, by rw [he]; simp [maxTypes], ?_⟩
  intro e' he'
  have he3 := he'
  rw [he, List.mem_singleton] at he'
  subst he'
  refine ⟨he1, he2, fun _ x hx => ?_⟩
  obtain ⟨u, -, w, -, -, rfl⟩ := h.arcs _ hm _ he3 x hx
  rfl

theorem TradStart.dist (h : TradStart ins own) : Dist ins own := by
  refine ⟨h.wf, h.placed.verts, fun p hp v hv => ?_⟩
  obtain ⟨e, he, x, hx, hv⟩ := Io.mem_allPins.mp hv
  obtain ⟨u, hu, w, hw, -, rfl⟩ := h.arcs _ (List.getElem_mem hp) e he x hx
  have hv' : v ∈ allVerts ins := by
    simp only [List.mem_cons, List.not_mem_nil, or_false] at hv
    rcases hv with rfl | rfl
    · exact ((h.placed.mem hp _).mp hu).1
    · exact hw
  have hlt := h.placed.lt v hv'
  exact ⟨hlt, (h.placed.mem hlt v).mpr ⟨hv', rfl⟩⟩

theorem setup_trad_ok (h : TradStart ins own) (ho : OwnMaps ins own owns) (h1 : Orders ins.length o1)
    (h2 : Orders ins.length o2) :
    ∃ (gr : Nat → Graph) (V : Nat → List Gid), setupAll ins co owns o1 o2 = .ok ((List.range ins.length).map gr) ∧
      ∀ p, p < ins.length → TState (startD ins own co) (allArcs ins) own ins.length p (gr p) (V p) := by
  obtain ⟨gr, GH, e, hpf⟩ := Io.setup_full (T := 1) (hyper := false) h.dist ⟨h.trad, fun i hi => by
    obtain ⟨e, he, -⟩ := h.one i hi
    rw [he]; rfl⟩ ho h1 h2 (fun _ i hi e he x hx => by
    obtain ⟨u, hu, w, -, hne, rfl⟩ := h.arcs i hi e he x hx
    exact ⟨u, hu, w, hne, rfl⟩) co
  obtain ⟨gr', V, heq, hl, ht⟩ := setup_trad h ho.1 e
  refine ⟨gr, V, e, fun p hp => ?_⟩
  have hgp : gr' p = gr p := by
    have := congrArg (fun l => l[p]?) heq
    simp only [List.getElem?_map, List.getElem?_range hp, Option.map_some, Option.some.injEq] at this
    exact this.symm
  have hrep := (hpf p hp).1.rep
  obtain ⟨ghosts, ids, es, wgts, hp3⟩ := ht p hp
  have hl' := hl p hp
  rw [hgp] at hp3 hl'
  refine ⟨hl', hrep.peers, ghosts, ids, es, wgts, hp3, ?_⟩
  have h4 := hp3.rep.v.gho
  have h5 := hrep.core.v.gho
  have : ghosts = GH p := by
    rcases h4 with ⟨h4, h6⟩ | h4 <;> rcases h5 with ⟨h5, h7⟩ | h5
    · rw [h4, h5]
    · exact absurd (h6.symm.trans h5) (by simp)
    · exact absurd (h4.symm.trans h7) (by simp)
    · exact ofList_inj (Option.some.inj (h4.symm.trans h5))
  subst this
  exact hrep.owners

/-- everything about a run that returns -/
theorem run_trad_ok (h : TradStart ins own) (ho : OwnMaps ins own owns) (h1 : Orders ins.length o1)
    (h2 : Orders ins.length o2) (hr : RoundsOk (allVerts ins) ins.length co.isSome own rs)
    (ht : ToldAll own rs (allArcs ins)) :
    ∃ gs0 gs, setupAll ins co owns o1 o2 = .ok gs0 ∧ migrateRounds gs0 rs = .ok gs ∧
      ∀ p (hp : p < gs.length), ∃ V, TState (startD ins own co) (survivors own rs (allArcs ins)) (placeAll own rs)
        ins.length p gs[p] V := by
  obtain ⟨gr, V, e, hst⟩ := setup_trad_ok (co := co) h ho h1 h2
  rcases Nat.eq_zero_or_pos ins.length with hn | hn
  · rw [hn] at e
    refine ⟨[], [], e, ?_, fun p hp => by simp at hp⟩
    clear ht
    have hh : migrateRounds ((List.range 0).map gr) rs = .ok [] := by
      rw [hn] at hr
      clear hst h
      generalize own = o at hr
      induction rs generalizing o with
      | nil => rfl
      | cons r rs ih =>
        unfold migrateRounds
        rw [List.foldlM_cons]
        have : migrateRound (List.map gr (List.range 0)) r = .ok [] := by
          unfold migrateRound
          rfl
        rw [this, Outcome.bind_ok]
        exact ih _ hr.2
    exact hh
  · obtain ⟨gr', V', e', hst'⟩ := rounds_trad_ok hn (allVerts_nodup h.placed.nodup h.placed.verts) rs h.arcsIn
      h.placed.lt hst hr ht
    refine ⟨_, _, e, e', fun p hp => ?_⟩
    simp only [List.getElem_map, List.getElem_range]
    exact ⟨_, hst' p (by simpa using hp)⟩

theorem sym_told {T : List (List Gid)} (hs : SymArcs T) (own own' : Gid → Nat) : Told own own' T :=
  fun x hx _ _ _ => ⟨_, hs x hx, rfl, rfl⟩

theorem sym_toldAll {T : List (List Gid)} (hs : SymArcs T) : ∀ (rs : List Round) (own : Gid → Nat),
    (∀ (pre : List Round) (r : Round) (post : List Round), rs = pre ++ r :: post → ∀ x ∈ T,
      ¬ Lost (placeAll own pre) (place (placeAll own pre) r.ops) x) → ToldAll own rs T := by
  intro rs
  induction rs with
  | nil => intro own _; trivial
  | cons r rs ih =>
    intro own h
    have h0 : ∀ x ∈ T, ¬ Lost own (place own r.ops) x := h [] r rs rfl
    refine ⟨sym_told hs _ _, ?_⟩
    rw [List.filter_eq_self.mpr (fun x hx => decide_eq_true (h0 x hx))]
    exact ih _ (fun pre r' post hp x hx => h (r :: pre) r' post (by rw [hp]; rfl) x hx)

/-! ## the properties -/

/-- iterate over the edges of a type and collect the pins with their owners -/
def Graph.arcViews (g : Graph) (t : Nat) : Outcome (List (List (Gid × Part))) := do
  let it ← g.edgeBegin t
  iterLoop g.iterEdge (fun acc e => do
    let x ← g.pinView e
    return (acc ++ [x], false)) g.bound it []

theorem arcViews_eq {g : Graph} {V ghosts ids : List Gid} {es : List (List Gid)} {wgts : List Wgt} {ow : Gid → Part}
    (c : CRep g false V ghosts [⟨ids, es, wgts⟩]) (hs : ArcsOn V es) (ho : ORep g ghosts ow)
    (hme : ∀ v ∈ V, ow v = g.self) :
    g.arcViews 0 = .ok ((grouped V es).map (fun x => x.map (fun v => (v, ow v)))) := by
  obtain ⟨it, hit, hy⟩ := edgeBegin_trad c hs
  unfold Graph.arcViews
  rw [hit, Outcome.bind_ok, iterLoop_collect (F := fun k => ((grouped V es).getD k []).map (fun v => (v, ow v))) hy
    (by simpa using grouped_fuel c hs)]
  · have : (List.range (grouped V es).length).map (fun k => (grouped V es).getD k []) = grouped V es := (list_range _ _).symm
    conv_rhs => rw [← this]
    rw [List.map_map]
    rfl
  · intro acc k hk
    have hk' := List.mem_range.mp hk
    obtain ⟨E, hE, hat⟩ := arc_at c hs hk'
    obtain ⟨hkn, hfu⟩ := trad_known c (List.getElem_mem hk')
    obtain ⟨it', hit', hy'⟩ := hat.pins
    have : g.pinView (g.getEdge k 0) = .ok ((grouped V es)[k].map (fun v => (v, ow v))) := by
      unfold Graph.pinView
      rw [hit', Outcome.bind_ok, iterLoop_collect (F := fun v => (v, ow v)) hy' (by rw [hE]; exact hfu)]
      · rw [hE]
      · intro acc v hv
        rw [hE] at hv
        rw [show g.globalID (vh (V ++ ghosts) v) = .ok v from globalID_eq c.v (hkn v hv), Outcome.bind_ok,
          show g.owner (vh (V ++ ghosts) v) = .ok (ow v) from by
            have := owner_eq c.v ho (hkn v hv)
            refine this.trans ?_
            unfold ownerOf
            split
            · rename_i hv; rw [hme v hv]
            · rfl, Outcome.bind_ok]
        rfl
    rw [this, Outcome.bind_ok, List.getD_eq_getElem?_getD, List.getElem?_eq_getElem hk', Option.getD_some]; rfl

/-- **C17, traditional graphs.**  The set-up returns, and if in every migration every part that still needs the place of
a moving vertex is told (`ToldAll`), the migrations return and every part has exactly the vertices that were planned for
it or that it had and nobody sent away.  (Missing: without `ToldAll` the migration can be undefined behaviour,
`c17_one_way_swap_ub`.) -/
theorem c17_trad_returns_partial (h : TradStart ins own) (ho : OwnMaps ins own owns) (h1 : Orders ins.length o1)
    (h2 : Orders ins.length o2) (hr : RoundsOk (allVerts ins) ins.length co.isSome own rs)
    (ht : ToldAll own rs (allArcs ins)) :
    ∃ gs0 gs, setupAll ins co owns o1 o2 = .ok gs0 ∧ migrateRounds gs0 rs = .ok gs ∧ gs.length = ins.length ∧
      (∀ p (hp : p < gs.length), gs[p].globalVerts = ((allVerts ins).length : Int) ∧
        ∃ vs, gs[p].localGids = .ok vs ∧ vs.Nodup ∧ ∀ v, v ∈ vs ↔ v ∈ allVerts ins ∧ placeAll own rs v = p) ∧
      ∃ vss, gs.mapM Graph.localGids = .ok vss ∧ vss.flatten.Perm (allVerts ins) := by
  obtain ⟨gs0, gs, e0, e, -⟩ := run_trad_ok (co := co) h ho h1 h2 hr ht
  exact ⟨gs0, gs, e0, e, c17_any_partial h.placed ho.1 hr e0 e⟩

/-- **C18, traditional graphs**: and every vertex has its weight, original owner and coordinates. -/
theorem c18_trad_returns_partial (h : TradStart ins own) (ho : OwnMaps ins own owns) (h1 : Orders ins.length o1)
    (h2 : Orders ins.length o2) (hr : RoundsOk (allVerts ins) ins.length co.isSome own rs)
    (ht : ToldAll own rs (allArcs ins)) :
    ∃ gs0 gs, setupAll ins co owns o1 o2 = .ok gs0 ∧ migrateRounds gs0 rs = .ok gs ∧
      ∀ v ∈ allVerts ins, ∃ g, gs[placeAll own rs v]? = some g ∧
        g.weightG v = .ok (weightOf ins own v) ∧ g.origG v = .ok (own v : Int) ∧
        ∀ c, co = some c → g.coordG v = .ok (c v) := by
  obtain ⟨gs0, gs, e0, e, -⟩ := run_trad_ok (co := co) h ho h1 h2 hr ht
  exact ⟨gs0, gs, e0, e, c18_any_partial h.placed ho.1 hr e0 e⟩

/-- **C20, traditional graphs**: and every part shows exactly the surviving edges whose source it owns, and for each end
of each of them, ghost or not, the part where that vertex now lives. -/
theorem c20_trad_returns_partial (h : TradStart ins own) (ho : OwnMaps ins own owns) (h1 : Orders ins.length o1)
    (h2 : Orders ins.length o2) (hr : RoundsOk (allVerts ins) ins.length co.isSome own rs)
    (ht : ToldAll own rs (allArcs ins)) :
    ∃ gs0 gs, setupAll ins co owns o1 o2 = .ok gs0 ∧ migrateRounds gs0 rs = .ok gs ∧ gs.length = ins.length ∧
      ∀ p (hp : p < gs.length), ∃ L, gs[p].arcViews 0 = .ok L ∧
        L.Perm (((survivors own rs (allArcs ins)).filter (fun x => decide (placeAll own rs (src x) = p))).map
          (fun x => x.map (fun v => (v, (placeAll own rs v : Int))))) := by
  obtain ⟨gs0, gs, e0, e, hst⟩ := run_trad_ok (co := co) h ho h1 h2 hr ht
  refine ⟨gs0, gs, e0, e, (c17_any_partial h.placed ho.1 hr e0 e).1, fun p hp => ?_⟩
  obtain ⟨V, hs⟩ := hst p hp
  obtain ⟨ghosts, ids, es, wgts, hp3, hor⟩ := hs.arcs
  have hT : ArcsIn (allVerts ins) (survivors own rs (allArcs ins)) := by
    have key : ∀ (rs : List Round) (own : Gid → Nat) (T : List (List Gid)), ArcsIn (allVerts ins) T →
        ArcsIn (allVerts ins) (survivors own rs T) := by
      intro rs
      induction rs with
      | nil => intro own T hT; exact hT
      | cons r rs ih => intro own T hT; exact ih _ _ (fun x hx => hT x (List.mem_filter.mp hx).1)
    exact key rs own _ h.arcsIn
  have hon := arcsOn_arcs hs.loc hT hp3.perm
  refine ⟨_, arcViews_eq hp3.rep hon hor (fun v hv => ?_), ((grouped_perm hs.loc.nodup hon).trans hp3.perm).map _⟩
  rw [hs.loc.rank, ((hs.loc.mem v).mp hv).2]

/-- **C21, traditional graphs**: and `getPartition` tells every part where its original vertices live. -/
theorem c21_trad_returns_partial (h : TradStart ins own) (ho : OwnMaps ins own owns) (h1 : Orders ins.length o1)
    (h2 : Orders ins.length o2) (hr : RoundsOk (allVerts ins) ins.length co.isSome own rs)
    (ht : ToldAll own rs (allArcs ins)) {ord : Nat → List Nat} (hord : Orders ins.length ord) :
    ∃ gs0 gs maps, setupAll ins co owns o1 o2 = .ok gs0 ∧ migrateRounds gs0 rs = .ok gs ∧
      getPartition gs ord = .ok maps ∧ maps.length = ins.length ∧
      ∀ q (hq : q < maps.length) (hq' : q < ins.length) v,
        (v ∈ ins[q].verts → maps[q] v = some (placeAll own rs v)) ∧ (v ∉ ins[q].verts → maps[q] v = none) := by
  obtain ⟨gs0, gs, e0, e, -⟩ := run_trad_ok (co := co) h ho h1 h2 hr ht
  obtain ⟨maps, hm⟩ := c21_any_partial h.placed ho.1 hr e0 e hord
  exact ⟨gs0, gs, maps, e0, e, hm⟩

/-- **C17, symmetric graphs, one migration**: if every edge has its opposite, the first migration returns whatever the
plan, and leaves the vertices where the plan sends them. -/
theorem c17_sym_first_partial (h : TradStart ins own) (ho : OwnMaps ins own owns) (h1 : Orders ins.length o1)
    (h2 : Orders ins.length o2) (hs : SymArcs (allArcs ins)) {r : Round}
    (hr : RoundOk (allVerts ins) ins.length co.isSome own r) :
    ∃ gs0 gs, setupAll ins co owns o1 o2 = .ok gs0 ∧ migrateRound gs0 r = .ok gs ∧ gs.length = ins.length ∧
      ∀ p (hp : p < gs.length), ∃ vs, gs[p].localGids = .ok vs ∧ vs.Nodup ∧
        ∀ v, v ∈ vs ↔ v ∈ allVerts ins ∧ place own r.ops v = p := by
  obtain ⟨gs0, gs, e0, e, hlen, h3, -⟩ := c17_trad_returns_partial (co := co) (rs := [r]) h ho h1 h2 ⟨hr, trivial⟩
    ⟨sym_told hs _ _, trivial⟩
  refine ⟨gs0, gs, e0, ?_, hlen, fun p hp => (h3 p hp).2⟩
  unfold migrateRounds at e
  rw [List.foldlM_cons] at e
  obtain ⟨g1, e1, e2⟩ := bind_ok_iff.mp e
  have := Outcome.ok.inj e2
  subst this
  exact e1

/-- **C20, symmetric graphs**: as long as no edge is lost, any sequence of migrations of a graph in which every edge has
its opposite returns, and shows all edges with the right owners. -/
theorem c20_sym_returns_partial (h : TradStart ins own) (ho : OwnMaps ins own owns) (h1 : Orders ins.length o1)
    (h2 : Orders ins.length o2) (hr : RoundsOk (allVerts ins) ins.length co.isSome own rs) (hs : SymArcs (allArcs ins))
    (hlost : ∀ (pre : List Round) (r : Round) (post : List Round), rs = pre ++ r :: post → ∀ x ∈ allArcs ins,
      ¬ Lost (placeAll own pre) (place (placeAll own pre) r.ops) x) :
    ∃ gs0 gs, setupAll ins co owns o1 o2 = .ok gs0 ∧ migrateRounds gs0 rs = .ok gs ∧ gs.length = ins.length ∧
      ∀ p (hp : p < gs.length), ∃ L, gs[p].arcViews 0 = .ok L ∧
        L.Perm (((allArcs ins).filter (fun x => decide (placeAll own rs (src x) = p))).map
          (fun x => x.map (fun v => (v, (placeAll own rs v : Int))))) := by
  have := c20_trad_returns_partial (co := co) (rs := rs) h ho h1 h2 hr (sym_toldAll hs rs own hlost)
  rw [survivors_all _ _ _ hlost] at this
  exact this

end

/-! ## the hypotheses are met, and the limit -/

instance (own own' : Gid → Nat) (T : List (List Gid)) : Decidable (Told own own' T) := by unfold Told; infer_instance

instance decToldAll : ∀ (own : Gid → Nat) (rs : List Round) (T : List (List Gid)), Decidable (ToldAll own rs T)
  | _, [], _ => .isTrue trivial
  | own, r :: rs, T =>
    haveI := decToldAll (place own r.ops) rs (T.filter (fun x => decide (¬ Lost own (place own r.ops) x)))
    inferInstanceAs (Decidable (_ ∧ _))

instance (T : List (List Gid)) : Decidable (SymArcs T) := by unfold SymArcs; infer_instance

/-- the start and the two migrations of `TradProps` meet the hypothesis (the others are shown there) -/
example : ToldAll fourOwn fourRounds (allArcs tradFour) := by decide +kernel

example : OwnMaps tradFour fourOwn fourOwns := by
  refine ⟨rfl, ?_⟩
  intro p hp h' v _ _
  have h1 : p = 0 ∨ p = 1 := by simp [tradFour] at hp; omega
  have h2 : (if v = 4 then some (1 : Int) else some 0) = some ((if v = 4 then 1 else 0 : Nat) : Int) := by
    split <;> rfl
  rcases h1 with rfl | rfl <;> exact h2

/-- the path 1 - 2 - 3 with edges in both directions; 1 and 2 on part 0, 3 on part 1 -/
def symThree : List Input :=
  [{ hyper := false, verts := [1, 2], wgts := [], types := [⟨[0, 1, 2], [[1, 2], [2, 1], [2, 3]], []⟩] },
   { hyper := false, verts := [3], wgts := [], types := [⟨[0], [[3, 2]], []⟩] }]
def symOwn (v : Gid) : Nat := if v = 3 then 1 else 0
def symOwns : List (GMap Part) := [fun v => some (symOwn v : Int), fun v => some (symOwn v : Int)]

theorem symThree_start : TradStart symThree symOwn := by
  refine ⟨⟨by decide, ?_⟩, by decide, ?_, ?_⟩
  · intro p hp
    have h1 : p = 0 ∨ p = 1 := by simp [symThree] at hp; omega
    rcases h1 with rfl | rfl
    · exact (by decide : ∀ v ∈ ([1, 2] : List Int), symOwn v = 0)
    · exact (by decide : ∀ v ∈ ([3] : List Int), symOwn v = 1)
  · intro i hi
    simp only [symThree, List.mem_cons, List.not_mem_nil, or_false] at hi
    rcases hi with rfl | rfl
    · exact ⟨_, rfl, rfl, .inl rfl⟩
    · exact ⟨_, rfl, rfl, .inl rfl⟩
  · intro i hi e he x hx
    simp only [symThree, List.mem_cons, List.not_mem_nil, or_false] at hi
    rcases hi with rfl | rfl
    · simp only [List.mem_cons, List.not_mem_nil, or_false] at he
      subst he
      simp only [List.mem_cons, List.not_mem_nil, or_false] at hx
      rcases hx with rfl | rfl | rfl
      · exact ⟨1, by decide, 2, by decide, by decide, rfl⟩
      · exact ⟨2, by decide, 1, by decide, by decide, rfl⟩
      · exact ⟨2, by decide, 3, by decide, by decide, rfl⟩
    · simp only [List.mem_cons, List.not_mem_nil, or_false] at he
      subst he
      simp only [List.mem_cons, List.not_mem_nil, or_false] at hx
      subst hx
      exact ⟨3, by decide, 2, by decide, by decide, rfl⟩

example : SymArcs (allArcs symThree) ∧ OwnMaps symThree symOwn symOwns := by
  refine ⟨by decide, rfl, ?_⟩
  intro p hp h' v _ _
  have h1 : p = 0 ∨ p = 1 := by simp [symThree] at hp; omega
  rcases h1 with rfl | rfl <;> rfl

/-- 1 and 2 move to part 1 and 3 to part 0: nothing is lost -/
def symMove : Round := ⟨fun p => if p = 0 then [.insert 1 1, .insert 2 1] else [.insert 3 0], sampleEnv⟩

example : RoundsOk (allVerts symThree) symThree.length false symOwn [symMove] ∧
    (∀ (pre : List Round) (r : Round) (post : List Round), [symMove] = pre ++ r :: post → ∀ x ∈ allArcs symThree,
      ¬ Lost (placeAll symOwn pre) (place (placeAll symOwn pre) r.ops) x) := by
  refine ⟨⟨⟨?_, sampleEnv_ok _⟩, trivial⟩, ?_⟩
  · intro p hp v d hv
    have h1 : p = 0 ∨ p = 1 := by simp [symThree] at hp; omega
    rcases h1 with rfl | rfl
    · simp [symMove] at hv
      rcases hv with ⟨rfl, rfl⟩ | ⟨rfl, rfl⟩ <;> decide
    · simp [symMove] at hv
      obtain ⟨rfl, rfl⟩ := hv
      decide
  · intro pre r post hp
    rcases pre with _ | ⟨a, pre⟩
    · simp only [List.nil_append, List.cons.injEq] at hp
      obtain ⟨rfl, -⟩ := hp
      decide
    · have := congrArg List.length hp
      simp at this

/-- 1 and 2 on part 0, joined in both directions -/
def symPair : List Input :=
  [{ hyper := false, verts := [1, 2, 4], wgts := [], types := [⟨[0, 1], [[1, 2], [2, 1]], []⟩] },
   { hyper := false, verts := [], wgts := [], types := [⟨[], [], []⟩] }]
def pairOwns : List (GMap Part) := [fun _ => some 0, fun _ => some 0]
/-- first 2 goes to part 1 (which loses 1→2), then 1 goes there and 2 comes back -/
def pairRounds : List Round :=
  [⟨fun p => if p = 0 then [.insert 2 1] else [], sampleEnv⟩,
   ⟨fun p => if p = 0 then [.insert 1 1] else [.insert 2 0], sampleEnv⟩]

/-- the first migration of this symmetric graph loses the edge 1→2, and the second is undefined behaviour: part 1, which
holds 2→1, is not told that 1 moves there -/
theorem c17_symmetric_second_ub : SymArcs (allArcs symPair) ∧
    observe symPair none pairOwns (pairRounds.take 1) (fun g => g.arcGids 0) = .ok [[], [[2, 1]]] ∧
    observe symPair none pairOwns pairRounds Graph.localGids = .ub ∧
    ¬ ToldAll (fun _ => 0) pairRounds (allArcs symPair) := by
  decide +kernel

end Verif.Agi
