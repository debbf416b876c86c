import Verif.Agi.MigSpec
import Verif.Agi.MigMain
/-!
# From the calls of a user to the invariant of migration
-/
namespace Verif.Agi

/-- the global hypergraph behind a starting situation -/
def startG (es : List HEdge) (ins : List Input) (own : Gid → Nat) (co : Option (Gid → Coord)) : GG :=
  ⟨allVerts ins, es, weightOf ins own, fun v => (own v : Int), co⟩

theorem mem_allVerts {ins : List Input} {v : Gid} : v ∈ allVerts ins ↔ ∃ i ∈ ins, v ∈ i.verts := by
  unfold allVerts
  rw [List.mem_flatten]
  constructor
  · rintro ⟨l, hl, hv⟩
    obtain ⟨i, hi, rfl⟩ := List.mem_map.mp hl
    exact ⟨i, hi, hv⟩
  · rintro ⟨i, hi, hv⟩; exact ⟨_, List.mem_map.mpr ⟨i, hi, rfl⟩, hv⟩

theorem allVerts_own {ins : List Input} {own : Gid → Nat} (hv : ∀ p (h : p < ins.length), ∀ v ∈ ins[p].verts, own v = p)
    {v : Gid} : v ∈ allVerts ins ↔ ∃ h : own v < ins.length, v ∈ ins[own v].verts := by
  rw [mem_allVerts]
  constructor
  · rintro ⟨i, hi, hvi⟩
    obtain ⟨p, hp, rfl⟩ := List.mem_iff_getElem.mp hi
    have := hv p hp v hvi
    subst this
    exact ⟨hp, hvi⟩
  · rintro ⟨h, hvi⟩; exact ⟨_, List.getElem_mem h, hvi⟩

theorem allVerts_nodup {ins : List Input} {own : Gid → Nat} (hwf : ∀ i ∈ ins, i.verts.Nodup)
    (hv : ∀ p (h : p < ins.length), ∀ v ∈ ins[p].verts, own v = p) : (allVerts ins).Nodup := by
  unfold allVerts
  rw [List.nodup_flatten]
  constructor
  · intro l hl
    obtain ⟨i, hi, rfl⟩ := List.mem_map.mp hl
    exact hwf i hi
  · rw [List.pairwise_map, List.pairwise_iff_getElem]
    intro i j hi hj hij v h1 h2
    have a := hv i hi v h1
    have b := hv j hj v h2
    omega

section
variable {es : List HEdge} {ins : List Input} {own : Gid → Nat} {owns : List (GMap Part)} {o1 o2 : Nat → List Nat}

theorem Start.wf (h : Start es ins own owns o1 o2) (co : Option (Gid → Coord)) :
    (startG es ins own co).WF ins.length own := by
  refine ⟨?_, allVerts_nodup (fun i hi => (h.dist.wf i hi).nodup) h.dist.verts, h.ids, ?_, ?_, ?_⟩
  · obtain ⟨i, hi, hne⟩ := h.some_vertex
    obtain ⟨v, hv⟩ := List.exists_mem_of_ne_nil _ hne
    exact List.ne_nil_of_mem (mem_allVerts.mpr ⟨i, hi, hv⟩)
  · exact fun E hE => h.dist.nonempty es (by simp) E hE
  · intro E hE v hv
    exact (allVerts_own h.dist.verts).mpr (h.dist.pins es (by simp) E hE v hv)
  · intro v hv
    exact ((allVerts_own h.dist.verts).mp hv).1

theorem weightOf_verts (hv : ∀ p (h : p < ins.length), ∀ v ∈ ins[p].verts, own v = p)
    (hnd : ∀ i ∈ ins, i.verts.Nodup) {p : Nat} (hp : p < ins.length) :
    vertWeights ins[p].verts ins[p].wgts = ins[p].verts.map (weightOf ins own) := by
  apply List.ext_getElem
  · rw [vertWeights_length]; simp
  · intro k h1 h2
    have hk : k < ins[p].verts.length := by simpa using h2
    simp only [List.getElem_map]
    unfold weightOf
    rw [hv p hp _ (List.getElem_mem hk)]
    rw [List.getElem?_eq_getElem hp]
    simp only
    rw [(hnd _ (List.getElem_mem hp)).idxOf_getElem k hk, List.getD_eq_getElem?_getD, List.getElem?_eq_getElem h1]
    rfl

theorem setupBare_spec (h : Start es ins own owns o1 o2) (co : Option (Gid → Coord)) :
    ∃ (gr : Nat → Graph) (I : Nat → Input) (GH : Nat → List Gid),
      setupBare ins co owns o1 o2 = .ok ((List.range ins.length).map gr) ∧
      ∀ p, p < ins.length → (gr p).originalOwners = none ∧
        PartDone (startG es ins own co) own ins.length p (gr p).setOriginalOwners (I p) (GH p) := by
  have hG := h.wf co
  set n := ins.length with hn
  set total : Int := (ins.map (fun i => (i.verts.length : Int))).sum with htotal
  -- construction
  have hb : ∀ p, p < n → ∃ g, (∃ i, rd ins p = .ok i ∧ build (p : Int) n total i = .ok g) ∧
      (∃ gh, GRep g (p : Int) n total (ins.getD p ⟨true, [], [], []⟩) gh) ∧ g.coords = none := by
    intro p hp
    obtain ⟨g, gh, e, hr, hc⟩ := build_spec' (p : Int) n total ins[p] (h.dist.wf _ (List.getElem_mem hp))
    refine ⟨g, ⟨ins[p], rd_ok hp, e⟩, ⟨gh, ?_⟩, hc⟩
    rw [List.getD_eq_getElem?_getD, List.getElem?_eq_getElem hp]; exact hr
  obtain ⟨g0, hg0⟩ := choose_part hb
  have e0 : buildAll ins = .ok ((List.range n).map g0) := by
    unfold buildAll
    apply mapM_ok
    intro p hp
    obtain ⟨⟨i, e1, e2⟩, -⟩ := hg0 p (List.mem_range.mp hp)
    rw [e1, Outcome.bind_ok]; exact e2
  have hget : ∀ p (hp : p < n), ins.getD p ⟨true, [], [], []⟩ = ins[p] := by
    intro p hp; rw [List.getD_eq_getElem?_getD, List.getElem?_eq_getElem hp]; rfl
  have hins : ins = (List.range n).map (fun p => ins.getD p ⟨true, [], [], []⟩) := list_range ins _
  -- coordinates
  have e1 : (((List.range n).map g0).zip ins).mapM (fun x => x.1.giveCoords x.2.verts co) =
      .ok ((List.range n).map (fun p => { g0 p with coords := co.map (fun c =>
        Mem.ofList ((ins.getD p ⟨true, [], [], []⟩).verts.map c)) })) := by
    have : ((List.range n).map g0).zip ins = (List.range n).map (fun p => (g0 p, ins.getD p ⟨true, [], [], []⟩)) := by
      conv_lhs => rw [hins]
      exact zip_range _ _ _
    rw [this]
    apply mapM_range
    intro p hp
    obtain ⟨-, ⟨gh, hr⟩, hc⟩ := hg0 p hp
    unfold Graph.giveCoords
    cases co with
    | none =>
      simp only [Option.map_none]
      rw [← hc]
    | some c =>
      simp only [Option.map_some]
      unfold Graph.setCoords
      rw [storeAll _ (g0 p).numLocal (by rw [hr.vrep.nl]; simp)]
      rfl
  set g1 : Nat → Graph := fun p => { g0 p with coords := co.map (fun c =>
        Mem.ofList ((ins.getD p ⟨true, [], [], []⟩).verts.map c)) } with hg1
  have hbuilt : Built ((List.range n).map g1) ins := by
    refine ⟨by simp [hn], fun p hp hp' => ?_⟩
    obtain ⟨-, ⟨gh, hr⟩, -⟩ := hg0 p hp'
    rw [hget p hp'] at hr
    refine ⟨gh, ?_⟩
    simp only [List.getElem_map, List.getElem_range, hg1]
    exact hr.of_coords _
  obtain ⟨gs2, e2, hw2, hr2⟩ := constructGhosts_spec (o1 := o1) (o2 := o2) hbuilt h.dist.dist
    (hdist_uniform h.dist) h.maps h.o1 h.o2
  have hl2 : gs2.length = n := by rw [hw2.1]
  have hgs2 : gs2 = (List.range n).map (fun p => gs2.getD p default) := by
    have := list_range gs2 default
    rw [hl2] at this; exact this
  have hget2 : ∀ p (h : p < gs2.length), gs2.getD p default = gs2[p] := by
    intro p h; rw [List.getD_eq_getElem?_getD, List.getElem?_eq_getElem h]; rfl
  have h3 : ∀ p, p < n → ∃ gh, (gs2.getD p default).originalOwners = none ∧ PartDone (startG es ins own co) own n p
      ((gs2.getD p default).setOriginalOwners) (ins.getD p ⟨true, [], [], []⟩) gh := by
    intro p hp
    have hp2 : p < gs2.length := by omega
    have hp1 : p < ((List.range n).map g1).length := by simpa using hp
    obtain ⟨r1, r2, r3, r4, r5⟩ := hr2 p hp2 hp1 hp
    obtain ⟨-, ⟨gh0, hr0⟩, -⟩ := hg0 p hp
    rw [hget p hp] at hr0 ⊢
    have hex : ∃ gh, PartRep gs2[p] p n ins[p] own gh ∧
        (1 < n → gs2[p].ghostWeights = some (Mem.ofList (gh.map (weightOf ins own)))) := by
      by_cases hn1 : 1 < n
      · obtain ⟨gh, a, b⟩ := r5 hn1
        exact ⟨gh, a, fun _ => b⟩
      · obtain ⟨gh, a⟩ := hw2.2 p hp2 hp
        exact ⟨gh, a, fun h => absurd h hn1⟩
    obtain ⟨gh, hrep, hgw⟩ := hex
    rw [hget2 p hp2]
    have hoo : gs2[p].originalOwners = none := by
      rw [r4]; simp only [List.getElem_map, List.getElem_range, hg1]; exact hr0.orig
    have hco : gs2[p].coords = co.map (fun c => Mem.ofList (ins[p].verts.map c)) := by
      rw [r3]; simp only [List.getElem_map, List.getElem_range, hg1, hget p hp]
    have hset : gs2[p].setOriginalOwners = ({ gs2[p] with originalOwners := some (Mem.ofList (ins[p].verts.map (startG es ins own co).oo)) } : Graph) := by
      unfold Graph.setOriginalOwners
      simp only [hoo]
      congr 3
      rw [hrep.core.v.nl, hrep.rank]
      symm
      rw [List.eq_replicate_iff]
      refine ⟨by simp, ?_⟩
      intro b hb
      obtain ⟨v, hv, rfl⟩ := List.mem_map.mp hb
      show (own v : Int) = _
      rw [h.dist.verts p hp v hv]
    have ht1 : ins[p].types.length = 1 := by rw [h.dist.types p hp]; rfl
    refine ⟨gh, hoo, ⟨⟨by rw [hset]; exact hrep.of_orig _, ?_, ?_, ?_, .inr (by rw [hset]), ?_, ?_⟩, ht1, ?_, ?_, ?_, ?_, ?_, by rw [hset]; rfl⟩⟩
    · intro v
      show v ∈ ins[p].verts ↔ v ∈ allVerts ins ∧ own v = p
      rw [allVerts_own h.dist.verts]
      constructor
      · intro hv
        have := h.dist.verts p hp v hv
        subst this
        exact ⟨⟨hp, hv⟩, rfl⟩
      · rintro ⟨⟨h1, h2⟩, rfl⟩; exact h2
    · exact weightOf_verts h.dist.verts (fun i hi => (h.dist.wf i hi).nodup) hp
    · left
      refine ⟨h.dist.hyper _ (List.getElem_mem hp), ?_⟩
      obtain ⟨e, he⟩ := List.length_eq_one_iff.mp ht1
      refine ⟨e, he, ?_⟩
      have := h.dist.edges p hp 0 (by omega) (by simp)
      simp only [he, List.getElem_cons_zero] at this
      exact this
    · intro hc
      have hc' : co = none := hc
      rw [hset]; simp only [hco, hc']; rfl
    · intro c hc
      have hc' : co = some c := hc
      right; rw [hset]; simp only [hco, hc']; rfl
    · exact h.dist.hyper _ (List.getElem_mem hp)
    · rw [hset]
      simp only
      rw [r2]; simp only [List.getElem_map, List.getElem_range, hg1]
      rw [hr0.total, htotal]
      show _ = ((allVerts ins).length : Int)
      unfold allVerts
      rw [List.length_flatten, cast_sum, List.map_map, List.map_map]
      rfl
    · have := (r1 0 (by simp)).1
      rw [hdist_edgeTotal h.dist (by simp)] at this
      rw [hset]
      exact this
    · have := (r1 0 (by simp)).2
      rw [if_pos rfl, hdist_pinTotal h.dist (by simp)] at this
      rw [hset]
      exact this
    · rw [hset]; exact hgw
  obtain ⟨GH, hGH⟩ := choose_part h3
  refine ⟨fun p => gs2.getD p default, fun p => ins.getD p ⟨true, [], [], []⟩, GH, ?_, hGH⟩
  unfold setupBare
  rw [e0, Outcome.bind_ok, e1, Outcome.bind_ok, e2, ← hgs2]

theorem setupAll_bare (ins : List Input) (co : Option (Gid → Coord)) (owns : List (GMap Part)) (o1 o2 : Nat → List Nat) :
    setupAll ins co owns o1 o2 = (do let gs ← setupBare ins co owns o1 o2; return gs.map Graph.setOriginalOwners) := by
  unfold setupAll setupBare
  simp only [bind_assoc]

theorem setupAll_spec (h : Start es ins own owns o1 o2) (co : Option (Gid → Coord)) :
    ∃ (gr : Nat → Graph) (I : Nat → Input) (GH : Nat → List Gid),
      setupAll ins co owns o1 o2 = .ok ((List.range ins.length).map gr) ∧
      ∀ p, p < ins.length → PartDone (startG es ins own co) own ins.length p (gr p) (I p) (GH p) := by
  obtain ⟨gr, I, GH, e, hd⟩ := setupBare_spec h co
  refine ⟨fun p => (gr p).setOriginalOwners, I, GH, ?_, fun p hp => (hd p hp).2⟩
  rw [setupAll_bare, e, Outcome.bind_ok, List.map_map]; rfl

/-! ## plans -/

theorem planG_local {g : Graph} {verts : List Gid} (hn : g.numLocal = verts.length) (hnd : verts.Nodup)
    (hm : ∀ v ∈ verts, g.findGID v = .ok (getVertex (verts.idxOf v))) (ops : List GOp)
    (hops : ∀ v d, GOp.insert v d ∈ ops → v ∈ verts ∧ d ≠ -1) :
    ∃ plan s, g.planG ops = .ok plan ∧ PlanRep verts plan s (fun v => plannedG v ops.reverse) := by
  unfold Graph.planG
  obtain ⟨p0, e0, h0⟩ := newPlan_rep hn
  rw [e0, Outcome.bind_ok]
  obtain ⟨plan, e, s, h⟩ := foldlM_inv g.planOpG
    (fun pre p => ∃ s, PlanRep verts p s (fun v => plannedG v pre.reverse)) ops
    (by
      intro pre x p hpre ⟨s, h⟩
      cases x with
      | clear =>
        obtain ⟨p', e, h'⟩ := planClear_rep h hnd
        refine ⟨p', e, [], ?_⟩
        rw [List.reverse_append]
        exact h'
      | insert v d =>
        obtain ⟨hvm, hd⟩ := hops v d (hpre.subset (by simp))
        obtain ⟨p', e, h'⟩ := planInsert_rep (g := g) h hn hnd hvm hd
        unfold Graph.planOpG
        simp only
        rw [hm v hvm, Outcome.bind_ok]
        simp only [e, Outcome.bind_ok]
        refine ⟨p', rfl, (if plannedG v pre.reverse = none then s ++ [v] else s), ?_⟩
        have hf : (fun u => plannedG u (pre ++ [GOp.insert v d]).reverse) =
            planPut (fun u => plannedG u pre.reverse) v d := by
          funext u
          simp only [List.reverse_append, List.reverse_cons, List.reverse_nil, List.nil_append,
            List.singleton_append, plannedG, planPut]
        rw [hf]; exact h')
    p0 ⟨[], by simpa [plannedG] using h0⟩
  exact ⟨plan, s, e, h⟩

theorem planG_rep {g : Graph} {verts ghosts : List Gid} (hv : VRep g verts ghosts) (ops : List GOp)
    (hops : ∀ v d, GOp.insert v d ∈ ops → v ∈ verts ∧ d ≠ -1) :
    ∃ plan s, g.planG ops = .ok plan ∧ PlanRep verts plan s (fun v => plannedG v ops.reverse) := by
  apply planG_local hv.nl (List.nodup_append.mp hv.nodup).1 _ ops hops
  intro v hvm
  rw [findGID_eq hv (by simp [hvm])]
  have := vh_local (ghosts := ghosts) hvm
  unfold vh at this
  rw [this]

end

theorem plannedG_mem {v : Gid} {d : Part} : ∀ {l : List GOp}, plannedG v l = some d → GOp.insert v d ∈ l
  | [], h => by simp [plannedG] at h
  | .clear :: _, h => by simp [plannedG] at h
  | .insert v' d' :: l, h => by
    unfold plannedG at h
    split at h
    · next hv => subst hv; simp only [Option.some.injEq] at h; subst h; simp
    · exact List.mem_cons_of_mem _ (plannedG_mem h)

theorem place_lt {Vs : List Gid} {n : Nat} {b : Bool} {own : Gid → Nat} {r : Round}
    (hown : ∀ v ∈ Vs, own v < n) (hr : RoundOk Vs n b own r) : ∀ v ∈ Vs, place own r.ops v < n := by
  intro v hv
  unfold place
  rcases Option.eq_none_or_eq_some (plannedG v (r.ops (own v)).reverse) with hp | ⟨d, hp⟩
  · simp only [hp]; exact hown v hv
  · simp only [hp]
    obtain ⟨-, h2, h3⟩ := hr.ops (own v) (hown v hv) v d (List.mem_reverse.mp (plannedG_mem hp))
    omega

theorem place_planned {Vs : List Gid} {n : Nat} {b : Bool} {own : Gid → Nat} {r : Round}
    (hr : RoundOk Vs n b own r) {p : Nat} (hp : p < n) {v : Gid} (hv : own v = p) :
    (place own r.ops v : Int) = (plannedG v (r.ops p).reverse).getD p := by
  unfold place
  rw [hv]
  rcases Option.eq_none_or_eq_some (plannedG v (r.ops p).reverse) with hq | ⟨d, hq⟩
  · simp only [hq]; rfl
  · simp only [hq, Option.getD_some]
    obtain ⟨-, h2, h3⟩ := hr.ops p hp v d (List.mem_reverse.mp (plannedG_mem hq))
    omega

/-- a round keeps the invariant -/
theorem migrateRound_spec {n : Nat} {G : GG} {own : Gid → Nat} (hG : G.WF n own) {gr : Nat → Graph} {I : Nat → Input}
    {GH : Nat → List Gid} (hinv : ∀ p, p < n → PartDone G own n p (gr p) (I p) (GH p)) {r : Round}
    (hr : RoundOk G.verts n G.co.isSome own r) :
    (∀ v ∈ G.verts, place own r.ops v < n) ∧
    ∃ (gr' : Nat → Graph) (I' : Nat → Input) (GH' : Nat → List Gid),
      migrateRound ((List.range n).map gr) r = .ok ((List.range n).map gr') ∧
      ∀ p, p < n → PartDone G (place own r.ops) n p (gr' p) (I' p) (GH' p) := by
  have hpl : ∀ p, p < n → ∃ plan, (gr p).planG (r.ops p) = .ok plan ∧ ∃ s, PlanRep (I p).verts plan s
      (fun v => plannedG v (r.ops p).reverse) := by
    intro p hp
    obtain ⟨plan, s, e, h⟩ := planG_rep (hinv p hp).inv.rep.core.v (r.ops p) (by
      intro v d hv
      obtain ⟨h1, h2, h3⟩ := hr.ops p hp v d hv
      exact ⟨((hinv p hp).inv.verts v).mpr h1, by omega⟩)
    exact ⟨plan, e, s, h⟩
  haveI : Inhabited Plan := ⟨⟨none, []⟩⟩
  obtain ⟨pl, hpl'⟩ := choose_part hpl
  have hown' := place_lt hG.own hr
  refine ⟨hown', ?_⟩
  obtain ⟨gr', I', GH', e, h⟩ := migrate_step (own' := place own r.ops) hG hown' (fun p hp => (hinv p hp).inv) (pl := pl)
    (by
      intro p hp
      obtain ⟨-, s, h⟩ := hpl' p hp
      refine ⟨s, _, h, ?_⟩
      intro v hv
      exact place_planned hr hp (((hinv p hp).inv.verts v).mp hv).2) hr.env
  refine ⟨gr', I', GH', ?_, h⟩
  unfold migrateRound
  rw [zipIdx_range, mapM_range (G := pl) (fun p hp => (hpl' p hp).1), Outcome.bind_ok]
  exact e

theorem migrateRounds_spec {n : Nat} {G : GG} : ∀ (rs : List Round) {own : Gid → Nat}, G.WF n own →
    ∀ {gr : Nat → Graph} {I : Nat → Input} {GH : Nat → List Gid},
    (∀ p, p < n → PartDone G own n p (gr p) (I p) (GH p)) → RoundsOk G.verts n G.co.isSome own rs →
    G.WF n (placeAll own rs) ∧
    ∃ (gr' : Nat → Graph) (I' : Nat → Input) (GH' : Nat → List Gid),
      migrateRounds ((List.range n).map gr) rs = .ok ((List.range n).map gr') ∧
      ∀ p, p < n → PartDone G (placeAll own rs) n p (gr' p) (I' p) (GH' p) := by
  intro rs
  induction rs with
  | nil => intro own hG gr I GH h _; exact ⟨hG, gr, I, GH, rfl, h⟩
  | cons r rs ih =>
    intro own hG gr I GH h hr
    obtain ⟨hlt, gr1, I1, GH1, e1, h1⟩ := migrateRound_spec hG h hr.1
    have hG1 : G.WF n (place own r.ops) := ⟨hG.some_vertex, hG.nodup, hG.ids, hG.ne, hG.pins, hlt⟩
    obtain ⟨hG2, gr2, I2, GH2, e2, h2⟩ := ih hG1 h1 hr.2
    refine ⟨hG2, gr2, I2, GH2, ?_, h2⟩
    unfold migrateRounds at e2 ⊢
    rw [List.foldlM_cons, e1, Outcome.bind_ok]
    exact e2

end Verif.Agi
