import Verif.Agi.MigWorld
/-!
# One migration of a distributed hypergraph with one edge type
-/
namespace Verif.Agi

section
variable {n : Nat} {G : GG} {own own' : Gid → Nat}

/-- the coordinate phase -/
theorem phase_coords (hG : G.WF n own) {gr : Nat → Graph} {V GH S : Nat → List Gid}
    {EZ : Nat → List (Handle × HEdge)} {pl : Nat → Plan}
    (hpv : ∀ p, p < n → PV G own own' n p (gr p) (V p) (GH p) (EZ p))
    (hpl : ∀ p, p < n → PlanTo (V p) (pl p) (S p) own' p) {ordV ordC : Nat → List Nat} (ho : Orders n ordV)
    (hco : G.co.isSome = true → ∀ q, q < n → ordC q = ordV q)
    (hown : ∀ p, p < n → ∀ v ∈ S p, own' v < n) :
    migrateCoords ((List.range n).map gr) ((List.range n).map pl)
      ((List.range n).map (fun p => (S p).map (vh (V p ++ GH p))))
      ((List.range n).map (fun p => (((V p).filter (fun v => decide (v ∉ S p)) ++
        arrivals S (fun v => (own' v : Int)) (ordV p) p).length))) ordC =
      .ok ((List.range n).map (fun p => G.co.map (fun c => ((V p).filter (fun v => decide (v ∉ S p)) ++
        arrivals S (fun v => (own' v : Int)) (ordV p) p).map c))) := by
  unfold migrateCoords
  rcases Option.eq_none_or_eq_some G.co with hc | ⟨c, hc⟩
  · have hany : ((List.range n).map gr).any (fun g => g.coords.isSome) = false := by
      rw [List.any_eq_false]
      intro g hg
      obtain ⟨p, hp, rfl⟩ := List.mem_map.mp hg
      rw [(hpv p (List.mem_range.mp hp)).cnone hc]; simp
    rw [hany, hc, if_neg (by simp), List.map_map]
    rfl
  · have hany : ((List.range n).map gr).any (fun g => g.coords.isSome) = true := by
      obtain ⟨v, hv⟩ := List.exists_mem_of_ne_nil _ hG.some_vertex
      have hp := hG.own v hv
      rw [List.any_eq_true]
      refine ⟨gr (own v), List.mem_map.mpr ⟨_, List.mem_range.mpr hp, rfl⟩, ?_⟩
      refine (hpv _ hp).csome (by rw [hc]; simp) ?_
      intro hcon
      have := ((hpv _ hp).vmem v).mpr ⟨hv, rfl⟩
      rw [hcon] at this; simp at this
    rw [hany, if_pos rfl, zip_range, zip_range]
    have hctx := fun p hp => (hpv p hp).mctx (hpl p hp)
    rw [mapM_range (G := fun p => ((V p).filter (fun v => decide (v ∉ S p))).map c) (fun p hp =>
      keep_eq (hctx p hp) _ c ((hpv p hp).coord c hc)), Outcome.bind_ok]
    rw [mapM_range (G := fun p => (S p).map (fun v => ((own' v : Int), c v))) (fun p hp =>
      sendEach_eq (hctx p hp) _ c ((hpv p hp).coord c hc)), Outcome.bind_ok]
    rw [exchange_range (by
      intro p hp m hm
      obtain ⟨v, hv, rfl⟩ := List.mem_map.mp hm
      have := hown p hp v hv
      constructor <;> simp only <;> omega), Outcome.bind_ok, zip_range, List.map_map]
    have hcs : (List.range n).map ((fun x : List Coord × List (Nat × Coord) => x.1 ++ x.2.map Prod.snd) ∘ (fun p =>
        (((V p).filter (fun v => decide (v ∉ S p))).map c,
         inbox ((List.range n).map (fun p => (S p).map (fun v => ((own' v : Int), c v)))) (ordC p) p))) =
        (List.range n).map (fun p => ((V p).filter (fun v => decide (v ∉ S p)) ++
          arrivals S (fun v => (own' v : Int)) (ordV p) p).map c) := by
      apply List.map_congr_left
      intro p hp
      have hp' := List.mem_range.mp hp
      simp only [Function.comp]
      rw [hco (by rw [hc]; rfl) p hp', inbox_values S (fun v => (own' v : Int)) c ho hp', List.map_append]
    simp only [hcs]
    rw [zip_range, if_pos, if_pos, hc]
    · simp [List.map_map, Function.comp_def]
    · intro x hx
      obtain ⟨p, -, rfl⟩ := List.mem_map.mp hx
      simp
    · intro x hx
      obtain ⟨p, -, rfl⟩ := List.mem_map.mp hx
      simp

/-- **One migration**: from parts that store `G` placed by `own`, with plans that describe the placement
`own'`, `migrate` succeeds and the parts then store `G` placed by `own'`. -/
theorem migrate_step (hG : G.WF n own) (hown' : ∀ v ∈ G.verts, own' v < n) {gr : Nat → Graph} {I : Nat → Input}
    {GH : Nat → List Gid} (hinv : ∀ p, p < n → PartInv G own n p (gr p) (I p) (GH p)) {pl : Nat → Plan}
    (hpl : ∀ p, p < n → ∃ s f, PlanRep (I p).verts (pl p) s f ∧
      ∀ v ∈ (I p).verts, (own' v : Int) = (f v).getD p) {env : MigrateEnv} (henv : EnvOk n G.co.isSome env) :
    ∃ (gr' : Nat → Graph) (I' : Nat → Input) (GH' : Nat → List Gid),
      migrate ((List.range n).map gr) ((List.range n).map pl) env = .ok ((List.range n).map gr') ∧
      ∀ p, p < n → PartDone G own' n p (gr' p) (I' p) (GH' p) := by
  have hG' : G.WF n own' := ⟨hG.some_vertex, hG.nodup, hG.ids, hG.ne, hG.pins, hown'⟩
  -- the collective decisions
  obtain ⟨v0, hv0⟩ := List.exists_mem_of_ne_nil _ hG.some_vertex
  have hp0 := hG.own v0 hv0
  have hstrict0 : (gr (own v0)).isHyper = true ∧ (gr (own v0)).numTypes = 1 := by
    have h := hinv _ hp0
    rcases h.shape with ⟨h1, e, h2, -⟩ | ⟨h1, -, -⟩
    · refine ⟨by rw [h.rep.core.hyp, h1], by rw [h.rep.core.numTypes, h2]; rfl⟩
    · have := (h.verts v0).mpr ⟨hv0, rfl⟩
      rw [h1] at this; simp at this
  have hhyper : ((List.range n).map gr).any (fun g => g.isHyper) = true := by
    rw [List.any_eq_true]
    exact ⟨_, List.mem_map.mpr ⟨_, List.mem_range.mpr hp0, rfl⟩, hstrict0.1⟩
  have hnt : ((List.range n).map gr).foldl (fun m g => max m g.numTypes) 0 = 1 := by
    obtain ⟨-, h2, h3⟩ := foldl_max Graph.numTypes ((List.range n).map gr) 0
    have a := h2 (gr (own v0)) (List.mem_map.mpr ⟨_, List.mem_range.mpr hp0, rfl⟩)
    have b := h3 1 (by omega) (by
      intro g hg
      obtain ⟨p, hp, rfl⟩ := List.mem_map.mp hg
      have h := hinv p (List.mem_range.mp hp)
      rw [h.rep.core.numTypes]
      rcases h.shape with ⟨-, e, h2, -⟩ | ⟨-, h2, -⟩
      · rw [h2]; simp
      · rw [h2]; simp)
    rw [hstrict0.2] at a
    omega
  -- the views
  have hpv0 : ∀ p, p < n → ∃ ez, PV G own own n p { gr p with isHyper := true } (I p).verts (GH p) ez :=
    fun p hp => (hinv p hp).pv hG
  obtain ⟨EZ, hEZ⟩ := choose_part hpv0
  -- cleanup
  have hcl : ∀ p, p < n → ∃ r : Plan × List Gid, ({ gr p with isHyper := true } : Graph).cleanup (pl p) = .ok r.1 ∧
      PlanTo (I p).verts r.1 r.2 own' p := by
    intro p hp
    obtain ⟨s, f, h1, h2⟩ := hpl p hp
    obtain ⟨plan', s', e, h3⟩ := cleanup_to (own' := own') (hEZ p hp).view.v.nl
      (List.nodup_append.mp (hEZ p hp).view.v.nodup).1 (hEZ p hp).rank h1 h2
    exact ⟨(plan', s'), e, h3⟩
  haveI : Inhabited (Plan × List Gid) := ⟨(⟨none, []⟩, [])⟩
  obtain ⟨R, hR⟩ := choose_part hcl
  have hpl' : ∀ p, p < n → PlanTo (I p).verts (R p).1 (R p).2 own' p := fun p hp => (hR p hp).2
  -- owners
  obtain ⟨U, IU, gr1, e1, e2, e3, hpv⟩ := phase_owner (S := fun p => (R p).2) (pl := fun p => (R p).1) hG
    (fun p hp => hEZ p hp) hpl' henv.upd
  have hctx := fun p hp => (hpv p hp).mctx (hpl' p hp)
  obtain ⟨gm, e4, hgm⟩ := phase_keep hpv hpl'
  obtain ⟨es, gm', e5, hes⟩ := phase_edges hG hown' hpv hpl' (env := env) (henv.edges 0) (fun p l => henv.shuffle p 0 l) gm hgm
  have hSm : ∀ p, p < n → ∀ v, v ∈ (R p).2 ↔ (v ∈ G.verts ∧ own v = p) ∧ own' v ≠ p := by
    intro p hp v
    obtain ⟨f, -, -, hs⟩ := hpl' p hp
    rw [hs, (hpv p hp).vmem]
  have hSown : ∀ p, p < n → ∀ v ∈ (R p).2, own' v < n := fun p hp v hv => hown' v ((hSm p hp v).mp hv).1.1
  -- the new vertex lists
  let W : Nat → List Gid := fun p => ((I p).verts.filter (fun v => decide (v ∉ (R p).2)) ++
    arrivals (fun p => (R p).2) (fun v => (own' v : Int)) (env.verts p) p)
  have hW : ∀ p, p < n → (W p).Nodup ∧ ∀ v, v ∈ W p ↔ v ∈ G.verts ∧ own' v = p := by
    intro p hp
    have hnd : (I p).verts.Nodup := (List.nodup_append.mp (hpv p hp).view.v.nodup).1
    have harr := fun v => @mem_arrivals n (fun p => (R p).2) (fun v => (own' v : Int)) env.verts henv.verts p hp v
    constructor
    · rw [List.nodup_append]
      refine ⟨hnd.filter _, arrivals_nodup henv.verts hp (fun q hq => (hctx q hq).snodup) ?_, ?_⟩
      · intro q q' hq hq' v h1 h2
        have a := ((hSm q hq v).mp h1).1.2
        have b := ((hSm q' hq' v).mp h2).1.2
        omega
      · intro v hv w hw he
        subst he
        rw [List.mem_filter, decide_eq_true_iff] at hv
        obtain ⟨h1, q, hq, h2⟩ := (harr v).mp hw
        have a := ((hSm q hq v).mp h2)
        have b := ((hpv p hp).vmem v).mp hv.1
        omega
    · intro v
      rw [List.mem_append, List.mem_filter, decide_eq_true_iff, harr, (hpv p hp).vmem]
      constructor
      · rintro (⟨⟨h1, h2⟩, h3⟩ | ⟨h1, q, hq, h2⟩)
        · refine ⟨h1, ?_⟩
          by_contra hc
          exact h3 ((hSm p hp v).mpr ⟨⟨h1, h2⟩, hc⟩)
        · refine ⟨((hSm q hq v).mp h2).1.1, by omega⟩
      · rintro ⟨h1, h2⟩
        by_cases hc : own v = p
        · left; refine ⟨⟨h1, hc⟩, ?_⟩
          intro hs; exact ((hSm p hp v).mp hs).2 h2
        · right
          refine ⟨by omega, own v, hG.own v h1, (hSm _ (hG.own v h1) v).mpr ⟨⟨h1, rfl⟩, by omega⟩⟩
  obtain ⟨g1, g2, g3, GH', f1, f2, f3, hdone⟩ := phase_final (gr := gr1) (gm := gm') (es := es) hG'
    (fun p hp => (hpv p hp).rank) (fun p hp => (hpv p hp).peers) hW hes henv.tag1 henv.tag2
  refine ⟨g3, fun p => newInput G (W p) (es p), GH', ?_, hdone⟩
  have hcoords := phase_coords (S := fun p => (R p).2) (pl := fun p => (R p).1) hG hpv hpl' henv.verts
    henv.coords hSown
  unfold migrate
  simp only [hhyper, hnt]
  rw [List.map_map, zip_range]
  rw [mapM_range (G := fun p => (R p).1) (fun p hp => (hR p hp).1), Outcome.bind_ok, zip_range]
  simp only [Function.comp_def]
  rw [e1, Outcome.bind_ok, e2, Outcome.bind_ok, zip_range, e3, Outcome.bind_ok, zip_range]
  rw [mapM_range (f := fun x : Graph × Plan => x.1.affectedVerts x.2) (F := fun p => (gr1 p, (R p).1))
    (G := fun p => (R p).2.map (vh ((I p).verts ++ GH p))) (fun p hp => affectedVerts_eq (hctx p hp)),
    Outcome.bind_ok, zip_range]
  rw [mapM_range (G := fun p => ((I p).verts.filter (fun v => decide (v ∉ (R p).2))).map (newRec G)) (fun p hp =>
    keep_eq (hctx p hp) _ (newRec G) (hpv p hp).vrec), Outcome.bind_ok]
  rw [e4, Outcome.bind_ok]
  rw [mapM_range (G := fun p => (R p).2.map (fun v => ((own' v : Int), newRec G v))) (fun p hp =>
    sendEach_eq (hctx p hp) _ (newRec G) (hpv p hp).vrec), Outcome.bind_ok]
  rw [exchange_range (by
    intro p hp m hm
    obtain ⟨v, hv, rfl⟩ := List.mem_map.mp hm
    have := hSown p hp v hv
    constructor <;> simp only <;> omega), Outcome.bind_ok, zip_range]
  have hvs : ((List.range n).map (fun p =>
      (((I p).verts.filter (fun v => decide (v ∉ (R p).2))).map (newRec G),
       inbox ((List.range n).map (fun p => (R p).2.map (fun v => ((own' v : Int), newRec G v)))) (env.verts p) p))).map
         (fun x : List VRec × List (Nat × VRec) => x.1 ++ x.2.map Prod.snd) =
      (List.range n).map (fun p => (W p).map (newRec G)) := by
    rw [List.map_map]
    apply List.map_congr_left
    intro p hp
    have hp' := List.mem_range.mp hp
    simp only [Function.comp, W]
    rw [inbox_values (fun p => (R p).2) (fun v => (own' v : Int)) (newRec G) henv.verts hp', List.map_append]
  simp only [hvs]
  have hlen : ((List.range n).map (fun p => (W p).map (newRec G))).map List.length =
      (List.range n).map (fun p => (W p).length) := by
    rw [List.map_map]; apply List.map_congr_left; intro p _; simp
  rw [hlen, hcoords, Outcome.bind_ok]
  rw [show List.range 1 = [0] from rfl, List.foldlM_cons, e5, Outcome.bind_ok, List.foldlM_nil, Outcome.pure_eq,
    Outcome.bind_ok, zip_range, zip_range, zip_range]
  have hm : ((List.range n).map (fun p => ([EAcc.ofEdges (es p) (gm' p)], gm' p))).map Prod.snd =
      (List.range n).map gm' := by rw [List.map_map]; rfl
  rw [f1, Outcome.bind_ok, hm, f2, Outcome.bind_ok, zip_range]
  exact f3

end
end Verif.Agi
