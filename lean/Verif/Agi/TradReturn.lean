import Verif.Agi.TradStep
/-!
# Migration of traditional graphs returns: one round
-/
namespace Verif.Agi
open Verif.Io (grouped grouped_perm grouped_length)

/-- every part that relies on the place of a moving vertex is told: if the destination of an edge between two
parts moves, and does not end up with the source, then some edge leads back from it to the part of the source -/
def Told (own own' : Gid → Nat) (T : List (List Gid)) : Prop :=
  ∀ x ∈ T, own (src x) ≠ own (dst x) → own' (dst x) ≠ own (dst x) → own' (dst x) ≠ own' (src x) →
    ∃ y ∈ T, src y = dst x ∧ own (dst y) = own (src x)

/-- a part of a traditional graph between two calls -/
structure TState (D : VD) (T : List (List Gid)) (own : Gid → Nat) (n p : Nat) (g : Graph) (V : List Gid) : Prop where
  loc : LRep D own p g V
  peers : g.peers = n
  arcs : ∃ ghosts ids es wgts, TPart T own p g V ghosts ids es wgts ∧ ORep g ghosts (fun v => (own v : Int))

section
variable {n : Nat} {D : VD} {own own' : Gid → Nat} {T : List (List Gid)}

theorem ofList_inj {α : Type} {a b : List α} (h : Mem.ofList a = Mem.ofList b) : a = b := by
  unfold Mem.ofList at h
  exact List.map_injective_iff.mpr (fun _ _ h => Option.some.inj h) h

/-- the coordinate phase -/
theorem coords_ok (hn : 0 < n) {gr : Nat → Graph} {V S : Nat → List Gid} {pl : Nat → Plan}
    (hl : ∀ p, p < n → LRep D own p (gr p) (V p)) (hpl : ∀ p, p < n → PlanTo (V p) (pl p) (S p) own' p)
    {ordV ordC : Nat → List Nat} (ho : Orders n ordV)
    (hco : D.co.isSome = true → ∀ q, q < n → ordC q = ordV q) (hown : ∀ p, p < n → ∀ v ∈ S p, own' v < n) :
    migrateCoords ((List.range n).map gr) ((List.range n).map pl)
      ((List.range n).map (fun p => (S p).map (lh (V p))))
      ((List.range n).map (fun p => (((V p).filter (fun v => decide (v ∉ S p)) ++
        arrivals S (fun v => (own' v : Int)) (ordV p) p).length))) ordC =
      .ok ((List.range n).map (fun p => D.co.map (fun c => ((V p).filter (fun v => decide (v ∉ S p)) ++
        arrivals S (fun v => (own' v : Int)) (ordV p) p).map c))) := by
  unfold migrateCoords
  rcases hc : D.co with _ | c
  · have hany : ((List.range n).map gr).any (fun g => g.coords.isSome) = false := by
      rw [List.any_eq_false]
      intro g hg
      obtain ⟨p, hp, rfl⟩ := List.mem_map.mp hg
      rw [(hl p (List.mem_range.mp hp)).coords, hc]; simp
    rw [hany, if_neg (by simp), List.map_map]
    rfl
  · have hany : ((List.range n).map gr).any (fun g => g.coords.isSome) = true := by
      rw [List.any_eq_true]
      refine ⟨gr 0, List.mem_map.mpr ⟨_, List.mem_range.mpr hn, rfl⟩, ?_⟩
      rw [(hl _ hn).coords, hc]; rfl
    rw [hany, if_pos rfl, zip_range, zip_range]
    rw [mapM_range (G := fun p => ((V p).filter (fun v => decide (v ∉ S p))).map c) (fun p hp =>
      (hl p hp).keep (fun v hv => by obtain ⟨f, -, -, hs⟩ := hpl p hp; exact ((hs v).mp hv).1) _ c
        (fun v hv => (hl p hp).coord hc hv)), Outcome.bind_ok]
    rw [mapM_range (G := fun p => (S p).map (fun v => ((own' v : Int), c v))) (fun p hp =>
      (hl p hp).sendEach (hpl p hp) _ c (fun v hv => (hl p hp).coord hc hv)), Outcome.bind_ok]
    rw [exchange_range (by
      intro p hp m hm
      obtain ⟨v, hv, rfl⟩ := List.mem_map.mp hm
      have := hown p hp v hv
      constructor <;> simp only <;> omega), Outcome.bind_ok, zip_range, List.map_map]
    have hcs : (List.range n).map ((fun x : List Coord × List (Nat × Coord) => x.1 ++ x.2.map Prod.snd) ∘ (fun p =>
        (((V p).filter (fun v => decide (v ∉ S p))).map c,
         inbox ((List.range n).map (fun p => (S p).map (fun v => ((own' v : Int), c v)))) (ordC p) p))) =
        (List.range n).map (fun p => ((V p).filter (fun v => decide (v ∉ S p)) ++
          arrivals S (fun v => (own' v : Int)) (ordV p) p).map c) := by
      apply List.map_congr_left
      intro p hp
      have hp' := List.mem_range.mp hp
      simp only [Function.comp]
      rw [hco (by rw [hc]; rfl) p hp', inbox_values S (fun v => (own' v : Int)) c ho hp', List.map_append]
    simp only [hcs]
    rw [zip_range, if_pos, if_pos]
    · simp [List.map_map, Function.comp_def]
    · intro x hx
      obtain ⟨p, -, rfl⟩ := List.mem_map.mp hx
      simp
    · intro x hx
      obtain ⟨p, -, rfl⟩ := List.mem_map.mp hx
      simp

/-- the new owners of ghosts are announced -/
theorem owners_ok (hown : ∀ v ∈ D.verts, own v < n) (hT : ArcsIn D.verts T) {gr : Nat → Graph}
    {V GH ID : Nat → List Gid} {ES : Nat → List (List Gid)} {WG : Nat → List Wgt} {S : Nat → List Gid} {pl : Nat → Plan}
    (hl : ∀ p, p < n → LRep D own p (gr p) (V p))
    (ht : ∀ p, p < n → TPart T own p (gr p) (V p) (GH p) (ID p) (ES p) (WG p))
    (ho : ∀ p, p < n → ORep (gr p) (GH p) (fun v => (own v : Int)))
    (hpl : ∀ p, p < n → PlanTo (V p) (pl p) (S p) own' p) {ord : Nat → List Nat} (hord : Orders n ord) :
    ∃ (U : Nat → List (Part × (Gid × Part))) (I : Nat → List (Nat × (Gid × Part))) (gr' : Nat → Graph),
      ((List.range n).map (fun p => (gr p, pl p))).mapM (fun x => x.1.ownerUpdates x.2) = .ok ((List.range n).map U) ∧
      exchange ((List.range n).map U) ord = .ok ((List.range n).map I) ∧
      ((List.range n).map (fun p => (gr p, I p))).mapM (fun x => x.2.foldlM Graph.applyOwner x.1) =
        .ok ((List.range n).map gr') ∧
      ∀ p, p < n → gr' p = { gr p with owners := (gr' p).owners } ∧ ∃ o : Gid → Part, ORep (gr' p) (GH p) o ∧
        ∀ w, w ∈ D.verts → own w ≠ p →
          (own' w = own w ∨ ∃ y ∈ T, src y = w ∧ own (dst y) = p) → o w = (own' w : Int) := by
  have hon : ∀ p, p < n → ArcsOn (V p) (ES p) := fun p hp => arcsOn_arcs (hl p hp) hT (ht p hp).perm
  have hesm : ∀ p, p < n → ∀ x, x ∈ ES p ↔ x ∈ T ∧ own (src x) = p := by
    intro p hp x
    rw [(ht p hp).perm.mem_iff, List.mem_filter, decide_eq_true_iff]
  have hSm : ∀ p, p < n → ∀ v, v ∈ S p ↔ (v ∈ D.verts ∧ own v = p) ∧ own' v ≠ p := by
    intro p hp v
    obtain ⟨f, -, -, hs⟩ := hpl p hp
    rw [hs, (hl p hp).mem]
  have hdstV : ∀ x ∈ T, dst x ∈ D.verts := by
    intro x hx
    obtain ⟨u, -, w, hw, -, rfl⟩ := hT x hx
    exact hw
  have h1 : ∀ p, p < n → ∃ U, (gr p).ownerUpdates (pl p) = .ok U ∧ ∀ m, m ∈ U ↔
      ∃ v ∈ S p, ∃ x ∈ T, src x = v ∧ own (dst x) ≠ p ∧ m = ((own (dst x) : Int), (v, (own' v : Int))) := by
    intro p hp
    have c := (ht p hp).rep
    obtain ⟨U, e, hU⟩ := ownerUpdates_trad (o := fun u => if u ∈ V p then (p : Int) else (own u : Int)) c (hon p hp) (hpl p hp) (by
      intro u hu
      rw [show (gr p).owner (vh (V p ++ GH p) u) = _ from owner_eq c.v (ho p hp) hu]
      unfold ownerOf
      rw [(hl p hp).rank])
    refine ⟨U, e, fun m => ?_⟩
    rw [hU]
    have hif : ∀ x ∈ T, (if dst x ∈ V p then (p : Int) else (own (dst x) : Int)) = (own (dst x) : Int) := by
      intro x hx
      split
      · rename_i h
        have := (((hl p hp).mem _).mp h).2
        omega
      · rfl
    constructor
    · rintro ⟨v, hv, x, hx, h2, h3, rfl⟩
      have hxT := ((hesm p hp x).mp hx).1
      simp only [hif x hxT, (hl p hp).rank] at h3 ⊢
      exact ⟨v, hv, x, hxT, h2, by omega, rfl⟩
    · rintro ⟨v, hv, x, hx, h2, h3, rfl⟩
      have hov := ((hSm p hp v).mp hv).1.2
      refine ⟨v, hv, x, (hesm p hp x).mpr ⟨hx, by rw [h2]; exact hov⟩, h2, ?_, ?_⟩
      · simp only [hif x hx, (hl p hp).rank]; omega
      · simp only [hif x hx]
  obtain ⟨U, hU⟩ := choose_part h1
  have hrange : ∀ p, p < n → ∀ m ∈ U p, 0 ≤ m.1 ∧ m.1 < (n : Int) := by
    intro p hp m hm
    obtain ⟨v, hv, x, hx, h2, h3, rfl⟩ := ((hU p hp).2 m).mp hm
    have := hown _ (hdstV x hx)
    constructor <;> simp only <;> omega
  have h3 : ∀ q, q < n → ∃ g', (inbox ((List.range n).map U) (ord q) q).foldlM Graph.applyOwner (gr q) = .ok g' ∧
      g' = { gr q with owners := g'.owners } ∧ ∃ o : Gid → Part, ORep g' (GH q) o ∧
        ∀ w, w ∈ D.verts → own w ≠ q →
          (own' w = own w ∨ ∃ y ∈ T, src y = w ∧ own (dst y) = q) → o w = (own' w : Int) := by
    intro q hq
    have hmem : ∀ x, x ∈ inbox ((List.range n).map U) (ord q) q ↔ x.1 < n ∧
        ∃ v ∈ S x.1, ∃ y ∈ T, src y = v ∧ own (dst y) ≠ x.1 ∧ own (dst y) = q ∧ x.2 = (v, (own' v : Int)) := by
      intro x
      rw [mem_inbox_range hord hq]
      constructor
      · rintro ⟨hx1, hx2⟩
        refine ⟨hx1, ?_⟩
        obtain ⟨v, hv, y, hy, a, b, e⟩ := ((hU x.1 hx1).2 _).mp hx2
        rw [Prod.mk.injEq] at e
        exact ⟨v, hv, y, hy, a, b, by omega, e.2⟩
      · rintro ⟨hx1, v, hv, y, hy, a, b, c, e⟩
        refine ⟨hx1, ((hU x.1 hx1).2 _).mpr ⟨v, hv, y, hy, a, b, ?_⟩⟩
        rw [e, c]
    obtain ⟨g', e, he, hor⟩ := applyOwner_any (o' := fun v => (own' v : Int)) (ht q hq).rep.v (ho q hq)
      (inbox ((List.range n).map U) (ord q) q)
      (by
        intro hne hV
        obtain ⟨x, hx⟩ := List.exists_mem_of_ne_nil _ hne
        obtain ⟨-, v, -, y, hy, -, -, h4, -⟩ := (hmem x).mp hx
        have := ((hl q hq).mem (dst y)).mpr ⟨hdstV y hy, h4⟩
        rw [hV] at this; simp at this)
      (by
        intro x hx
        obtain ⟨-, v, -, y, -, -, -, -, h5⟩ := (hmem x).mp hx
        rw [h5])
    refine ⟨g', e, he, _, hor, ?_⟩
    intro w hw hwq hor'
    have hback : (∃ m ∈ inbox ((List.range n).map U) (ord q) q, m.2.1 = w) ∨ (own w : Int) = (own' w : Int) := by
      by_cases hst : own' w = own w
      · right; omega
      · left
        rcases hor' with h | ⟨y, hy, hys, hyd⟩
        · exact absurd h hst
        · have hwn := hown w hw
          refine ⟨(own w, (w, (own' w : Int))), (hmem _).mpr ⟨hwn, w, (hSm _ hwn w).mpr ⟨⟨hw, rfl⟩, hst⟩, y, hy, hys, ?_, hyd, rfl⟩, rfl⟩
          simp only
          omega
    split
    · rfl
    · rename_i hno
      rcases hback with h | h
      · exact absurd h hno
      · exact h
  haveI : Inhabited Graph := ⟨emptyGraph 0 0⟩
  obtain ⟨gr', hgr'⟩ := choose_part h3
  refine ⟨U, fun q => inbox ((List.range n).map U) (ord q) q, gr', ?_, exchange_range hrange, ?_, fun p hp => (hgr' p hp).2⟩
  · exact mapM_range (fun p hp => (hU p hp).1)
  · exact mapM_range (fun p hp => (hgr' p hp).1)

/-- **One migration of a traditional graph returns** if every part that relies on the place of a moving vertex is
told. -/
theorem round_trad_ok (hn : 0 < n) (hnd : D.verts.Nodup) (hown : ∀ v ∈ D.verts, own v < n)
    (hown' : ∀ v ∈ D.verts, own' v < n) (hT : ArcsIn D.verts T) (htold : Told own own' T)
    {gr : Nat → Graph} {V : Nat → List Gid} (hst : ∀ p, p < n → TState D T own n p (gr p) (V p)) {pl : Nat → Plan}
    (hpl : ∀ p, p < n → ∃ s f, PlanRep (V p) (pl p) s f ∧ ∀ v ∈ V p, (own' v : Int) = (f v).getD p)
    {env : MigrateEnv} (henv : EnvOk n D.co.isSome env) :
    ∃ (gr' : Nat → Graph) (V' : Nat → List Gid),
      migrate ((List.range n).map gr) ((List.range n).map pl) env = .ok ((List.range n).map gr') ∧
      ∀ p, p < n → TState D (T.filter (fun x => decide (¬ Lost own own' x))) own' n p (gr' p) (V' p) := by
  have hl := fun p hp => (hst p hp).loc
  have ht' : ∀ p, p < n → ∃ r : List Gid × List Gid × List (List Gid) × List Wgt,
      TPart T own p (gr p) (V p) r.1 r.2.1 r.2.2.1 r.2.2.2 ∧ ORep (gr p) r.1 (fun v => (own v : Int)) := by
    intro p hp
    obtain ⟨a, b, c, d, h⟩ := (hst p hp).arcs
    exact ⟨(a, b, c, d), h⟩
  obtain ⟨R, hR⟩ := choose_part ht'
  have hhy : ((List.range n).map gr).any (fun g => g.isHyper) = false := by
    rw [List.any_eq_false]
    intro g hg
    obtain ⟨p, hp, rfl⟩ := List.mem_map.mp hg
    rw [(hR p (List.mem_range.mp hp)).1.rep.hyp]; simp
  have hnt : ((List.range n).map gr).foldl (fun m g => max m g.numTypes) 0 = 1 := by
    obtain ⟨-, h2, h3⟩ := foldl_max Graph.numTypes ((List.range n).map gr) 0
    have a := h2 (gr 0) (List.mem_map.mpr ⟨_, List.mem_range.mpr hn, rfl⟩)
    have b := h3 1 (by omega) (by
      intro g hg
      obtain ⟨p, hp, rfl⟩ := List.mem_map.mp hg
      rw [(hR p (List.mem_range.mp hp)).1.rep.numTypes]; simp)
    rw [(hR 0 hn).1.rep.numTypes] at a
    simp only [List.length_cons, List.length_nil] at a
    omega
  have hgs : ((List.range n).map gr).map (fun g => ({ g with isHyper := false } : Graph)) = (List.range n).map gr := by
    rw [List.map_map]
    apply List.map_congr_left
    intro p hp
    have := (hR p (List.mem_range.mp hp)).1.rep.hyp
    simp only [Function.comp]
    generalize gr p = g at this
    cases g
    simp only at this
    subst this
    rfl
  -- cleanup
  have hcl : ∀ p, p < n → ∃ r : Plan × List Gid, (gr p).cleanup (pl p) = .ok r.1 ∧ PlanTo (V p) r.1 r.2 own' p := by
    intro p hp
    obtain ⟨s, f, h1, h2⟩ := hpl p hp
    obtain ⟨plan', s', e, h3⟩ := cleanup_to (own' := own') (hl p hp).nl (hl p hp).nodup (hl p hp).rank h1 h2
    exact ⟨(plan', s'), e, h3⟩
  haveI : Inhabited (Plan × List Gid) := ⟨(⟨none, []⟩, [])⟩
  obtain ⟨Q, hQ⟩ := choose_part hcl
  have hpl' : ∀ p, p < n → PlanTo (V p) (Q p).1 (Q p).2 own' p := fun p hp => (hQ p hp).2
  have hSm : ∀ p, p < n → ∀ v, v ∈ (Q p).2 ↔ (v ∈ D.verts ∧ own v = p) ∧ own' v ≠ p := by
    intro p hp v
    obtain ⟨f, -, -, hs⟩ := hpl' p hp
    rw [hs, (hl p hp).mem]
  have hSown : ∀ p, p < n → ∀ v ∈ (Q p).2, own' v < n := fun p hp v hv => hown' v ((hSm p hp v).mp hv).1.1
  -- owners
  obtain ⟨U, IU, gr1, e1, e2, e3, h1⟩ := owners_ok (S := fun p => (Q p).2) (pl := fun p => (Q p).1) hown hT hl
    (fun p hp => (hR p hp).1) (fun p hp => (hR p hp).2) hpl' henv.upd
  have hc1 : ∀ p, p < n → CRep (gr1 p) false (V p) (R p).1 [⟨(R p).2.1, (R p).2.2.1, (R p).2.2.2⟩] := by
    intro p hp
    rw [(h1 p hp).1]
    exact keepsC_with (gr p) (gr1 p).owners (gr p).ghostWeights (gr p).originalOwners (gr p).coords (hR p hp).1.rep
  have hl1 : ∀ p, p < n → LRep D own p (gr1 p) (V p) := by
    intro p hp
    rw [(h1 p hp).1]
    exact (hl p hp).keeps ⟨rfl, rfl, rfl, rfl, rfl, rfl, rfl, fun _ _ h => h⟩
  have hpe1 : ∀ p, p < n → (gr1 p).peers = n := by
    intro p hp
    rw [(h1 p hp).1]
    exact (hst p hp).peers
  have hon : ∀ p, p < n → ArcsOn (V p) (R p).2.2.1 := fun p hp => arcsOn_arcs (hl p hp) hT (hR p hp).1.perm
  have hesm : ∀ p, p < n → ∀ x, x ∈ (R p).2.2.1 ↔ x ∈ T ∧ own (src x) = p := by
    intro p hp x
    rw [(hR p hp).1.perm.mem_iff, List.mem_filter, decide_eq_true_iff]
  -- what part `p` knows about the other end of its edges
  have h1' : ∀ p, p < n → ∃ o : Gid → Part,
      (∀ v ∈ V p ++ (R p).1, (gr1 p).owner (vh (V p ++ (R p).1) v) = .ok (if v ∈ V p then (p : Int) else o v)) ∧
      ∀ x ∈ (R p).2.2.1, dst x ∉ V p → own' (dst x) ≠ own' (src x) → o (dst x) = (own' (dst x) : Int) := by
    intro p hp
    obtain ⟨-, o, ho, hk⟩ := h1 p hp
    refine ⟨o, ?_, ?_⟩
    · intro v hv
      rw [show (gr1 p).owner (vh (V p ++ (R p).1) v) = _ from owner_eq (hc1 p hp).v ho hv]
      unfold ownerOf
      rw [(hl1 p hp).rank]
    · intro x hx hd hne
      obtain ⟨hxT, hxp⟩ := (hesm p hp x).mp hx
      obtain ⟨u, hu, w, hw, -, rfl⟩ := hT x hxT
      have hsu : src [u, w] = u := rfl
      have hdw : dst [u, w] = w := rfl
      change own u = p at hxp
      change w ∉ V p at hd
      change own' w ≠ own' u at hne
      change o w = _
      have hwp : own w ≠ p := fun hc => hd (((hl p hp).mem w).mpr ⟨hw, hc⟩)
      refine hk w hw hwp ?_
      by_cases hs : own' w = own w
      · exact .inl hs
      · right
        obtain ⟨y, hy, ha, hb⟩ := htold _ hxT (by rw [hsu, hdw]; omega) (by rw [hdw]; exact hs) (by rw [hsu, hdw]; exact hne)
        rw [hdw] at ha
        rw [hsu, hxp] at hb
        exact ⟨y, hy, ha, hb⟩
  obtain ⟨o, ho⟩ := choose_part h1'
  -- kept
  have hkeep : ∀ p, p < n → ∃ a, (gr1 p).keepAllEdges (Q p).1 1 = .ok ([a], a.ghosts) ∧ Knows p own' a.pins a.ghosts ∧
      EOk a ((grouped (V p) (R p).2.2.1).filter (fun x => decide (¬ ∃ v ∈ x, v ∈ (Q p).2))) := by
    intro p hp
    obtain ⟨a, e, h⟩ := keepEdges_ok (hc1 p hp) (hon p hp) (hl1 p hp).rank (hpl' p hp) (ho p hp).1 (by
      intro x hx hns v hv hne
      have hxe := mem_grouped hx
      obtain ⟨hxT, hxp⟩ := (hesm p hp x).mp hxe
      obtain ⟨u, hu, w, hw, hne', rfl⟩ := hT x hxT
      have hsu : src [u, w] = u := rfl
      have hdw : dst [u, w] = w := rfl
      rw [hsu] at hxp
      have huk : own' u = p := by
        by_contra hc
        exact hns ⟨u, by simp, (hSm p hp u).mpr ⟨⟨hu, hxp⟩, hc⟩⟩
      simp only [List.mem_cons, List.not_mem_nil, or_false] at hv
      rcases hv with rfl | rfl
      · exact absurd huk hne
      · by_cases hwV : v ∈ V p
        · exact absurd ⟨v, by simp, (hSm p hp v).mpr ⟨((hl p hp).mem v).mp hwV, hne⟩⟩ hns
        · rw [if_neg hwV]
          have := (ho p hp).2 [u, v] hxe (by rw [hdw]; exact hwV) (by rw [hsu, hdw, huk]; exact hne)
          rw [hdw] at this
          exact this)
    refine ⟨a, ?_, h, keepEdges_trad (hc1 p hp) (hon p hp) (hpl' p hp) e⟩
    unfold Graph.keepAllEdges
    rw [show List.range 1 = [0] from rfl, List.foldlM_cons, e, Outcome.bind_ok]
    rfl
  haveI : Inhabited EAcc := ⟨EAcc.empty GMap.empty⟩
  obtain ⟨A, hA⟩ := choose_part hkeep
  -- sent
  have hsend : ∀ p, p < n → ∃ out, (do
      let es ← (if 0 < (gr1 p).numTypes then (gr1 p).affectedEdges ((Q p).2.map (lh (V p))) else .ok [])
      (gr1 p).sendEdges (Q p).1 (env.shuffle p 0 es)) = .ok out ∧ (∀ m ∈ out, MsgOk own' m) ∧
      (out.map (fun m => (m.1, m.2.pins))).Perm
        (((grouped (V p) (R p).2.2.1).filter (fun x => decide (src x ∈ (Q p).2))).map (fun x => ((own' (src x) : Int), x))) := by
    intro p hp
    have hlt : 0 < (gr1 p).numTypes := by rw [(hc1 p hp).numTypes]; simp
    rw [if_pos hlt]
    obtain ⟨ae, hae, hnd', hmem⟩ := affected_trad (hc1 p hp) (hon p hp) (s := (Q p).2) (by
      intro v hv; exact ((hl p hp).mem v).mpr ((hSm p hp v).mp hv).1)
    obtain ⟨out, e, h⟩ := sendEdges_ok (hc1 p hp) (hon p hp) (hl1 p hp).rank (hpl' p hp) (ho p hp).1
      (fun x hx _ hd hne => (ho p hp).2 x hx hd hne) (env.shuffle p 0 ae)
      (fun e he => (hmem e).mp ((henv.shuffle p 0 ae).mem_iff.mp he))
    have e' : (do
      let es ← (gr1 p).affectedEdges ((Q p).2.map (lh (V p)))
      (gr1 p).sendEdges (Q p).1 (env.shuffle p 0 es)) = .ok out := by rw [hae, Outcome.bind_ok, e]
    exact ⟨out, e', h, sent_trad (hc1 p hp) (hon p hp) (hpl' p hp) (sh := env.shuffle p 0) (fun l => henv.shuffle p 0 l) e'⟩
  obtain ⟨O, hO⟩ := choose_part hsend
  have hOr : ∀ p, p < n → ∀ m ∈ O p, 0 ≤ m.1 ∧ m.1 < (n : Int) := by
    intro p hp m hm
    have : ((m.1, m.2.pins) : Part × List Gid) ∈ (O p).map (fun m => (m.1, m.2.pins)) := List.mem_map.mpr ⟨m, hm, rfl⟩
    obtain ⟨x, hx, he⟩ := List.mem_map.mp ((hO p hp).2.2.mem_iff.mp this)
    have := hSown p hp _ (of_decide_eq_true (List.mem_filter.mp hx).2)
    rw [Prod.mk.injEq] at he
    omega
  -- received
  have hst2 : ∀ p, p < n → ∃ (a : EAcc) (L : List (List Gid)),
      ((inbox ((List.range n).map O) (env.edges 0 p) p).foldl (recvEdge (gr1 p).self false)
        { A p with ghosts := (A p).ghosts }) = a ∧ EOk a L ∧ Knows p own' a.pins a.ghosts ∧
      ∀ x ∈ L, x ∈ T := by
    intro p hp
    have hk' : EOk { A p with ghosts := (A p).ghosts }
        ((grouped (V p) (R p).2.2.1).filter (fun x => decide (¬ ∃ v ∈ x, v ∈ (Q p).2))) :=
      ⟨(hA p hp).2.2.pins, (hA p hp).2.2.degs, (hA p hp).2.2.ids, (hA p hp).2.2.wgts⟩
    refine ⟨_, _, rfl, recv_trad (gr1 p).self _ hk', ?_, ?_⟩
    · rw [(hl1 p hp).rank]
      refine recv_ok _ (hA p hp).2.1 ?_
      intro m hm
      obtain ⟨hm1, hm2⟩ := (mem_inbox_range (henv.edges 0) hp).mp hm
      exact (hO m.1 hm1).2.1 _ hm2
    · intro x hx
      have hgT : ∀ q, q < n → ∀ x ∈ grouped (V q) (R q).2.2.1, x ∈ T := fun q hq x hx =>
        ((hesm q hq x).mp (mem_grouped hx)).1
      rcases List.mem_append.mp hx with h | h
      · exact hgT p hp x (List.mem_filter.mp h).1
      · obtain ⟨m, hm, rfl⟩ := List.mem_map.mp h
        obtain ⟨hm1, hm2⟩ := (mem_inbox_range (henv.edges 0) hp).mp hm
        have : (((p : Int), m.2.pins) : Part × List Gid) ∈ (O m.1).map (fun m => (m.1, m.2.pins)) :=
          List.mem_map.mpr ⟨_, hm2, rfl⟩
        obtain ⟨y, hy, he⟩ := List.mem_map.mp ((hO m.1 hm1).2.2.mem_iff.mp this)
        rw [Prod.mk.injEq] at he
        rw [← he.2]
        exact hgT m.1 hm1 y (List.mem_filter.mp hy).1
  have hst2' : ∀ p, p < n → ∃ r : EAcc × List (List Gid),
      ((inbox ((List.range n).map O) (env.edges 0 p) p).foldl (recvEdge (gr1 p).self false)
        { A p with ghosts := (A p).ghosts }) = r.1 ∧ EOk r.1 r.2 ∧ Knows p own' r.1.pins r.1.ghosts ∧
      ∀ x ∈ r.2, x ∈ T := by
    intro p hp
    obtain ⟨a, L, h⟩ := hst2 p hp
    exact ⟨(a, L), h⟩
  obtain ⟨B, hB⟩ := choose_part hst2'
  have hme : migrateEdges ((List.range n).map gr1) ((List.range n).map (fun p => (Q p).1))
      ((List.range n).map (fun p => (Q p).2.map (lh (V p)))) false env ((List.range n).map (fun p => ([A p], (A p).ghosts))) 0 =
      .ok ((List.range n).map (fun p => ([(B p).1], (B p).1.ghosts))) := by
    unfold migrateEdges
    rw [zipIdx_range, zip_range, zip_range]
    rw [mapM_range (G := O) (fun p hp => (hO p hp).1), Outcome.bind_ok, exchange_range hOr, Outcome.bind_ok, zip_range, zip_range]
    apply mapM_range
    intro p hp
    simp only
    rw [rd_ok (by simp), Outcome.bind_ok]
    simp only [List.getElem_cons_zero, (hB p hp).1]
    rfl
  -- the new vertex lists
  let W : Nat → List Gid := fun p => ((V p).filter (fun v => decide (v ∉ (Q p).2)) ++
    arrivals (fun p => (Q p).2) (fun v => (own' v : Int)) (env.verts p) p)
  have hW : ∀ p, p < n → (W p).Nodup ∧ ∀ v, v ∈ W p ↔ v ∈ D.verts ∧ own' v = p := by
    intro p hp
    have harr := fun v => @mem_arrivals n (fun p => (Q p).2) (fun v => (own' v : Int)) env.verts henv.verts p hp v
    constructor
    · rw [List.nodup_append]
      refine ⟨(hl p hp).nodup.filter _, arrivals_nodup henv.verts hp (fun q hq => by
        obtain ⟨f, h1, -, -⟩ := hpl' q hq; exact h1.nodup) ?_, ?_⟩
      · intro q q' hq hq' v h1 h2
        have a := ((hSm q hq v).mp h1).1.2
        have b := ((hSm q' hq' v).mp h2).1.2
        omega
      · intro v hv w hw he
        subst he
        rw [List.mem_filter, decide_eq_true_iff] at hv
        obtain ⟨h1, q, hq, h2⟩ := (harr v).mp hw
        have a := ((hSm q hq v).mp h2)
        have b := ((hl p hp).mem v).mp hv.1
        omega
    · intro v
      rw [List.mem_append, List.mem_filter, decide_eq_true_iff, harr, (hl p hp).mem]
      constructor
      · rintro (⟨⟨h1, h2⟩, h3⟩ | ⟨h1, q, hq, h2⟩)
        · refine ⟨h1, ?_⟩
          by_contra hc
          exact h3 ((hSm p hp v).mpr ⟨⟨h1, h2⟩, hc⟩)
        · refine ⟨((hSm q hq v).mp h2).1.1, by omega⟩
      · rintro ⟨h1, h2⟩
        by_cases hc : own v = p
        · left; refine ⟨⟨h1, hc⟩, ?_⟩
          intro hs; exact ((hSm p hp v).mp hs).2 h2
        · right
          refine ⟨by omega, own v, hown v h1, (hSm _ (hown v h1) v).mpr ⟨⟨h1, rfl⟩, by omega⟩⟩
  have htot : (((List.range n).map (fun p => (W p).map D.record)).map (fun v => (v.length : Int))).sum =
      (D.verts.length : Int) := by
    rw [List.map_map, ← new_total (G := ⟨D.verts, [], D.wt, D.oo, D.co⟩) hnd hown' hW]
    congr 1
    apply List.map_congr_left
    intro p _
    simp
  have hB2 : ∀ p, p < n → ∀ x ∈ (B p).2, x.length = 2 := by
    intro p hp x hx
    obtain ⟨u, -, w, -, -, rfl⟩ := hT x ((hB p hp).2.2.2 x hx)
    rfl
  have hreb : ∀ p, p < n → ∃ g', (∃ ghosts, GRep g' (p : Int) n (D.verts.length : Int) (tradInput D (W p) (B p).1 (B p).2) ghosts) ∧
      (gr1 p).rebuild false ((W p).map D.record) [(B p).1] (D.co.map (fun c => (W p).map c)) (D.verts.length : Int) = .ok g' := by
    intro p hp
    obtain ⟨g', gh, a, b, c⟩ := rebuild_ok (D := D) (hl1 p hp).rank (hpe1 p hp) (hW p hp).1 (hB p hp).2.1 (hB2 p hp)
      (D.verts.length : Int)
    exact ⟨g', ⟨gh, b⟩, a⟩
  haveI : Inhabited Graph := ⟨emptyGraph 0 0⟩
  obtain ⟨g1, hg1⟩ := choose_part hreb
  set ins := (List.range n).map (fun p => tradInput D (W p) (B p).1 (B p).2) with hins
  have hil : ins.length = n := by simp [hins]
  have hsum : (ins.map (fun i => (i.verts.length : Int))).sum = (D.verts.length : Int) := by
    rw [hins, List.map_map, ← new_total (G := ⟨D.verts, [], D.wt, D.oo, D.co⟩) hnd hown' hW]; rfl
  have hbuilt : Built ((List.range n).map g1) ins := by
    refine ⟨by simp [hil], fun p h h' => ?_⟩
    have hp : p < n := by simpa using h
    obtain ⟨gh, hgr⟩ := (hg1 p hp).1
    refine ⟨gh, ?_⟩
    rw [hsum, hil]
    simp only [List.getElem_map, List.getElem_range, hins]
    exact hgr
  have hpin : ∀ p, p < n → ∀ v ∈ (tradInput D (W p) (B p).1 (B p).2).allPins, v ∈ (B p).1.pins ∧ v ∈ D.verts := by
    intro p hp v hv
    have hv' : v ∈ (B p).2.flatten := by simpa [Input.allPins, tradInput] using hv
    refine ⟨by rw [(hB p hp).2.1.pins]; exact hv', ?_⟩
    obtain ⟨x, hx, hvx⟩ := List.mem_flatten.mp hv'
    obtain ⟨u, hu, w, hw, -, rfl⟩ := hT x ((hB p hp).2.2.2 x hx)
    simp only [List.mem_cons, List.not_mem_nil, or_false] at hvx
    rcases hvx with rfl | rfl
    · exact hu
    · exact hw
  have hdist : Dist ins own' := by
    refine ⟨?_, ?_, ?_⟩
    · intro i hi
      obtain ⟨p, hp, rfl⟩ := List.mem_map.mp hi
      have hp' := List.mem_range.mp hp
      exact tradInput_wf (hW p hp').1 (hB p hp').2.1 (hB2 p hp')
    · intro p hp v hv
      simp only [List.getElem_map, List.getElem_range, hins] at hv
      exact (((hW p (by omega)).2 v).mp hv).2
    · intro p hp v hv
      simp only [List.getElem_map, List.getElem_range, hins] at hv
      have hvV := (hpin p (by omega) v hv).2
      have hlt := hown' v hvV
      refine ⟨by omega, ?_⟩
      simp only [List.getElem_map, List.getElem_range, hins]
      exact ((hW _ hlt).2 v).mpr ⟨hvV, rfl⟩
  have huni : Uniform ins false 1 := by
    refine ⟨?_, ?_⟩ <;>
    · intro i hi
      obtain ⟨p, -, rfl⟩ := List.mem_map.mp hi
      rfl
  have hmaps : OwnMaps ins own' ((List.range n).map (fun p => (B p).1.ghosts)) := by
    refine ⟨by simp [hil], fun p h h' v hv hnv => ?_⟩
    have hp : p < n := by omega
    simp only [List.getElem_map, List.getElem_range, hins] at hv hnv ⊢
    obtain ⟨h2, h3⟩ := hpin p hp v hv
    refine (hB p hp).2.2.1 v h2 ?_
    intro hc
    exact hnv (((hW p hp).2 v).mpr ⟨h3, hc⟩)
  obtain ⟨gs2, e4, hw2, hr2⟩ := constructGhosts_spec (o1 := env.tag1) (o2 := env.tag2) hbuilt hdist huni hmaps
    (by rw [hil]; exact henv.tag1) (by rw [hil]; exact henv.tag2)
  have hl2 : gs2.length = n := by rw [hw2.1, hil]
  have hgs2 : gs2 = (List.range n).map (fun p => gs2.getD p default) := by
    have := list_range gs2 default
    rw [hl2] at this; exact this
  have hget : ∀ p (h : p < gs2.length), gs2.getD p default = gs2[p] := by
    intro p h; rw [List.getD_eq_getElem?_getD, List.getElem?_eq_getElem h]; rfl
  let g3 : Nat → Graph := fun p => { gs2.getD p default with originalOwners := some (Mem.ofList ((W p).map D.oo)) }
  have hfin : migrate ((List.range n).map gr) ((List.range n).map pl) env = .ok ((List.range n).map g3) := by
    unfold migrate
    simp only [hhy, hnt, hgs]
    rw [zip_range, mapM_range (f := fun x : Graph × Plan => x.1.cleanup x.2) (G := fun p => (Q p).1) (fun p hp => (hQ p hp).1),
      Outcome.bind_ok, zip_range, e1, Outcome.bind_ok, e2, Outcome.bind_ok, zip_range, e3, Outcome.bind_ok, zip_range]
    rw [mapM_range (f := fun x : Graph × Plan => x.1.affectedVerts x.2) (F := fun p => (gr1 p, (Q p).1))
      (G := fun p => (Q p).2.map (lh (V p))) (fun p hp => (hl1 p hp).affected (hpl' p hp)), Outcome.bind_ok, zip_range]
    rw [mapM_range (G := fun p => ((V p).filter (fun v => decide (v ∉ (Q p).2))).map D.record) (fun p hp =>
      (hl1 p hp).keep (fun v hv => ((hl p hp).mem v).mpr ((hSm p hp v).mp hv).1) _ D.record (fun v hv => (hl1 p hp).vrec hv)),
      Outcome.bind_ok]
    rw [mapM_range (f := fun x : Graph × Plan => x.1.keepAllEdges x.2 1) (G := fun p => ([A p], (A p).ghosts))
      (fun p hp => (hA p hp).1), Outcome.bind_ok]
    rw [mapM_range (G := fun p => (Q p).2.map (fun v => ((own' v : Int), D.record v))) (fun p hp =>
      (hl1 p hp).sendEach (hpl' p hp) _ D.record (fun v hv => (hl1 p hp).vrec hv)), Outcome.bind_ok]
    rw [exchange_range (by
      intro p hp m hm
      obtain ⟨v, hv, rfl⟩ := List.mem_map.mp hm
      have := hSown p hp v hv
      constructor <;> simp only <;> omega), Outcome.bind_ok, zip_range]
    have hvs : ((List.range n).map (fun p =>
        (((V p).filter (fun v => decide (v ∉ (Q p).2))).map D.record,
         inbox ((List.range n).map (fun p => (Q p).2.map (fun v => ((own' v : Int), D.record v)))) (env.verts p) p))).map
           (fun x : List VRec × List (Nat × VRec) => x.1 ++ x.2.map Prod.snd) =
        (List.range n).map (fun p => (W p).map D.record) := by
      rw [List.map_map]
      apply List.map_congr_left
      intro p hp
      have hp' := List.mem_range.mp hp
      simp only [Function.comp, W]
      rw [inbox_values (fun p => (Q p).2) (fun v => (own' v : Int)) D.record henv.verts hp', List.map_append]
    simp only [hvs]
    have hlen : ((List.range n).map (fun p => (W p).map D.record)).map List.length =
        (List.range n).map (fun p => (W p).length) := by
      rw [List.map_map]; apply List.map_congr_left; intro p _; simp
    have hcoords := coords_ok (S := fun p => (Q p).2) (pl := fun p => (Q p).1) hn hl1 hpl' henv.verts henv.coords hSown
    rw [hlen, hcoords, Outcome.bind_ok]
    rw [show List.range 1 = [0] from rfl, List.foldlM_cons, hme, Outcome.bind_ok, List.foldlM_nil, Outcome.pure_eq,
      Outcome.bind_ok, zip_range, zip_range, zip_range]
    simp only [htot]
    rw [mapM_range (G := g1) (fun p hp => (hg1 p hp).2), Outcome.bind_ok]
    have hm : ((List.range n).map (fun p => ([(B p).1], (B p).1.ghosts))).map Prod.snd =
        (List.range n).map (fun p => (B p).1.ghosts) := by rw [List.map_map]; rfl
    rw [hm, e4, Outcome.bind_ok, hgs2, zip_range]
    apply mapM_range
    intro p hp
    have hp2 : p < gs2.length := by omega
    have : ((W p).map D.record).map VRec.oo = (W p).map D.oo := by rw [List.map_map]; rfl
    simp only
    rw [this]
    obtain ⟨-, -, -, r4, -⟩ := hr2 p hp2 (by simpa using hp) (by omega)
    obtain ⟨gh, hrep⟩ := hw2.2 p hp2 (by omega)
    obtain ⟨gh1, hgr1⟩ := (hg1 p hp).1
    refine setOO_spec ?_ ?_
    · rw [hget p hp2, r4]; simp only [List.getElem_map, List.getElem_range]; exact hgr1.orig
    · rw [hget p hp2, hrep.core.v.nl]
      simp [hins, tradInput]
  obtain ⟨gr', V', hgs', hl', ht2⟩ := round_trad hn hnd hown hown' hT hl (fun p hp => by
    obtain ⟨a, b, c, d, h, -⟩ := (hst p hp).arcs
    exact ⟨a, b, c, d, h⟩) hpl henv hfin
  refine ⟨gr', V', hgs' ▸ hfin, fun p hp => ?_⟩
  have hgp : gr' p = g3 p := by
    have := congrArg (fun l => l[p]?) hgs'
    simp only [List.getElem?_map, List.getElem?_range hp, Option.map_some, Option.some.injEq] at this
    exact this.symm
  have hp2 : p < gs2.length := by omega
  obtain ⟨gh, hrep⟩ := hw2.2 p hp2 (by omega)
  rw [← hget p hp2] at hrep
  have hrep' := hrep.of_orig (some (Mem.ofList ((W p).map D.oo)))
  obtain ⟨ghosts, ids, es, wgts, hp3⟩ := ht2 p hp
  refine ⟨hl' p hp, ?_, ghosts, ids, es, wgts, hp3, ?_⟩
  · rw [hgp]
    have := hrep'.peers
    rw [hil] at this
    exact this
  · have h4 := hp3.rep.v.gho
    rw [hgp] at h4 ⊢
    have h5 := hrep'.core.v.gho
    have : ghosts = gh := by
      rcases h4 with ⟨h4, h6⟩ | h4 <;> rcases h5 with ⟨h5, h7⟩ | h5
      · rw [h4, h5]
      · exact absurd (h6.symm.trans h5) (by simp)
      · exact absurd (h4.symm.trans h7) (by simp)
      · exact ofList_inj (Option.some.inj (h4.symm.trans h5))
    subst this
    exact hrep'.owners

end
end Verif.Agi
