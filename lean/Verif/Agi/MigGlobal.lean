import Verif.Agi.MigStep
/-!
# One migration: the message phases
-/
namespace Verif.Agi

instance : Inhabited Graph := ⟨emptyGraph 0 0⟩

section
variable {n : Nat} {G : GG} {own own' : Gid → Nat} {gr : Nat → Graph} {V GH : Nat → List Gid}
  {EZ : Nat → List (Handle × HEdge)} {pl : Nat → Plan} {S : Nat → List Gid}

/-- the ghost owner phase -/
theorem phase_owner (hG : G.WF n own)
    (hpv : ∀ p, p < n → PV G own own n p (gr p) (V p) (GH p) (EZ p))
    (hpl : ∀ p, p < n → PlanTo (V p) (pl p) (S p) own' p) {ord : Nat → List Nat} (ho : Orders n ord) :
    ∃ (U : Nat → List (Part × (Gid × Part))) (I : Nat → List (Nat × (Gid × Part))) (gr' : Nat → Graph),
      ((List.range n).map (fun p => (gr p, pl p))).mapM (fun x => x.1.ownerUpdates x.2) = .ok ((List.range n).map U) ∧
      exchange ((List.range n).map U) ord = .ok ((List.range n).map I) ∧
      ((List.range n).map (fun p => (gr p, I p))).mapM (fun x => x.2.foldlM Graph.applyOwner x.1) =
        .ok ((List.range n).map gr') ∧
      ∀ p, p < n → PV G own own' n p (gr' p) (V p) (GH p) (EZ p) := by
  have h1 : ∀ p, p < n → ∃ U, (gr p).ownerUpdates (pl p) = .ok U ∧ ∀ m, m ∈ U ↔ ∃ v ∈ S p, ∃ x ∈ EZ p,
      v ∈ x.2.pins ∧ ∃ u ∈ x.2.pins, own u ≠ p ∧ m = ((own u : Int), (v, (own' v : Int))) := by
    intro p hp
    obtain ⟨f, hf, hfs, hs⟩ := hpl p hp
    have pv := hpv p hp
    obtain ⟨U, e, hU⟩ := ownerUpdates_spec (o := fun u => if u ∈ V p then (p : Int) else (own u : Int)) pv.view hf (by
      intro u hu
      rw [owner_eq pv.view.v pv.owns hu]
      unfold ownerOf
      rw [pv.rank])
    refine ⟨U, e, fun m => ?_⟩
    rw [hU]
    constructor
    · rintro ⟨v, hv, x, hx, hvx, u, hu, hne, rfl⟩
      refine ⟨v, hv, x, hx, hvx, u, hu, ?_, ?_⟩
      · intro hc
        apply hne
        rw [pv.rank]
        by_cases hm : u ∈ V p
        · rw [if_pos hm]
        · rw [if_neg hm, hc]
      · have hm : u ∉ V p := by
          intro hm; apply hne; rw [if_pos hm, pv.rank]
        rw [hfs v hv, if_neg hm]; rfl
    · rintro ⟨v, hv, x, hx, hvx, u, hu, hne, rfl⟩
      have hm : u ∉ V p := fun hm => hne ((pv.vmem u).mp hm).2
      refine ⟨v, hv, x, hx, hvx, u, hu, ?_, ?_⟩
      · rw [if_neg hm, pv.rank]; omega
      · rw [hfs v hv, if_neg hm]; rfl
  obtain ⟨U, hU⟩ := choose_part h1
  have hrange : ∀ p, p < n → ∀ m ∈ U p, 0 ≤ m.1 ∧ m.1 < (n : Int) := by
    intro p hp m hm
    obtain ⟨v, hv, x, hx, hvx, u, hu, hne, rfl⟩ := ((hU p hp).2 m).mp hm
    have pv := hpv p hp
    have hE : x.2 ∈ G.on own p := pv.edges.mem_iff.mp (List.mem_map.mpr ⟨x, hx, rfl⟩)
    have := hG.own u (hG.pins x.2 (GG.mem_on.mp hE).1 u hu)
    constructor <;> simp only <;> omega
  have h3 : ∀ q, q < n → ∃ g', (inbox ((List.range n).map U) (ord q) q).foldlM Graph.applyOwner (gr q) = .ok g' ∧
      PV G own own' n q g' (V q) (GH q) (EZ q) := by
    intro q hq
    have pv := hpv q hq
    obtain ⟨g', e, he, hor⟩ := applyOwner_spec (o' := fun v => (own' v : Int)) pv.view.v pv.owns
      (inbox ((List.range n).map U) (ord q) q)
      (by
        intro x hx
        obtain ⟨hx1, hx2⟩ := (mem_inbox_range ho hq).mp hx
        obtain ⟨v, hv, y, hy, hvy, u, hu, hne, heq⟩ := ((hU x.1 hx1).2 _).mp hx2
        rw [Prod.mk.injEq] at heq
        obtain ⟨hqu, hxe⟩ := heq
        rw [hxe]
        refine ⟨?_, rfl⟩
        have pvx := hpv x.1 hx1
        have hyE : y.2 ∈ G.on own x.1 := pvx.edges.mem_iff.mp (List.mem_map.mpr ⟨y, hy, rfl⟩)
        have huq : own u = q := by omega
        have hyq : y.2 ∈ G.on own q := GG.mem_on.mpr ⟨(GG.mem_on.mp hyE).1, u, hu, huq⟩
        obtain ⟨z, hz, hzy⟩ := List.mem_map.mp (pv.edges.mem_iff.mpr hyq)
        have hk := pv.view.known z hz v (by rw [hzy]; exact hvy)
        obtain ⟨f, hf, -, hs⟩ := hpl x.1 hx1
        have hvx := (pvx.vmem v).mp ((hs v).mp hv).1
        rcases List.mem_append.mp hk with hk | hk
        · have := ((pv.vmem v).mp hk).2
          omega
        · exact hk)
      (by
        intro v hv
        by_cases hc : own' v = own v
        · right; simp only [hc]
        · left
          obtain ⟨E, hE, hvE⟩ := pv.gho v hv
          obtain ⟨hEG, u, hu, huq⟩ := GG.mem_on.mp hE
          have hvV := hG.pins E hEG v hvE
          have hp := hG.own v hvV
          have pvp := hpv (own v) hp
          obtain ⟨f, hf, -, hs⟩ := hpl (own v) hp
          have hvS : v ∈ S (own v) := (hs v).mpr ⟨(pvp.vmem v).mpr ⟨hvV, rfl⟩, hc⟩
          have hEp : E ∈ G.on own (own v) := GG.mem_on.mpr ⟨hEG, v, hvE, rfl⟩
          obtain ⟨z, hz, rfl⟩ := List.mem_map.mp (pvp.edges.mem_iff.mpr hEp)
          have hvq : own v ≠ q := by
            intro hcon
            have : v ∈ V q := (pv.vmem v).mpr ⟨hvV, hcon⟩
            exact (List.nodup_append.mp pv.view.v.nodup).2.2 v this v hv rfl
          refine ⟨(own v, (v, (own' v : Int))), (mem_inbox_range ho hq).mpr ⟨hp, ?_⟩, rfl⟩
          refine ((hU (own v) hp).2 _).mpr ⟨v, hvS, z, hz, hvE, u, hu, by omega, ?_⟩
          rw [huq])
    exact ⟨g', e, pv.of_owners he hor⟩
  obtain ⟨gr', hgr⟩ := choose_part h3
  exact ⟨U, fun q => inbox ((List.range n).map U) (ord q) q, gr', mapM_range (fun p hp => (hU p hp).1),
    exchange_range hrange, mapM_range (fun p hp => (hgr p hp).1), fun p hp => (hgr p hp).2⟩

/-- the edges that stay -/
def keptOf (EZ : Nat → List (Handle × HEdge)) (S : Nat → List Gid) (p : Nat) : List HEdge :=
  ((EZ p).map Prod.snd).filter (fun E => decide (¬ ∃ v ∈ E.pins, v ∈ S p))

theorem on_nodup (hG : G.WF n own) (p : Nat) : ((G.on own p).map HEdge.id).Nodup := by
  unfold GG.on
  exact hG.ids.sublist (List.Sublist.map _ List.filter_sublist)

theorem phase_keep (hpv : ∀ p, p < n → PV G own own' n p (gr p) (V p) (GH p) (EZ p))
    (hpl : ∀ p, p < n → PlanTo (V p) (pl p) (S p) own' p) :
    ∃ gm : Nat → GMap Part, ((List.range n).map (fun p => (gr p, pl p))).mapM (fun x => x.1.keepAllEdges x.2 1) =
        .ok ((List.range n).map (fun p => ([EAcc.ofEdges (keptOf EZ S p) (gm p)], gm p))) ∧
      ∀ p, p < n → GOk p (fun v => (own' v : Int)) (keptOf EZ S p) (gm p) := by
  have h : ∀ p, p < n → ∃ gm : GMap Part, (gr p).keepAllEdges (pl p) 1 = .ok ([EAcc.ofEdges (keptOf EZ S p) gm], gm) ∧
      GOk p (fun v => (own' v : Int)) (keptOf EZ S p) gm := by
    intro p hp
    obtain ⟨gm, e, hg⟩ := keepEdges_spec ((hpv p hp).mctx (hpl p hp)) GMap.empty
    refine ⟨gm, ?_, hg⟩
    unfold Graph.keepAllEdges
    rw [show List.range 1 = [0] from rfl, List.foldlM_cons]
    simp only
    rw [e, Outcome.bind_ok]
    rfl
  haveI : Inhabited (GMap Part) := ⟨GMap.empty⟩
  obtain ⟨gm, hgm⟩ := choose_part h
  exact ⟨gm, mapM_range (fun p hp => (hgm p hp).1), fun p hp => (hgm p hp).2⟩

/-- the edge phase -/
theorem phase_edges (hG : G.WF n own) (hG' : ∀ v ∈ G.verts, own' v < n)
    (hpv : ∀ p, p < n → PV G own own' n p (gr p) (V p) (GH p) (EZ p))
    (hpl : ∀ p, p < n → PlanTo (V p) (pl p) (S p) own' p) {env : MigrateEnv} (ho : Orders n (env.edges 0))
    (hsh : ∀ p l, (env.shuffle p 0 l).Perm l) (gm : Nat → GMap Part)
    (hgm : ∀ p, p < n → GOk p (fun v => (own' v : Int)) (keptOf EZ S p) (gm p)) :
    ∃ (es : Nat → List HEdge) (gm' : Nat → GMap Part),
      migrateEdges ((List.range n).map gr) ((List.range n).map pl)
        ((List.range n).map (fun p => (S p).map (vh (V p ++ GH p)))) true env
        ((List.range n).map (fun p => ([EAcc.ofEdges (keptOf EZ S p) (gm p)], gm p))) 0 =
        .ok ((List.range n).map (fun p => ([EAcc.ofEdges (es p) (gm' p)], gm' p))) ∧
      ∀ p, p < n → GOk p (fun v => (own' v : Int)) (es p) (gm' p) ∧ (es p).Perm (G.on own' p) := by
  have h1 : ∀ p, p < n → ∃ O, (do
      let es ← (if 0 < (gr p).numTypes then (gr p).affectedEdges ((S p).map (vh (V p ++ GH p))) else .ok [])
      (gr p).sendEdges (pl p) (env.shuffle p 0 es)) = .ok O ∧
      ∀ m, m ∈ O ↔ ∃ E ∈ (EZ p).map Prod.snd, (∃ v ∈ S p, v ∈ E.pins) ∧
        ∃ u ∈ E.pins, m = ((own' u : Int), emsg (fun v => (own' v : Int)) E) := by
    intro p hp
    have hc := (hpv p hp).mctx (hpl p hp)
    have : ∃ ae, (if 0 < (gr p).numTypes then (gr p).affectedEdges ((S p).map (vh (V p ++ GH p))) else .ok []) = .ok ae ∧
        ∀ e, e ∈ ae ↔ ∃ E, (e, E) ∈ EZ p ∧ ∃ v ∈ S p, v ∈ E.pins := by
      rcases (hpv p hp).numTypes with hn | ⟨hn, hez, hv⟩
      · obtain ⟨ae, e, -, hae⟩ := affectedEdges_spec hc
        exact ⟨ae, by rw [if_pos (by omega)]; exact e, hae⟩
      · refine ⟨[], by rw [if_neg (by omega)], ?_⟩
        intro e; rw [hez]; simp
    obtain ⟨ae, e, hae⟩ := this
    obtain ⟨O, e2, hO⟩ := sendEdges_spec hc (env.shuffle p 0 ae) (by
      intro e; rw [(hsh p ae).mem_iff]; exact hae e)
    exact ⟨O, by rw [e, Outcome.bind_ok]; exact e2, hO⟩
  obtain ⟨O, hO⟩ := choose_part h1
  have hEG : ∀ p, p < n → ∀ E, E ∈ (EZ p).map Prod.snd ↔ E ∈ G.edges ∧ ∃ v ∈ E.pins, own v = p := by
    intro p hp E
    rw [(hpv p hp).edges.mem_iff, GG.mem_on]
  have hrange : ∀ p, p < n → ∀ m ∈ O p, 0 ≤ m.1 ∧ m.1 < (n : Int) := by
    intro p hp m hm
    obtain ⟨E, hE, -, u, hu, rfl⟩ := ((hO p hp).2 m).mp hm
    have := hG' u (hG.pins E ((hEG p hp E).mp hE).1 u hu)
    constructor <;> simp only <;> omega
  have hSm : ∀ p, p < n → ∀ v, v ∈ S p ↔ (v ∈ G.verts ∧ own v = p) ∧ own' v ≠ p := by
    intro p hp v
    obtain ⟨f, -, -, hs⟩ := hpl p hp
    rw [hs, (hpv p hp).vmem]
  have hkept : ∀ p, p < n → ∀ E, E ∈ keptOf EZ S p ↔
      (E ∈ G.edges ∧ ∃ v ∈ E.pins, own v = p) ∧ ¬ ∃ v ∈ E.pins, v ∈ S p := by
    intro p hp E
    unfold keptOf
    rw [List.mem_filter, hEG p hp, decide_eq_true_iff]
  have h2 : ∀ q, q < n → ∃ r : List HEdge × GMap Part,
      (inbox ((List.range n).map O) (env.edges 0 q) q).foldl (recvEdge (q : Int) true)
        (EAcc.ofEdges (keptOf EZ S q) (gm q)) = EAcc.ofEdges r.1 r.2 ∧
      GOk q (fun v => (own' v : Int)) r.1 r.2 ∧ r.1.Perm (G.on own' q) := by
    intro q hq
    have hmsg : ∀ m, m ∈ inbox ((List.range n).map O) (env.edges 0 q) q ↔ m.1 < n ∧
        ∃ E ∈ (EZ m.1).map Prod.snd, (∃ v ∈ S m.1, v ∈ E.pins) ∧
          ∃ u ∈ E.pins, own' u = q ∧ m.2 = emsg (fun v => (own' v : Int)) E := by
      intro m
      rw [mem_inbox_range ho hq]
      constructor
      · rintro ⟨h1, h2⟩
        obtain ⟨E, hE, hv, u, hu, he⟩ := ((hO m.1 h1).2 _).mp h2
        rw [Prod.mk.injEq] at he
        exact ⟨h1, E, hE, hv, u, hu, by omega, he.2⟩
      · rintro ⟨h1, E, hE, hv, u, hu, he, he2⟩
        refine ⟨h1, ((hO m.1 h1).2 _).mpr ⟨E, hE, hv, u, hu, ?_⟩⟩
        rw [he, he2]
    have hkn : ((keptOf EZ S q).map HEdge.id).Nodup := by
      unfold keptOf
      refine List.Nodup.sublist (List.Sublist.map _ List.filter_sublist) ?_
      exact ((hpv q hq).edges.map _).nodup_iff.mpr (on_nodup hG q)
    obtain ⟨es', gm', e, hnd, hgo, hmem⟩ := recvEdges_spec (me := q) (o' := fun v => (own' v : Int)) hG.ids
      (inbox ((List.range n).map O) (env.edges 0 q) q)
      (by
        intro m hm
        obtain ⟨h1, E, hE, -, -, -, -, he⟩ := (hmsg m).mp hm
        exact ⟨E, ((hEG _ h1 E).mp hE).1, he⟩)
      (keptOf EZ S q) (gm q) (fun E hE => ((hkept q hq E).mp hE).1.1) hkn (hgm q hq)
    refine ⟨(es', gm'), e, hgo, ?_⟩
    have hn1 : es'.Nodup := List.Nodup.of_map _ hnd
    have hn2 : (G.on own' q).Nodup := by
      unfold GG.on; exact (List.Nodup.of_map _ hG.ids).filter _
    refine (List.perm_ext_iff_of_nodup hn1 hn2).mpr (fun E => ?_)
    rw [hmem, GG.mem_on, hkept q hq]
    constructor
    · rintro (⟨⟨h1, v, hv, hvq⟩, hno⟩ | ⟨h1, m, hm, he⟩)
      · refine ⟨h1, v, hv, ?_⟩
        by_contra hc
        exact hno ⟨v, hv, (hSm q hq v).mpr ⟨⟨hG.pins E h1 v hv, hvq⟩, hc⟩⟩
      · obtain ⟨h2, E', hE', -, u, hu, huq, he2⟩ := (hmsg m).mp hm
        have heq : E' = E := by
          rw [he] at he2
          unfold emsg at he2
          simp only [EMsg.mk.injEq] at he2
          obtain ⟨a, b, c, -⟩ := he2
          cases E; cases E'; simp_all
        subst heq
        exact ⟨h1, u, hu, huq⟩
    · rintro ⟨h1, u, hu, huq⟩
      by_cases hall : ∃ v ∈ E.pins, own' v ≠ own v
      · right
        obtain ⟨v, hv, hne⟩ := hall
        have hvV := hG.pins E h1 v hv
        have hp := hG.own v hvV
        refine ⟨h1, (own v, emsg (fun v => (own' v : Int)) E), (hmsg _).mpr ⟨hp, E, ?_, ?_, u, hu, huq, rfl⟩, rfl⟩
        · exact (hEG _ hp E).mpr ⟨h1, v, hv, rfl⟩
        · exact ⟨v, (hSm _ hp v).mpr ⟨⟨hvV, rfl⟩, hne⟩, hv⟩
      · left
        have hsame : ∀ v ∈ E.pins, own' v = own v := by
          intro v hv; by_contra hc; exact hall ⟨v, hv, hc⟩
        refine ⟨⟨h1, u, hu, by rw [← hsame u hu]; exact huq⟩, ?_⟩
        rintro ⟨v, hv, hvS⟩
        obtain ⟨⟨-, h3⟩, h4⟩ := (hSm q hq v).mp hvS
        exact h4 (by rw [hsame v hv]; exact h3)
  haveI : Inhabited (List HEdge × GMap Part) := ⟨([], GMap.empty)⟩
  obtain ⟨R, hR⟩ := choose_part h2
  refine ⟨fun p => (R p).1, fun p => (R p).2, ?_, fun p hp => (hR p hp).2⟩
  unfold migrateEdges
  rw [zip_range, zipIdx_range, zip_range, mapM_range (G := O) (fun p hp => (hO p hp).1), Outcome.bind_ok,
    exchange_range hrange, Outcome.bind_ok, zip_range, zip_range]
  apply mapM_range
  intro p hp
  simp only [rd, List.getElem?_cons_zero, Outcome.ofOption_some, Outcome.bind_ok]
  have hself : (gr p).self = (p : Int) := (hpv p hp).rank
  rw [hself]
  have := (hR p hp).1
  simp only [EAcc.ofEdges] at this ⊢
  rw [this]
  rfl

end
end Verif.Agi
