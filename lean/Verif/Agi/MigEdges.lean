import Verif.Agi.MigPart
/-!
# Migration on one part: what is kept, sent and received
-/
namespace Verif.Agi

/-- the situation of a part after the ghost owners were updated: `o'` is where every known vertex will
live, `s` are the local vertices that leave -/
structure MCtx (g : Graph) (me : Nat) (verts ghosts : List Gid) (ez : List (Handle × HEdge)) (plan : Plan)
    (s : List Gid) (o' : Gid → Part) : Prop where
  view : MView g verts ghosts ez
  rank : g.self = (me : Int)
  plan : ∃ f, PlanRep verts plan s f ∧ ∀ v ∈ s, f v = some (o' v)
  away : ∀ v ∈ s, o' v ≠ (me : Int)
  stay : ∀ v ∈ verts, v ∉ s → o' v = (me : Int)
  own : ∀ u ∈ verts ++ ghosts, g.owner (vh (verts ++ ghosts) u) = .ok (if u ∈ verts then (me : Int) else o' u)

theorem vh_inj {g : Graph} {verts ghosts : List Gid} (hv : VRep g verts ghosts) {u w : Gid}
    (hu : u ∈ verts ++ ghosts) (hw : w ∈ verts ++ ghosts) (h : vh (verts ++ ghosts) u = vh (verts ++ ghosts) w) :
    u = w := by
  have h1 := globalID_eq hv hu
  have h2 := globalID_eq hv hw
  unfold vh at h
  rw [h, h2] at h1
  exact (Outcome.ok.inj h1).symm

section
variable {g : Graph} {me : Nat} {verts ghosts : List Gid} {ez : List (Handle × HEdge)} {plan : Plan} {s : List Gid}
  {o' : Gid → Part}

theorem MCtx.mem_local (h : MCtx g me verts ghosts ez plan s o') {v : Gid} (hv : v ∈ s) : v ∈ verts := by
  obtain ⟨f, hp, -⟩ := h.plan
  exact ((hp.mem v).mp hv).1

theorem MCtx.snodup (h : MCtx g me verts ghosts ez plan s o') : s.Nodup := by
  obtain ⟨f, hp, -⟩ := h.plan
  exact hp.nodup

theorem MCtx.get (h : MCtx g me verts ghosts ez plan s o') {v : Gid} (hv : v ∈ s) :
    g.planGet plan (vh (verts ++ ghosts) v) = .ok (o' v) := by
  obtain ⟨f, hp, hf⟩ := h.plan
  rw [planGet_known h.view.v hp (h.mem_local hv), hf v hv]; rfl

theorem MCtx.has (h : MCtx g me verts ghosts ez plan s o') {v : Gid} (hv : v ∈ verts ++ ghosts) :
    g.planHas plan (vh (verts ++ ghosts) v) = .ok (decide (v ∈ s)) := by
  obtain ⟨f, hp, hf⟩ := h.plan
  exact planHas_known h.view.v hp hv

theorem MCtx.sending (h : MCtx g me verts ghosts ez plan s o') :
    plan.sending = s.map (vh (verts ++ ghosts)) := by
  obtain ⟨f, hp, hf⟩ := h.plan
  exact sending_known hp

theorem MCtx.newOwner (h : MCtx g me verts ghosts ez plan s o') {v : Gid} (hv : v ∈ verts ++ ghosts) :
    g.newOwner plan (vh (verts ++ ghosts) v) = .ok (o' v) := by
  unfold Graph.newOwner
  rw [h.own v hv, Outcome.bind_ok, h.has hv, Outcome.bind_ok]
  by_cases hs : v ∈ s
  · simp only [hs, decide_true, if_true]; exact h.get hs
  · simp only [hs, decide_false, Bool.false_eq_true, if_false]
    by_cases hl : v ∈ verts
    · rw [if_pos hl, h.stay v hl hs]; rfl
    · rw [if_neg hl]; rfl

theorem affectedVerts_eq (h : MCtx g me verts ghosts ez plan s o') :
    g.affectedVerts plan = .ok (s.map (vh (verts ++ ghosts))) := by
  unfold Graph.affectedVerts
  rw [h.sending]
  have key : ∀ (l pre : List Gid), pre ++ l <+: s → (l.map (vh (verts ++ ghosts))).foldlM (fun acc v => do
      let d ← g.planGet plan v
      return (if d ≠ g.self then setInsert acc v else acc)) (pre.map (vh (verts ++ ghosts))) =
      .ok ((pre ++ l).map (vh (verts ++ ghosts))) := by
    intro l
    induction l with
    | nil => intro pre _; simp
    | cons a l ih =>
      intro pre hpre
      have hnd : (pre ++ a :: l).Nodup := h.snodup.sublist hpre.sublist
      have ha : a ∈ s := hpre.subset (by simp)
      rw [List.map_cons, List.foldlM_cons, h.get ha, Outcome.bind_ok]
      have hne : o' a ≠ g.self := by rw [h.rank]; exact h.away a ha
      simp only [if_pos hne]
      have hni : vh (verts ++ ghosts) a ∉ pre.map (vh (verts ++ ghosts)) := by
        intro hc
        obtain ⟨b, hb, hbe⟩ := List.mem_map.mp hc
        have hbs : b ∈ s := hpre.subset (by simp [hb])
        have := vh_inj h.view.v (by simp [h.mem_local hbs]) (by simp [h.mem_local ha]) hbe
        subst this
        exact (List.nodup_append.mp hnd).2.2 b hb b (by simp) rfl
      have hsi : setInsert (pre.map (vh (verts ++ ghosts))) (vh (verts ++ ghosts) a) =
          pre.map (vh (verts ++ ghosts)) ++ [vh (verts ++ ghosts) a] := by unfold setInsert; rw [if_neg hni]
      rw [hsi]
      simp only [Outcome.pure_eq, Outcome.bind_ok]
      have h1 := ih (pre ++ [a]) (by simpa using hpre)
      simp only [List.map_append, List.map_cons, List.map_nil, List.append_assoc, List.singleton_append, Outcome.pure_eq] at h1
      rw [h1]
      simp
  simpa using key s [] (by simp)

/-- the vertices in index order, as handles -/
theorem verts_handles (hv : VRep g verts ghosts) :
    (List.range g.numLocal).map (fun l => getVertex l) = verts.map (vh (verts ++ ghosts)) := by
  apply List.ext_getElem
  · simp [hv.nl]
  · intro k h1 h2
    have hk : k < verts.length := by simpa using h2
    simp only [List.getElem_map, List.getElem_range]
    rw [vh_local (List.getElem_mem hk), (List.nodup_append.mp hv.nodup).1.idxOf_getElem]

theorem keep_eq {α : Type} (h : MCtx g me verts ghosts ez plan s o') (val : Handle → Outcome α) (F : Gid → α)
    (hF : ∀ v ∈ verts, val (vh (verts ++ ghosts) v) = .ok (F v)) :
    g.keep (s.map (vh (verts ++ ghosts))) val = .ok ((verts.filter (fun v => decide (v ∉ s))).map F) := by
  unfold Graph.keep
  rw [iterLoop_yields _ _ _ g.bound _ (yields_vertices g) (by
    rw [List.length_map, List.length_range]; unfold Graph.bound; omega)]
  rw [verts_handles h.view.v]
  rw [loopList_fold (f := fun acc v => do
    if v ∈ s.map (vh (verts ++ ghosts)) then return acc
    else do
      let r ← val v
      return acc ++ [r]) _ (by
      intro b x _
      split
      · rfl
      · cases val x <;> rfl)]
  have key : ∀ (l : List Gid), (∀ v ∈ l, v ∈ verts) → ∀ acc, (l.map (vh (verts ++ ghosts))).foldlM (fun acc v => do
      if v ∈ s.map (vh (verts ++ ghosts)) then return acc
      else do
        let r ← val v
        return acc ++ [r]) acc = .ok (acc ++ (l.filter (fun v => decide (v ∉ s))).map F) := by
    intro l
    induction l with
    | nil => intro _ acc; simp
    | cons a l ih =>
      intro hl acc
      have ha := hl a (by simp)
      have hiff : vh (verts ++ ghosts) a ∈ s.map (vh (verts ++ ghosts)) ↔ a ∈ s := by
        constructor
        · intro hc
          obtain ⟨b, hb, hbe⟩ := List.mem_map.mp hc
          have := vh_inj h.view.v (by simp [h.mem_local hb]) (by simp [ha]) hbe
          subst this; exact hb
        · intro ha; exact List.mem_map.mpr ⟨a, ha, rfl⟩
      rw [List.map_cons, List.foldlM_cons]
      by_cases has : a ∈ s
      · rw [if_pos (hiff.mpr has)]
        simp only [Outcome.pure_eq, Outcome.bind_ok]
        have := ih (fun v hv => hl v (by simp [hv])) acc
        simp only [Outcome.pure_eq] at this
        rw [this]
        simp [has]
      · rw [if_neg (fun hc => has (hiff.mp hc)), hF a ha]
        simp only [Outcome.pure_eq, Outcome.bind_ok]
        have := ih (fun v hv => hl v (by simp [hv])) (acc ++ [F a])
        simp only [Outcome.pure_eq] at this
        rw [this]
        simp [has]
  simpa using key verts (fun v h => h) []

theorem sendEach_eq {α : Type} (h : MCtx g me verts ghosts ez plan s o') (val : Handle → Outcome α) (F : Gid → α)
    (hF : ∀ v ∈ verts, val (vh (verts ++ ghosts) v) = .ok (F v)) :
    g.sendEach plan val = .ok (s.map (fun v => (o' v, F v))) := by
  unfold Graph.sendEach
  rw [h.sending, List.mapM_map]
  apply mapM_ok
  intro v hv
  simp only [Function.comp]
  rw [h.get hv, Outcome.bind_ok, hF v (h.mem_local hv)]
  rfl

/-! ## kept edges -/

/-- the vectors for a list of hyperedges -/
def EAcc.ofEdges (es : List HEdge) (gm : GMap Part) : EAcc :=
  ⟨es.map HEdge.id, es.map HEdge.w, es.map (fun e => e.pins.length), (es.map HEdge.pins).flatten,
    es.map HEdge.id, gm⟩

/-- the owner map knows where the pins of `es` that are not on part `me` are -/
def GOk (me : Nat) (o' : Gid → Part) (es : List HEdge) (gm : GMap Part) : Prop :=
  ∀ E ∈ es, ∀ v ∈ E.pins, o' v ≠ (me : Int) → gm v = some (o' v)

theorem put_same {gm : GMap Part} {v u : Gid} {d : Part} (h : gm u = some d ∨ u = v) (hd : ∀ _ : u = v, d = d) 
    (e : Part) (he : u = v → e = d) : (gm.put v e) u = some d := by
  unfold GMap.put
  by_cases hc : u = v
  · rw [if_pos hc, he hc]
  · rw [if_neg hc]
    rcases h with h | h
    · exact h
    · exact absurd h hc

theorem GOk.put {es : List HEdge} {gm : GMap Part} (h : GOk me o' es gm) (v : Gid) :
    GOk me o' es (gm.put v (o' v)) := by
  intro E hE u hu hne
  exact put_same (.inl (h E hE u hu hne)) (fun _ => rfl) _ (fun he => by rw [he])

theorem hasPlanned_eq (h : MCtx g me verts ghosts ez plan s o') {x : Handle × HEdge} (hx : x ∈ ez) :
    g.hasPlanned plan x.1 = .ok (decide (∃ v ∈ x.2.pins, v ∈ s)) := by
  obtain ⟨it, hit, hy⟩ := (h.view.at_ x hx).pins
  unfold Graph.hasPlanned
  rw [hit, Outcome.bind_ok, iterLoop_yields _ _ _ g.bound _ hy (by
    rw [List.length_map]; exact h.view.fuelP x hx)]
  have key : ∀ (l : List Gid), (∀ v ∈ l, v ∈ verts ++ ghosts) →
      loopList (fun (_ : Bool) v => do
        let h ← g.planHas plan v
        return (h, h)) (l.map (vh (verts ++ ghosts))) false = .ok (decide (∃ v ∈ l, v ∈ s)) := by
    intro l
    induction l with
    | nil => intro _; simp [loopList]
    | cons a l ih =>
      intro hl
      rw [List.map_cons, loopList, h.has (hl a (by simp))]
      simp only [Outcome.bind_ok, Outcome.pure_eq]
      by_cases ha : a ∈ s
      · simp [ha]
      · simp only [ha, decide_false, Bool.false_eq_true, if_false]
        have := ih (fun v hv => hl v (by simp [hv]))
        simp only [Outcome.pure_eq] at this
        rw [this]
        simp [ha]
  exact key x.2.pins (h.view.known x hx)

theorem keepPins_eq (h : MCtx g me verts ghosts ez plan s o') : ∀ (l : List Gid),
    (∀ v ∈ l, v ∈ verts ++ ghosts) → (∀ v ∈ l, v ∉ s) → ∀ (acc : List Gid × GMap Part) (es : List HEdge)
    (pre : List Gid),
    GOk me o' es acc.2 → (∀ v ∈ pre, o' v ≠ (me : Int) → acc.2 v = some (o' v)) →
    ∃ gm, loopList g.keepPin (l.map (vh (verts ++ ghosts))) acc = .ok (acc.1 ++ l, gm) ∧ GOk me o' es gm ∧
      ∀ v ∈ pre ++ l, o' v ≠ (me : Int) → gm v = some (o' v) := by
  intro l
  induction l with
  | nil => intro _ _ acc es pre h1 h2; exact ⟨acc.2, by simp [loopList], h1, by simpa using h2⟩
  | cons a l ih =>
    intro hk hs acc es pre h1 h2
    have hak := hk a (by simp)
    have has := hs a (by simp)
    have hown : g.owner (vh (verts ++ ghosts) a) = .ok (o' a) := by
      rw [h.own a hak]
      by_cases hl : a ∈ verts
      · rw [if_pos hl, h.stay a hl has]
      · rw [if_neg hl]
    have hb : g.keepPin acc (vh (verts ++ ghosts) a) =
        .ok ((acc.1 ++ [a], if o' a ≠ (me : Int) then acc.2.put a (o' a) else acc.2), false) := by
      unfold Graph.keepPin
      rw [globalID_eq h.view.v hak, Outcome.bind_ok, hown, Outcome.bind_ok, h.rank]
      rfl
    rw [List.map_cons, loopList, hb]
    simp only [Outcome.bind_ok, Bool.false_eq_true, if_false]
    by_cases hc : o' a = (me : Int)
    · rw [if_neg (by simpa using hc)]
      obtain ⟨gm, e, h3, h4⟩ := ih (fun v hv => hk v (by simp [hv])) (fun v hv => hs v (by simp [hv]))
        (acc.1 ++ [a], acc.2) es (pre ++ [a]) h1 (by
          intro v hv hne
          rcases List.mem_append.mp hv with hv | hv
          · exact h2 v hv hne
          · rw [List.mem_singleton] at hv; subst hv; exact absurd hc hne)
      refine ⟨gm, ?_, h3, by simpa using h4⟩
      simp only [List.append_assoc, List.singleton_append] at e
      exact e
    · rw [if_pos hc]
      obtain ⟨gm, e, h3, h4⟩ := ih (fun v hv => hk v (by simp [hv])) (fun v hv => hs v (by simp [hv]))
        (acc.1 ++ [a], acc.2.put a (o' a)) es (pre ++ [a]) (h1.put a) (by
          intro v hv hne
          rcases List.mem_append.mp hv with hv | hv
          · exact put_same (.inl (h2 v hv hne)) (fun _ => rfl) _ (fun he => by rw [he])
          · rw [List.mem_singleton] at hv
            exact put_same (.inr hv) (fun _ => rfl) _ (fun he => by rw [he]))
      refine ⟨gm, ?_, h3, by simpa using h4⟩
      simp only [List.append_assoc, List.singleton_append] at e
      exact e

theorem keepEdges_spec (h : MCtx g me verts ghosts ez plan s o') (gm0 : GMap Part) :
    ∃ gm, g.keepEdges plan gm0 0 =
        .ok (EAcc.ofEdges ((ez.map Prod.snd).filter (fun E => decide (¬ ∃ v ∈ E.pins, v ∈ s))) gm) ∧
      GOk me o' ((ez.map Prod.snd).filter (fun E => decide (¬ ∃ v ∈ E.pins, v ∈ s))) gm := by
  obtain ⟨it, hit, hy⟩ := h.view.edges
  unfold Graph.keepEdges
  rw [hit, Outcome.bind_ok, iterLoop_yields _ _ _ g.bound _ hy (by
    rw [List.length_map]; exact h.view.fuelE)]
  have key : ∀ (l : List (Handle × HEdge)), (∀ x ∈ l, x ∈ ez) → ∀ (es : List HEdge) (gm0 : GMap Part),
      GOk me o' es gm0 → ∃ gm, loopList (g.keepEdge plan) (l.map Prod.fst) (EAcc.ofEdges es gm0) =
        .ok (EAcc.ofEdges (es ++ (l.map Prod.snd).filter (fun E => decide (¬ ∃ v ∈ E.pins, v ∈ s))) gm) ∧
        GOk me o' (es ++ (l.map Prod.snd).filter (fun E => decide (¬ ∃ v ∈ E.pins, v ∈ s))) gm := by
    intro l
    induction l with
    | nil => intro _ es gm0 hg; exact ⟨gm0, by simp [loopList], by simpa using hg⟩
    | cons x l ih =>
      intro hl es gm0 hg
      have hx := hl x (by simp)
      rw [List.map_cons, loopList]
      by_cases hpl : ∃ v ∈ x.2.pins, v ∈ s
      · have hb : g.keepEdge plan (EAcc.ofEdges es gm0) x.1 = .ok (EAcc.ofEdges es gm0, false) := by
          unfold Graph.keepEdge
          rw [hasPlanned_eq h hx, Outcome.bind_ok]
          simp [hpl]
        rw [hb]
        simp only [Outcome.bind_ok, Bool.false_eq_true, if_false]
        obtain ⟨gm, e, h'⟩ := ih (fun y hy => hl y (by simp [hy])) es gm0 hg
        refine ⟨gm, ?_, ?_⟩
        · rw [e]
          rw [List.map_cons, List.filter_cons_of_neg (by simpa using hpl)]
        · rw [List.map_cons, List.filter_cons_of_neg (by simpa using hpl)]; exact h'
      · obtain ⟨a1, a2, a3, it', a4, a5⟩ := h.view.at_ x hx
        obtain ⟨gm1, e1, h2, h3⟩ := keepPins_eq h x.2.pins (h.view.known x hx)
          (fun v hv hs => hpl ⟨v, hv, hs⟩) ((EAcc.ofEdges es gm0).pins, (EAcc.ofEdges es gm0).ghosts) es [] hg (by simp)
        have hb : g.keepEdge plan (EAcc.ofEdges es gm0) x.1 = .ok (EAcc.ofEdges (es ++ [x.2]) gm1, false) := by
          unfold Graph.keepEdge
          rw [hasPlanned_eq h hx, Outcome.bind_ok]
          simp only [hpl, decide_false, Bool.false_eq_true, if_false]
          rw [a1, Outcome.bind_ok, a2, Outcome.bind_ok, a3, Outcome.bind_ok, a4, Outcome.bind_ok]
          rw [iterLoop_yields _ _ _ g.bound _ a5 (by rw [List.length_map]; exact h.view.fuelP x hx), e1]
          simp [EAcc.ofEdges]
        rw [hb]
        simp only [Outcome.bind_ok, Bool.false_eq_true, if_false]
        obtain ⟨gm, e, h'⟩ := ih (fun y hy => hl y (by simp [hy])) (es ++ [x.2]) gm1 (by
          intro E hE v hv hne
          rcases List.mem_append.mp hE with hE | hE
          · exact h2 E hE v hv hne
          · rw [List.mem_singleton] at hE; subst hE; exact h3 v (by simpa using hv) hne)
        refine ⟨gm, ?_, ?_⟩
        · rw [e, List.map_cons, List.filter_cons_of_pos (by simpa using hpl)]
          simp
        · rw [List.map_cons, List.filter_cons_of_pos (by simpa using hpl)]
          simpa using h'
  have := key ez (fun x hx => hx) [] gm0 (by intro E hE; simp at hE)
  simpa [EAcc.ofEdges, EAcc.empty] using this

/-! ## sent edges -/

theorem pinHandles_eq (h : MCtx g me verts ghosts ez plan s o') {x : Handle × HEdge} (hx : x ∈ ez) :
    g.pinHandles x.1 = .ok (x.2.pins.map (vh (verts ++ ghosts))) := by
  obtain ⟨-, -, a3, it, a4, a5⟩ := h.view.at_ x hx
  unfold Graph.pinHandles
  rw [a4, Outcome.bind_ok, a3, Outcome.bind_ok]
  simp only [Int.toNat_natCast]
  have key : ∀ (hs : List Handle) (it : PinIt), Yields g.iterPin it hs → ∀ (n : Nat), n = hs.length →
      ∀ (l : List Nat), l.length = n → ∀ (acc : List Handle), ∃ it', l.foldlM (fun (s : List Handle × PinIt) _ => do
        let (v, it') ← g.iterPin s.2
        return (s.1 ++ [v], it')) (acc, it) = .ok (acc ++ hs, it') := by
    intro hs
    induction hs with
    | nil =>
      intro it _ n hn l hl acc
      have : l = [] := List.eq_nil_of_length_eq_zero (by simp at hn; omega)
      subst this
      exact ⟨it, by simp⟩
    | cons v hs ih =>
      rintro it ⟨-, it1, hst, hy⟩ n hn l hl acc
      cases l with
      | nil => simp at hl hn; omega
      | cons a l =>
        rw [List.foldlM_cons]
        simp only [hst, Outcome.bind_ok, Outcome.pure_eq]
        obtain ⟨it', e⟩ := ih it1 hy hs.length rfl l (by simp at hl hn; omega) (acc ++ [v])
        simp only [Outcome.pure_eq] at e
        exact ⟨it', by rw [e]; simp⟩
  obtain ⟨it', e⟩ := key _ it a5 x.2.pins.length (by simp) (List.range x.2.pins.length) (by simp) []
  simp only [Outcome.pure_eq, List.nil_append] at e ⊢
  rw [e]
  rfl

/-- the record of a hyperedge -/
def emsg (o' : Gid → Part) (E : HEdge) : EMsg := ⟨E.id, E.w, E.pins, E.pins.map o'⟩

theorem packHyper_eq (h : MCtx g me verts ghosts ez plan s o') {x : Handle × HEdge} (hx : x ∈ ez) :
    g.packHyper plan x.1 = .ok (emsg o' x.2, (x.2.pins.map o').foldl (fun s p => Peers.insert p s) []) := by
  obtain ⟨a1, a2, -, -⟩ := h.view.at_ x hx
  unfold Graph.packHyper
  rw [a2, Outcome.bind_ok, a1, Outcome.bind_ok, pinHandles_eq h hx, Outcome.bind_ok]
  have h1 : (x.2.pins.map (vh (verts ++ ghosts))).mapM (g.newOwner plan) = .ok (x.2.pins.map o') := by
    rw [List.mapM_map]
    apply mapM_ok
    intro v hv
    exact h.newOwner (h.view.known x hx v hv)
  have h2 : (x.2.pins.map (vh (verts ++ ghosts))).mapM g.globalID = .ok x.2.pins := by
    rw [List.mapM_map]
    have := mapM_ok (f := g.globalID ∘ vh (verts ++ ghosts)) (g := fun v : Gid => v) (l := x.2.pins) (by
      intro v hv
      exact globalID_eq h.view.v (h.view.known x hx v hv))
    rw [this]; simp
  rw [h1, Outcome.bind_ok, h2]
  rfl

theorem affectedEdges_spec (h : MCtx g me verts ghosts ez plan s o') :
    ∃ ae, g.affectedEdges (s.map (vh (verts ++ ghosts))) = .ok ae ∧ ae.Nodup ∧
      ∀ e, e ∈ ae ↔ ∃ E, (e, E) ∈ ez ∧ ∃ v ∈ s, v ∈ E.pins := by
  unfold Graph.affectedEdges
  have hset : ∀ (l : List Handle) (acc : List Handle), acc.Nodup →
      ∃ acc', l.foldlM (fun s e => (.ok (setInsert s e) : Outcome (List Handle))) acc = .ok acc' ∧ acc'.Nodup ∧
        ∀ e, e ∈ acc' ↔ e ∈ acc ∨ e ∈ l := by
    intro l
    induction l with
    | nil => intro acc ha; exact ⟨acc, rfl, ha, by simp⟩
    | cons a l ih =>
      intro acc ha
      rw [List.foldlM_cons, Outcome.bind_ok]
      obtain ⟨acc', e, h1, h2⟩ := ih (setInsert acc a) (by
        unfold setInsert
        split
        · exact ha
        · rename_i hna
          rw [List.nodup_append]
          refine ⟨ha, by simp, ?_⟩
          intro x hx y hy
          rw [List.mem_singleton] at hy; subst hy
          rintro rfl; exact hna hx)
      refine ⟨acc', e, h1, fun x => ?_⟩
      rw [h2]
      unfold setInsert
      split
      · rename_i hin
        constructor
        · rintro (h | h)
          · exact .inl h
          · exact .inr (by simp [h])
        · rintro (h | h)
          · exact .inl h
          · rcases List.mem_cons.mp h with rfl | h
            · exact .inl hin
            · exact .inr h
      · simp only [List.mem_append, List.mem_singleton, List.mem_cons]; tauto
  obtain ⟨ae, e, hnd, hmem⟩ := foldlM_inv (fun acc v => do
      let it ← g.adjacent v 0
      iterLoop g.iterAdjEdge (fun s e => .ok (setInsert s e, false)) g.adjFuel it acc)
    (fun pre acc => acc.Nodup ∧ ∀ e, e ∈ acc ↔ ∃ E, (e, E) ∈ ez ∧ ∃ v ∈ s, vh (verts ++ ghosts) v ∈ pre ∧ v ∈ E.pins)
    (s.map (vh (verts ++ ghosts)))
    (by
      intro pre hh acc hpre ⟨hnd, hacc⟩
      obtain ⟨v, hvs, rfl⟩ := List.mem_map.mp (hpre.subset (by simp : hh ∈ pre ++ [hh]))
      have hvl := h.mem_local hvs
      obtain ⟨it, run, ha, hr, hf, hrm⟩ := h.view.adj v hvl
      rw [ha, Outcome.bind_ok, iterLoop_yields _ _ _ _ _ hr.yieldsEdge (by simpa using hf)]
      rw [loopList_fold (f := fun s e => (.ok (setInsert s e) : Outcome (List Handle))) _ (by
        intro b x _; rfl)]
      obtain ⟨acc', e', h1, h2⟩ := hset (run.map Prod.snd) acc hnd
      rw [e']
      refine ⟨acc', rfl, h1, fun e => ?_⟩
      rw [h2, hacc]
      constructor
      · rintro (⟨E, hE, w, hw, hwp, hwE⟩ | hr')
        · exact ⟨E, hE, w, hw, by simp [hwp], hwE⟩
        · obtain ⟨y, hy, rfl⟩ := List.mem_map.mp hr'
          obtain ⟨E, hE, hvE, -⟩ := (hrm y.1 y.2).mp hy
          exact ⟨E, hE, v, hvs, by simp, hvE⟩
      · rintro ⟨E, hE, w, hw, hwp, hwE⟩
        rw [List.mem_append, List.mem_singleton] at hwp
        rcases hwp with hwp | hwp
        · exact .inl ⟨E, hE, w, hw, hwp, hwE⟩
        · right
          have := vh_inj h.view.v (by simp [h.mem_local hw]) (by simp [hvl]) hwp
          subst this
          rw [List.mem_map]
          exact ⟨(vh (verts ++ ghosts) w, e), (hrm _ _).mpr ⟨E, hE, hwE, w, hwE, rfl⟩, rfl⟩)
    [] ⟨List.nodup_nil, by simp⟩
  refine ⟨ae, e, hnd, fun x => ?_⟩
  rw [hmem]
  constructor
  · rintro ⟨E, hE, v, hv, -, hvE⟩; exact ⟨E, hE, v, hv, hvE⟩
  · rintro ⟨E, hE, v, hv, hvE⟩; exact ⟨E, hE, v, hv, List.mem_map.mpr ⟨v, hv, rfl⟩, hvE⟩

/-- the edge messages of a part -/
theorem sendEdges_spec (h : MCtx g me verts ghosts ez plan s o') (ae : List Handle)
    (hae : ∀ e, e ∈ ae ↔ ∃ E, (e, E) ∈ ez ∧ ∃ v ∈ s, v ∈ E.pins) :
    ∃ out, g.sendEdges plan ae = .ok out ∧ ∀ m, m ∈ out ↔ ∃ E ∈ ez.map Prod.snd, (∃ v ∈ s, v ∈ E.pins) ∧
      ∃ u ∈ E.pins, m = (o' u, emsg o' E) := by
  have hnd := h.view.nodup
  have huniq : ∀ e E E', (e, E) ∈ ez → (e, E') ∈ ez → E = E' := by
    intro e E E' h1 h2
    obtain ⟨i, hi, e1⟩ := List.mem_iff_getElem.mp h1
    obtain ⟨j, hj, e2⟩ := List.mem_iff_getElem.mp h2
    have : i = j := by
      have := (List.Nodup.getElem_inj_iff hnd (i := i) (j := j) (hi := by simpa using hi) (hj := by simpa using hj)).mp (by
        simp [e1, e2])
      exact this
    subst this
    rw [e1] at e2
    exact (Prod.mk.inj e2).2
  unfold Graph.sendEdges
  -- the packed record of a handle
  have hpack : ∀ (l : List Handle), (∀ e ∈ l, e ∈ ae) → ∃ packs,
      l.mapM (fun e => if g.isHyper then g.packHyper plan e else g.packTrad plan e) = .ok packs ∧
      ∀ y, y ∈ packs ↔ ∃ e ∈ l, ∃ E, (e, E) ∈ ez ∧
        y = (emsg o' E, (E.pins.map o').foldl (fun s p => Peers.insert p s) []) := by
    intro l
    induction l with
    | nil => intro _; exact ⟨[], rfl, by simp⟩
    | cons e l ih =>
      intro hl
      obtain ⟨E, hE, -⟩ := (hae e).mp (hl e (by simp))
      obtain ⟨packs, ep, hp⟩ := ih (fun x hx => hl x (by simp [hx]))
      rw [List.mapM_cons, if_pos h.view.hyp, packHyper_eq h hE, Outcome.bind_ok, ep, Outcome.bind_ok]
      refine ⟨_, rfl, fun y => ?_⟩
      rw [List.mem_cons, hp]
      constructor
      · rintro (rfl | ⟨e', he', r⟩)
        · exact ⟨e, by simp, E, hE, rfl⟩
        · exact ⟨e', by simp [he'], r⟩
      · rintro ⟨e', he', E', hE', hy⟩
        rcases List.mem_cons.mp he' with rfl | he'
        · left; rw [hy, huniq _ _ _ hE' hE]
        · exact .inr ⟨e', he', E', hE', hy⟩
  obtain ⟨packs, ep, hp⟩ := hpack ae (fun e he => he)
  rw [ep, Outcome.bind_ok]
  refine ⟨_, rfl, fun m => ?_⟩
  have hset : ∀ (E : HEdge) (q : Part), q ∈ (E.pins.map o').foldl (fun s p => Peers.insert p s) [] ↔
      ∃ u ∈ E.pins, q = o' u := by
    intro E q
    have := (Peers.foldl_insert (E.pins.map o') [] (by simp)).2 q
    rw [this, List.mem_map]
    simp only [List.not_mem_nil, or_false, false_or]
    constructor
    · rintro ⟨u, hu, rfl⟩; exact ⟨u, hu, rfl⟩
    · rintro ⟨u, hu, rfl⟩; exact ⟨u, hu, rfl⟩
  rw [List.mem_flatMap]
  constructor
  · rintro ⟨y, hy, hm⟩
    obtain ⟨e, he, E, hE, rfl⟩ := (hp y).mp hy
    rw [List.mem_map] at hm
    obtain ⟨q, hq, rfl⟩ := hm
    obtain ⟨u, hu, rfl⟩ := (hset E q).mp hq
    obtain ⟨E', hE', v, hv, hvE⟩ := (hae e).mp he
    have := huniq _ _ _ hE' hE
    subst this
    exact ⟨E', List.mem_map.mpr ⟨_, hE, rfl⟩, ⟨v, hv, hvE⟩, u, hu, rfl⟩
  · rintro ⟨E, hE, hv, u, hu, rfl⟩
    obtain ⟨x, hx, rfl⟩ := List.mem_map.mp hE
    refine ⟨_, (hp _).mpr ⟨x.1, (hae x.1).mpr ⟨x.2, hx, hv⟩, x.2, hx, rfl⟩, ?_⟩
    rw [List.mem_map]
    exact ⟨o' u, (hset x.2 _).mpr ⟨u, hu, rfl⟩, rfl⟩

/-! ## received edges -/

theorem recv_ghosts (l : List Gid) : ∀ (gm : GMap Part) (es : List HEdge), GOk me o' es gm →
    ∀ (pre : List Gid), (∀ v ∈ pre, o' v ≠ (me : Int) → gm v = some (o' v)) →
    GOk me o' es ((l.zip (l.map o')).foldl (fun gh x => if x.2 ≠ (me : Int) then gh.put x.1 x.2 else gh) gm) ∧
    ∀ v ∈ pre ++ l, o' v ≠ (me : Int) →
      ((l.zip (l.map o')).foldl (fun gh x => if x.2 ≠ (me : Int) then gh.put x.1 x.2 else gh) gm) v = some (o' v) := by
  induction l with
  | nil => intro gm es h pre hp; exact ⟨h, by simpa using hp⟩
  | cons a l ih =>
    intro gm es h pre hp
    rw [List.map_cons, List.zip_cons_cons, List.foldl_cons]
    simp only
    by_cases hc : o' a = (me : Int)
    · rw [if_neg (by simpa using hc)]
      have := ih gm es h (pre ++ [a]) (by
        intro v hv hne
        rcases List.mem_append.mp hv with hv | hv
        · exact hp v hv hne
        · rw [List.mem_singleton] at hv; subst hv; exact absurd hc hne)
      exact ⟨this.1, by simpa using this.2⟩
    · rw [if_pos hc]
      have := ih (gm.put a (o' a)) es (h.put a) (pre ++ [a]) (by
        intro v hv hne
        rcases List.mem_append.mp hv with hv | hv
        · exact put_same (.inl (hp v hv hne)) (fun _ => rfl) _ (fun he => by rw [he])
        · rw [List.mem_singleton] at hv
          exact put_same (.inr hv) (fun _ => rfl) _ (fun he => by rw [he]))
      exact ⟨this.1, by simpa using this.2⟩

/-- receiving edges: every received edge is there afterwards, once -/
theorem recvEdges_spec {H : List HEdge} (hH : (H.map HEdge.id).Nodup) : ∀ (msgs : List (Nat × EMsg)),
    (∀ m ∈ msgs, ∃ E ∈ H, m.2 = emsg o' E) → ∀ (es : List HEdge) (gm : GMap Part), (∀ E ∈ es, E ∈ H) →
    (es.map HEdge.id).Nodup → GOk me o' es gm →
    ∃ es' gm', msgs.foldl (recvEdge (me : Int) true) (EAcc.ofEdges es gm) = EAcc.ofEdges es' gm' ∧
      (es'.map HEdge.id).Nodup ∧ GOk me o' es' gm' ∧
      ∀ E, E ∈ es' ↔ E ∈ es ∨ (E ∈ H ∧ ∃ m ∈ msgs, m.2 = emsg o' E) := by
  have hid : ∀ E ∈ H, ∀ E' ∈ H, E.id = E'.id → E = E' := by
    intro E hE E' hE' he
    obtain ⟨i, hi, rfl⟩ := List.mem_iff_getElem.mp hE
    obtain ⟨j, hj, rfl⟩ := List.mem_iff_getElem.mp hE'
    have := (List.Nodup.getElem_inj_iff hH (i := i) (j := j) (hi := by simpa using hi) (hj := by simpa using hj)).mp (by
      simpa using he)
    subst this; rfl
  intro msgs
  induction msgs with
  | nil => intro _ es gm h1 h2 h3; exact ⟨es, gm, rfl, h2, h3, by simp⟩
  | cons m msgs ih =>
    intro hm es gm h1 h2 h3
    obtain ⟨E, hE, he⟩ := hm m (by simp)
    rw [List.foldl_cons]
    have hmem : E.id ∈ (EAcc.ofEdges es gm).added ↔ E ∈ es := by
      simp only [EAcc.ofEdges, List.mem_map]
      constructor
      · rintro ⟨E', hE', he'⟩
        rw [← hid E' (h1 E' hE') E hE he']; exact hE'
      · intro h; exact ⟨E, h, rfl⟩
    have hmsg : ∀ E', E' ∈ H → m.2 = emsg o' E' → E' = E := by
      intro E' hE' h'
      apply hid E' hE' E hE
      rw [he] at h'
      exact (congrArg EMsg.id h').symm
    unfold recvEdge
    rw [he]
    by_cases hin : E ∈ es
    · rw [if_pos ⟨rfl, by simpa [emsg] using hmem.mpr hin⟩]
      obtain ⟨es', gm', e, a, b, c⟩ := ih (fun x hx => hm x (by simp [hx])) es gm h1 h2 h3
      refine ⟨es', gm', e, a, b, fun F => ?_⟩
      rw [c]
      constructor
      · rintro (h | ⟨h, x, hx, hx'⟩)
        · exact .inl h
        · exact .inr ⟨h, x, by simp [hx], hx'⟩
      · rintro (h | ⟨h, x, hx, hx'⟩)
        · exact .inl h
        · rcases List.mem_cons.mp hx with rfl | hx
          · rw [hmsg F h hx']; exact .inl hin
          · exact .inr ⟨h, x, hx, hx'⟩
    · rw [if_neg (by rintro ⟨-, h⟩; exact hin (hmem.mp (by simpa [emsg] using h)))]
      obtain ⟨g1, g2⟩ := recv_ghosts (me := me) (o' := o') E.pins gm es h3 [] (by simp)
      have hacc : (⟨(EAcc.ofEdges es gm).ids ++ [(emsg o' E).id], (EAcc.ofEdges es gm).wgts ++ [(emsg o' E).w],
          (EAcc.ofEdges es gm).degs ++ [(emsg o' E).pins.length], (EAcc.ofEdges es gm).pins ++ (emsg o' E).pins,
          (EAcc.ofEdges es gm).added ++ [(emsg o' E).id],
          ((emsg o' E).pins.zip (emsg o' E).owners).foldl
            (fun gh x => if x.2 ≠ (me : Int) then gh.put x.1 x.2 else gh) (EAcc.ofEdges es gm).ghosts⟩ : EAcc) =
          EAcc.ofEdges (es ++ [E]) ((E.pins.zip (E.pins.map o')).foldl
            (fun gh x => if x.2 ≠ (me : Int) then gh.put x.1 x.2 else gh) gm) := by
        simp [EAcc.ofEdges, emsg]
      rw [hacc]
      obtain ⟨es', gm', e, a, b, c⟩ := ih (fun x hx => hm x (by simp [hx])) (es ++ [E]) _ (by
          intro F hF
          rcases List.mem_append.mp hF with hF | hF
          · exact h1 F hF
          · rw [List.mem_singleton] at hF; subst hF; exact hE) (by
          rw [List.map_append, List.nodup_append]
          refine ⟨h2, by simp, ?_⟩
          intro x hx y hy
          simp only [List.map_cons, List.map_nil, List.mem_singleton] at hy
          subst hy
          rintro rfl
          exact hin (hmem.mp hx)) (by
          intro F hF v hv hne
          rcases List.mem_append.mp hF with hF | hF
          · exact g1 F hF v hv hne
          · rw [List.mem_singleton] at hF; subst hF
            exact g2 v (by simpa using hv) hne)
      refine ⟨es', gm', e, a, b, fun F => ?_⟩
      rw [c, List.mem_append, List.mem_singleton]
      constructor
      · rintro ((h | h) | ⟨h, x, hx, hx'⟩)
        · exact .inl h
        · subst h; exact .inr ⟨hE, m, by simp, he⟩
        · exact .inr ⟨h, x, by simp [hx], hx'⟩
      · rintro (h | ⟨h, x, hx, hx'⟩)
        · exact .inl (.inl h)
        · rcases List.mem_cons.mp hx with rfl | hx
          · rw [hmsg F h hx']; exact .inl (.inr rfl)
          · exact .inr ⟨h, x, hx, hx'⟩

end
end Verif.Agi
