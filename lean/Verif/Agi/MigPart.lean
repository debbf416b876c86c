import Verif.Agi.MigView
/-!
# Migration on one part: the local steps
-/
namespace Verif.Agi

section
variable {g : Graph} {verts ghosts : List Gid} {ez : List (Handle × HEdge)} {plan : Plan} {s : List Gid}
  {f : Gid → Option Part}

theorem planHas_known (hv : VRep g verts ghosts) (hp : PlanRep verts plan s f) {u : Gid}
    (hu : u ∈ verts ++ ghosts) : g.planHas plan (vh (verts ++ ghosts) u) = .ok (decide (u ∈ s)) := by
  by_cases hl : u ∈ verts
  · rw [vh_local hl, planHas_eq hp hv.nl hl]
    congr 1
    rw [decide_eq_decide, hp.mem]; tauto
  · unfold vh
    rw [planHas_ghost hv.nl]
    · have : u ∉ s := fun h => hl ((hp.mem u).mp h).1
      simp [this]
    · rcases Nat.lt_or_ge ((verts ++ ghosts).idxOf u) verts.length with h1 | h1
      · exact absurd (idxOf_lt_iff.mp h1) hl
      · exact h1

theorem planGet_known (hv : VRep g verts ghosts) (hp : PlanRep verts plan s f) {u : Gid} (hu : u ∈ verts) :
    g.planGet plan (vh (verts ++ ghosts) u) = .ok ((f u).getD (-1)) := by
  rw [vh_local hu, planGet_eq hp hv.nl hu]

theorem sending_known (hp : PlanRep verts plan s f) :
    plan.sending = s.map (vh (verts ++ ghosts)) := by
  rw [hp.sending]
  apply List.map_congr_left
  intro v hv
  rw [vh_local ((hp.mem v).mp hv).1]

/-- dropping the vertices that stay -/
theorem cleanup_rep (hn : g.numLocal = verts.length) (hnd : verts.Nodup) (hp : PlanRep verts plan s f) :
    ∃ plan' s', g.cleanup plan = .ok plan' ∧
      PlanRep verts plan' s' (fun v => if v ∈ s ∧ f v ≠ some g.self then f v else none) := by
  unfold Graph.cleanup
  obtain ⟨p0, e0, h0⟩ := newPlan_rep hn
  rw [e0, Outcome.bind_ok, hp.sending]
  have key : ∀ (l : List Gid), (∀ v ∈ l, v ∈ s) → ∀ (np : Plan) (s0 : List Gid) (f0 : Gid → Option Part),
      PlanRep verts np s0 f0 → ∃ plan' s', (l.map (fun v => getVertex (verts.idxOf v))).foldlM (fun np v => do
        let d ← g.planGet plan v
        if d ≠ g.self then do
          let r ← g.planInsert np v d
          return r.1
        else return np) np = .ok plan' ∧
        PlanRep verts plan' s' (fun v => if v ∈ l ∧ f v ≠ some g.self then f v else f0 v) := by
    intro l
    induction l with
    | nil => intro _ np s0 f0 h; exact ⟨np, s0, rfl, by simpa using h⟩
    | cons a l ih =>
      intro hl np s0 f0 h
      obtain ⟨hav, haf⟩ := (hp.mem a).mp (hl a (by simp))
      obtain ⟨d, hd⟩ := Option.ne_none_iff_exists'.mp haf
      have hd1 : d ≠ -1 := fun hc => hp.val a hav (by rw [hd, hc])
      rw [List.map_cons, List.foldlM_cons, planGet_eq hp hn hav, Outcome.bind_ok, hd]
      simp only [Option.getD_some]
      by_cases hds : d = g.self
      · rw [if_neg (by simpa using hds)]
        obtain ⟨plan', s', e, h'⟩ := ih (fun v hv => hl v (by simp [hv])) np s0 f0 h
        refine ⟨plan', s', by simpa using e, ?_⟩
        have : (fun v => if v ∈ a :: l ∧ f v ≠ some g.self then f v else f0 v) =
            (fun v => if v ∈ l ∧ f v ≠ some g.self then f v else f0 v) := by
          funext v
          by_cases hva : v = a
          · subst hva; simp [hd, hds]
          · simp [hva]
        rw [this]; exact h'
      · rw [if_pos hds]
        obtain ⟨np', e1, h1⟩ := planInsert_rep (g := g) h hn hnd hav hd1
        rw [e1]
        simp only [Outcome.bind_ok, Outcome.pure_eq]
        obtain ⟨plan', s', e, h'⟩ := ih (fun v hv => hl v (by simp [hv])) np' _ _ h1
        refine ⟨plan', s', by simpa using e, ?_⟩
        have : (fun v => if v ∈ a :: l ∧ f v ≠ some g.self then f v else f0 v) =
            (fun v => if v ∈ l ∧ f v ≠ some g.self then f v else planPut f0 a d v) := by
          funext v
          unfold planPut
          by_cases hva : v = a
          · subst hva; simp [hd, hds]
          · simp [hva]
        rw [this]; exact h'
  obtain ⟨plan', s', e, h'⟩ := key s (fun v h => h) p0 [] _ h0
  exact ⟨plan', s', e, h'⟩

/-- `updateGhostOwners`: which messages are sent -/
theorem ownerUpdates_spec (hm : MView g verts ghosts ez) (hp : PlanRep verts plan s f) {o : Gid → Part}
    (ho : ∀ u ∈ verts ++ ghosts, g.owner (vh (verts ++ ghosts) u) = .ok (o u)) :
    ∃ msgs, g.ownerUpdates plan = .ok msgs ∧ ∀ m, m ∈ msgs ↔ ∃ v ∈ s, ∃ x ∈ ez, v ∈ x.2.pins ∧
      ∃ u ∈ x.2.pins, o u ≠ g.self ∧ m = (o u, (v, (f v).getD (-1))) := by
  unfold Graph.ownerUpdates
  rw [sending_known (ghosts := ghosts) hp]
  obtain ⟨msgs, e, h⟩ := foldlM_inv (fun acc v => do
      let gid ← g.globalID v
      let d ← g.planGet plan v
      let it ← g.adjacent v 0
      iterLoop g.iterAdj (g.updateBody gid d) g.adjFuel it acc)
    (fun pre acc => ∀ m, m ∈ acc ↔ ∃ v ∈ s, vh (verts ++ ghosts) v ∈ pre ∧ ∃ x ∈ ez, v ∈ x.2.pins ∧
      ∃ u ∈ x.2.pins, o u ≠ g.self ∧ m = (o u, (v, (f v).getD (-1))))
    (s.map (vh (verts ++ ghosts)))
    (by
      intro pre h acc hpre hacc
      obtain ⟨v, hvs, rfl⟩ := List.mem_map.mp (hpre.subset (by simp : h ∈ pre ++ [h]))
      have hvl := ((hp.mem v).mp hvs).1
      have hvk : v ∈ verts ++ ghosts := by simp [hvl]
      obtain ⟨it, run, ha, hr, hf, hrm⟩ := hm.adj v hvl
      rw [globalID_eq hm.v hvk, Outcome.bind_ok, planGet_known hm.v hp hvl, Outcome.bind_ok, ha,
        Outcome.bind_ok, iterLoop_yields _ _ _ _ _ hr.yields (by simpa using hf)]
      rw [loopList_fold (f := fun acc other => do
        let own ← g.owner other
        if own ≠ g.self then return acc ++ [(own, (v, (f v).getD (-1)))] else return acc) _ (by
          intro b x _
          unfold Graph.updateBody
          cases g.owner x with
          | ok a => simp only [Outcome.bind_ok]; split <;> rfl
          | fail => rfl
          | ub => rfl)]
      obtain ⟨acc', e', h'⟩ := foldlM_inv (fun acc other => do
          let own ← g.owner other
          if own ≠ g.self then return acc ++ [(own, (v, (f v).getD (-1)))] else return acc)
        (fun pre' acc' => ∀ m, m ∈ acc' ↔ m ∈ acc ∨ ∃ u ∈ verts ++ ghosts, vh (verts ++ ghosts) u ∈ pre' ∧
          o u ≠ g.self ∧ m = (o u, (v, (f v).getD (-1))))
        (run.map Prod.fst)
        (by
          intro pre' h' acc' hpre' hacc'
          obtain ⟨y, hy, rfl⟩ := List.mem_map.mp (hpre'.subset (by simp : h' ∈ pre' ++ [h']))
          obtain ⟨E, hE, -, u, hu, hxu⟩ := (hrm y.1 y.2).mp hy
          have huk := hm.known _ hE u hu
          rw [hxu, ho u huk, Outcome.bind_ok]
          by_cases hos : o u = g.self
          · rw [if_neg (by simpa using hos)]
            refine ⟨acc', rfl, fun m => ?_⟩
            rw [hacc']
            constructor
            · rintro (h | ⟨w, hw, hwp, hr⟩)
              · exact .inl h
              · exact .inr ⟨w, hw, by simp [hwp], hr⟩
            · rintro (h | ⟨w, hw, hwp, hr⟩)
              · exact .inl h
              · rw [List.mem_append, List.mem_singleton] at hwp
                rcases hwp with hwp | hwp
                · exact .inr ⟨w, hw, hwp, hr⟩
                · exfalso
                  have : o w = o u := by
                    have h1 := ho w hw
                    rw [hwp, ho u huk] at h1
                    exact (Outcome.ok.inj h1).symm
                  rw [this] at hr
                  exact hr.1 hos
          · rw [if_pos hos]
            refine ⟨_, rfl, fun m => ?_⟩
            rw [List.mem_append, hacc', List.mem_singleton]
            constructor
            · rintro ((h | ⟨w, hw, hwp, hr⟩) | h)
              · exact .inl h
              · exact .inr ⟨w, hw, by simp [hwp], hr⟩
              · exact .inr ⟨u, huk, by simp, hos, h⟩
            · rintro (h | ⟨w, hw, hwp, hr⟩)
              · exact .inl (.inl h)
              · rw [List.mem_append, List.mem_singleton] at hwp
                rcases hwp with hwp | hwp
                · exact .inl (.inr ⟨w, hw, hwp, hr⟩)
                · right
                  have : o w = o u := by
                    have h1 := ho w hw
                    rw [hwp, ho u huk] at h1
                    exact (Outcome.ok.inj h1).symm
                  rw [hr.2, this])
        acc (by simp)
      rw [e']
      refine ⟨acc', rfl, fun m => ?_⟩
      rw [h', hacc]
      constructor
      · rintro (⟨w, hw, hwp, hr⟩ | ⟨u, hu, hup, hos, hme⟩)
        · exact ⟨w, hw, by simp [hwp], hr⟩
        · obtain ⟨y, hy, hyu⟩ := List.mem_map.mp hup
          obtain ⟨E, hE, hvE, u', hu', hxu⟩ := (hrm y.1 y.2).mp hy
          have huk := hm.known _ hE u' hu'
          have : o u' = o u := by
            have h1 := ho u' huk
            rw [← hxu, hyu, ho u hu] at h1
            exact (Outcome.ok.inj h1).symm
          exact ⟨v, hvs, by simp, _, hE, hvE, u', hu', by rw [this]; exact hos, by rw [this]; exact hme⟩
      · rintro ⟨w, hw, hwp, x, hx, hwx, u, hu, hos, hme⟩
        rw [List.mem_append, List.mem_singleton] at hwp
        rcases hwp with hwp | hwp
        · exact .inl ⟨w, hw, hwp, x, hx, hwx, u, hu, hos, hme⟩
        · right
          have hwl := ((hp.mem w).mp hw).1
          have hwv : w = v := by
            have h1 := globalID_eq hm.v (v := w) (by simp [hwl])
            have h2 := globalID_eq hm.v hvk
            unfold vh at hwp
            rw [hwp, h2] at h1
            exact (Outcome.ok.inj h1).symm
          subst hwv
          refine ⟨u, hm.known x hx u hu, ?_, hos, hme⟩
          rw [List.mem_map]
          exact ⟨(vh (verts ++ ghosts) u, x.1), (hrm _ _).mpr ⟨x.2, hx, hwx, u, hu, rfl⟩, rfl⟩)
    [] (by simp)
  refine ⟨msgs, e, fun m => ?_⟩
  rw [h]
  constructor
  · rintro ⟨v, hv, -, hr⟩; exact ⟨v, hv, hr⟩
  · rintro ⟨v, hv, hr⟩; exact ⟨v, hv, List.mem_map.mpr ⟨v, hv, rfl⟩, hr⟩

/-- receiving the new owners -/
theorem applyOwner_spec (hv : VRep g verts ghosts) {o : Gid → Part} (ho : ORep g ghosts o)
    {o' : Gid → Part} (msgs : List (Nat × (Gid × Part)))
    (hmsg : ∀ m ∈ msgs, m.2.1 ∈ ghosts ∧ m.2.2 = o' m.2.1)
    (hun : ∀ v ∈ ghosts, (∃ m ∈ msgs, m.2.1 = v) ∨ o v = o' v) :
    ∃ g', msgs.foldlM Graph.applyOwner g = .ok g' ∧ g' = { g with owners := g'.owners } ∧ ORep g' ghosts o' := by
  rcases ho with ⟨hg, hno⟩ | ho
  · have : msgs = [] := by
      cases msgs with
      | nil => rfl
      | cons m ms => have := (hmsg m (by simp)).1; rw [hg] at this; simp at this
    subst this
    exact ⟨g, rfl, rfl, .inl ⟨hg, hno⟩⟩
  · obtain ⟨g', e, hge, hl, ha⟩ := foldlM_inv Graph.applyOwner
      (fun pre g' => g' = { g with owners := g'.owners } ∧ ∃ tag, g'.owners = some tag ∧
        tag.length = ghosts.length ∧ ∀ j (hj : j < ghosts.length), tag[j]? =
          some (some (if ∃ m ∈ pre, m.2.1 = ghosts[j] then o' ghosts[j] else o ghosts[j])))
      msgs
      (by
        intro pre m g1 hpre ⟨hg1, tag, ht, hl, ha⟩
        obtain ⟨hmg, hmo⟩ := hmsg m (hpre.subset (by simp))
        have hlk : g1.lookup0 m.2.1 = verts.length + ghosts.idxOf m.2.1 := by
          have : g1.lookup0 m.2.1 = g.lookup0 m.2.1 := by
            unfold Graph.lookup0
            rw [hg1]
          rw [this]
          unfold Graph.lookup0
          rw [hv.map, lookup_of_mem (by simp [hmg]), Option.getD_some, List.idxOf_append_of_notMem]
          intro hv'
          exact (List.nodup_append.mp hv.nodup).2.2 _ hv' _ hmg rfl
        have hnl : g1.numLocal = verts.length := by rw [hg1]; exact hv.nl
        have hlt := List.idxOf_lt_length_of_mem hmg
        unfold Graph.applyOwner
        rw [hlk, hnl, if_neg (by omega), ht]
        simp only [deref, Outcome.ofOption_some, Outcome.bind_ok, Nat.add_sub_cancel_left]
        rw [Mem.store_ok _ (by omega), Outcome.bind_ok]
        refine ⟨_, rfl, ?_, _, rfl, by simpa using hl, ?_⟩
        · have h2 : ∀ x : Option (Mem Part), ({ g1 with owners := x } : Graph) = { g with owners := x } := by
            intro x; rw [hg1]
          simp only [← hnl]
          exact h2 _
        · intro j hj
          rw [List.getElem?_set]
          by_cases he : ghosts.idxOf m.2.1 = j
          · subst he
            rw [if_pos rfl, if_pos (by omega), List.getElem_idxOf, if_pos ⟨m, by simp, rfl⟩, hmo]
          · rw [if_neg he, ha j hj]
            congr 3
            apply propext
            constructor
            · rintro ⟨m', h1, h2⟩; exact ⟨m', by simp [h1], h2⟩
            · rintro ⟨m', h1, h2⟩
              rw [List.mem_append, List.mem_singleton] at h1
              rcases h1 with h1 | rfl
              · exact ⟨m', h1, h2⟩
              · exfalso; apply he; rw [h2]
                exact (List.nodup_append.mp hv.nodup).2.1.idxOf_getElem _ _)
      g ⟨rfl, _, ho, by simp, by intro j hj; simp [Mem.ofList, hj]⟩
    refine ⟨g', e, hge, .inr ?_⟩
    obtain ⟨hl1, hl2, hl3⟩ := ha
    rw [hl1]
    congr 1
    apply ofList_of_get
    · simpa using hl2
    · intro j hj
      have hj' : j < ghosts.length := by simpa using hj
      rw [hl3 j hj', List.getElem_map]
      rcases hun ghosts[j] (List.getElem_mem hj') with h | h
      · rw [if_pos h]
      · rw [← h]; split <;> rfl

end
end Verif.Agi
