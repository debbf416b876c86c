import Verif.Agi.TradRound
import Verif.Part.CompProps
/-!
# Migration of traditional graphs returns: the steps of one part
-/
namespace Verif.Agi
open Verif.Io (grouped grouped_perm grouped_length)

section
variable {g : Graph} {V ghosts ids : List Gid} {es : List (List Gid)} {wgts : List Wgt} {plan : Plan} {s : List Gid}
  {own' : Gid → Nat} {p : Nat}

/-! ## the owners of ghosts -/

/-- the edges that leave a vertex -/
def outArcs (es : List (List Gid)) (v : Gid) : List (List Gid) := es.filter (fun x => x[0]? == some v)

theorem mem_outArcs (hs : ArcsOn V es) {v : Gid} {x : List Gid} : x ∈ outArcs es v ↔ x ∈ es ∧ src x = v := by
  unfold outArcs
  rw [List.mem_filter]
  constructor
  · rintro ⟨h1, h2⟩
    obtain ⟨u, -, w, -, rfl⟩ := hs x h1
    refine ⟨h1, ?_⟩
    simpa [src] using h2
  · rintro ⟨h1, h2⟩
    obtain ⟨u, -, w, -, rfl⟩ := hs x h1
    refine ⟨h1, ?_⟩
    simpa [src] using h2

theorem updates_run {v : Gid} {d : Part} {o : Gid → Part} {known : List Gid}
    (ho : ∀ u ∈ known, g.owner (vh known u) = .ok (o u)) :
    ∀ (l : List Gid), (∀ u ∈ l, u ∈ known) → ∀ acc, loopList (g.updateBody v d) (l.map (vh known)) acc =
      .ok (acc ++ (l.filter (fun u => decide (o u ≠ g.self))).map (fun u => (o u, (v, d)))) := by
  intro l
  induction l with
  | nil => intro _ acc; simp [loopList]
  | cons a l ih =>
    intro hl acc
    rw [List.map_cons, loopList]
    unfold Graph.updateBody
    rw [ho a (hl a (by simp)), Outcome.bind_ok]
    have ih' := ih (fun u hu => hl u (by simp [hu]))
    unfold Graph.updateBody at ih'
    by_cases hc : o a = g.self
    · rw [if_neg (by simpa using hc)]
      simp only [Outcome.pure_eq, Outcome.bind_ok, Bool.false_eq_true, if_false] at ih' ⊢
      rw [ih' acc]
      simp [hc]
    · rw [if_pos hc]
      simp only [Outcome.pure_eq, Outcome.bind_ok, Bool.false_eq_true, if_false] at ih' ⊢
      rw [ih']
      simp [hc]

/-- the messages of `updateGhostOwners` in a traditional graph -/
theorem ownerUpdates_trad (c : CRep g false V ghosts [⟨ids, es, wgts⟩]) (hs : ArcsOn V es)
    (hp : PlanTo V plan s own' p) {o : Gid → Part}
    (ho : ∀ u ∈ V ++ ghosts, g.owner (vh (V ++ ghosts) u) = .ok (o u)) :
    ∃ msgs, g.ownerUpdates plan = .ok msgs ∧ ∀ m, m ∈ msgs ↔
      ∃ v ∈ s, ∃ x ∈ es, src x = v ∧ o (dst x) ≠ g.self ∧ m = (o (dst x), (v, (own' v : Int))) := by
  obtain ⟨f, hpr, hf, hsm⟩ := hp
  have key : ∀ (l : List Gid), (∀ v ∈ l, v ∈ s) → ∀ acc, (l.map (fun v => getVertex (V.idxOf v))).foldlM (fun acc v => do
      let gid ← g.globalID v
      let d ← g.planGet plan v
      let it ← g.adjacent v 0
      iterLoop g.iterAdj (g.updateBody gid d) g.adjFuel it acc) acc =
      .ok (acc ++ l.flatMap (fun v => (((outArcs es v).map dst).filter (fun u => decide (o u ≠ g.self))).map
        (fun u => (o u, (v, (own' v : Int)))))) := by
    intro l
    induction l with
    | nil => intro _ acc; simp
    | cons v l ih =>
      intro hl acc
      have hvs := hl v (by simp)
      have hvV := ((hsm v).mp hvs).1
      have hu := List.idxOf_lt_length_of_mem hvV
      have hVu : V[V.idxOf v] = v := List.getElem_idxOf hu
      obtain ⟨it, hit, hy⟩ := Part.yields_adj_trad (t := 0) c (by simp) hu
      simp only [List.getElem_cons_zero, hVu] at hy
      have hgu : g.globalID (getVertex (V.idxOf v)) = .ok v := by
        have := globalID_eq c.v (List.mem_append_left ghosts hvV)
        rw [List.idxOf_append_of_mem hvV] at this
        exact this
      have hadj : (adjOf false (V ++ ghosts) es v).map getVertex = ((outArcs es v).map dst).map (vh (V ++ ghosts)) := by
        unfold adjOf outArcs
        simp only [Bool.false_eq_true, if_false, List.map_map]
        rfl
      have hfu := arc_fuel c hu
      rw [hVu] at hfu
      have hlen : ((adjOf false (V ++ ghosts) es v).map getVertex).length < g.adjFuel := by
        rw [List.length_map, adjOf_length]; exact hfu
      rw [List.map_cons, List.foldlM_cons, hgu, Outcome.bind_ok, planGet_eq hpr c.v.nl hvV, Outcome.bind_ok, hit,
        Outcome.bind_ok, iterLoop_yields _ _ _ g.adjFuel _ hy hlen, hadj, updates_run ho _ (by
          intro u hu'
          obtain ⟨x, hx, rfl⟩ := List.mem_map.mp hu'
          have hx' := ((mem_outArcs hs).mp hx).1
          obtain ⟨u0, -, w, -, rfl⟩ := hs x hx'
          have := c.pins 0 (by simp) w
          simp only [List.getElem_cons_zero] at this
          exact this (List.mem_flatten.mpr ⟨_, hx', by simp⟩)), Outcome.bind_ok, ih (fun v hv => hl v (by simp [hv])), hf v hvs,
        List.flatMap_cons, List.append_assoc]
      rfl
  unfold Graph.ownerUpdates
  rw [hpr.sending]
  refine ⟨_, key s (fun v h => h) [], fun m => ?_⟩
  rw [List.nil_append, List.mem_flatMap]
  constructor
  · rintro ⟨v, hv, hm⟩
    obtain ⟨u, hu, rfl⟩ := List.mem_map.mp hm
    obtain ⟨h1, h2⟩ := List.mem_filter.mp hu
    obtain ⟨x, hx, rfl⟩ := List.mem_map.mp h1
    obtain ⟨h3, h4⟩ := (mem_outArcs hs).mp hx
    exact ⟨v, hv, x, h3, h4, of_decide_eq_true h2, rfl⟩
  · rintro ⟨v, hv, x, hx, h1, h2, rfl⟩
    refine ⟨v, hv, List.mem_map.mpr ⟨dst x, ?_, rfl⟩⟩
    rw [List.mem_filter]
    exact ⟨List.mem_map.mpr ⟨x, (mem_outArcs hs).mpr ⟨hx, h1⟩, rfl⟩, decide_eq_true h2⟩

/-- receiving new owners, some of them of vertices the part does not know -/
theorem applyOwner_any (hv : VRep g V ghosts) {o : Gid → Part} (ho : ORep g ghosts o)
    {o' : Gid → Part} (msgs : List (Nat × (Gid × Part))) (hne : msgs ≠ [] → V ≠ [])
    (hmsg : ∀ m ∈ msgs, m.2.2 = o' m.2.1) :
    ∃ g', msgs.foldlM Graph.applyOwner g = .ok g' ∧ g' = { g with owners := g'.owners } ∧
      ORep g' ghosts (fun v => if ∃ m ∈ msgs, m.2.1 = v then o' v else o v) := by
  have hnl := hv.nl
  have hskip : ∀ m ∈ msgs, m.2.1 ∉ ghosts → g.lookup0 m.2.1 < V.length := by
    intro m hm hg
    have hpos : 0 < V.length := List.length_pos_iff.mpr (hne (by rintro rfl; simp at hm))
    unfold Graph.lookup0
    rw [hv.map]
    by_cases hk : m.2.1 ∈ V ++ ghosts
    · rw [lookup_of_mem hk, Option.getD_some]
      rcases List.mem_append.mp hk with h | h
      · exact idxOf_lt_iff.mpr h
      · exact absurd h hg
    · rw [lookup_of_not_mem hk]; exact hpos
  rcases ho with ⟨hg, hno⟩ | ho
  · subst hg
    refine ⟨g, ?_, rfl, .inl ⟨rfl, hno⟩⟩
    have key : ∀ l : List (Nat × (Gid × Part)), (∀ m ∈ l, m ∈ msgs) → l.foldlM Graph.applyOwner g = .ok g := by
      intro l
      induction l with
      | nil => intro _; rfl
      | cons m l ih =>
        intro hl
        rw [List.foldlM_cons]
        have := hskip m (hl m (by simp)) (by simp)
        unfold Graph.applyOwner
        rw [if_pos (by omega), Outcome.bind_ok]
        exact ih (fun m hm => hl m (by simp [hm]))
    exact key msgs (fun m h => h)
  · obtain ⟨g', e, hge, hl, ha⟩ := foldlM_inv Graph.applyOwner
      (fun pre g' => g' = { g with owners := g'.owners } ∧ ∃ tag, g'.owners = some tag ∧
        tag.length = ghosts.length ∧ ∀ j (hj : j < ghosts.length), tag[j]? =
          some (some (if ∃ m ∈ pre, m.2.1 = ghosts[j] then o' ghosts[j] else o ghosts[j])))
      msgs
      (by
        intro pre m g1 hpre ⟨hg1, tag, ht, hl, ha⟩
        have hmm := hpre.subset (by simp : m ∈ pre ++ [m])
        have hmo := hmsg m hmm
        have hlk0 : g1.lookup0 m.2.1 = g.lookup0 m.2.1 := by
          unfold Graph.lookup0
          rw [hg1]
        have hnl1 : g1.numLocal = V.length := by rw [hg1]; exact hv.nl
        by_cases hmg : m.2.1 ∈ ghosts
        · have hlk : g1.lookup0 m.2.1 = V.length + ghosts.idxOf m.2.1 := by
            rw [hlk0]
            unfold Graph.lookup0
            rw [hv.map, lookup_of_mem (by simp [hmg]), Option.getD_some, List.idxOf_append_of_notMem]
            intro hv'
            exact (List.nodup_append.mp hv.nodup).2.2 _ hv' _ hmg rfl
          have hlt := List.idxOf_lt_length_of_mem hmg
          unfold Graph.applyOwner
          rw [hlk, hnl1, if_neg (by omega), ht]
          simp only [deref, Outcome.ofOption_some, Outcome.bind_ok, Nat.add_sub_cancel_left]
          rw [Mem.store_ok _ (by omega), Outcome.bind_ok]
          refine ⟨_, rfl, ?_, _, rfl, by simpa using hl, ?_⟩
          · have h2 : ∀ x : Option (Mem Part), ({ g1 with owners := x } : Graph) = { g with owners := x } := by
              intro x; rw [hg1]
            simp only [← hnl1]
            exact h2 _
          · intro j hj
            rw [List.getElem?_set]
            by_cases he : ghosts.idxOf m.2.1 = j
            · subst he
              rw [if_pos rfl, if_pos (by omega), List.getElem_idxOf, if_pos ⟨m, by simp, rfl⟩, hmo]
            · rw [if_neg he, ha j hj]
              congr 3
              apply propext
              constructor
              · rintro ⟨m', h1, h2⟩; exact ⟨m', by simp [h1], h2⟩
              · rintro ⟨m', h1, h2⟩
                rw [List.mem_append, List.mem_singleton] at h1
                rcases h1 with h1 | rfl
                · exact ⟨m', h1, h2⟩
                · exfalso; apply he; rw [h2]
                  exact (List.nodup_append.mp hv.nodup).2.1.idxOf_getElem _ _
        · have := hskip m hmm hmg
          unfold Graph.applyOwner
          rw [hlk0, hnl1, if_pos this]
          refine ⟨_, rfl, hg1, tag, ht, hl, ?_⟩
          intro j hj
          rw [ha j hj]
          congr 3
          apply propext
          constructor
          · rintro ⟨m', h1, h2⟩; exact ⟨m', by simp [h1], h2⟩
          · rintro ⟨m', h1, h2⟩
            rw [List.mem_append, List.mem_singleton] at h1
            rcases h1 with h1 | rfl
            · exact ⟨m', h1, h2⟩
            · exact absurd (by rw [h2]; exact List.getElem_mem hj) hmg)
      g ⟨rfl, _, ho, by simp, by intro j hj; simp [Mem.ofList, hj]⟩
    refine ⟨g', e, hge, .inr ?_⟩
    obtain ⟨hl1, hl2, hl3⟩ := ha
    rw [hl1]
    congr 1
    apply ofList_of_get
    · simpa using hl2
    · intro j hj
      have hj' : j < ghosts.length := by simpa using hj
      rw [hl3 j hj', List.getElem_map]

/-! ## what stays -/

/-- the owner map knows where the vertices of `K` that are not on part `p` go -/
def Knows (p : Nat) (own' : Gid → Nat) (K : List Gid) (gm : GMap Part) : Prop :=
  ∀ v ∈ K, own' v ≠ p → gm v = some (own' v : Int)

theorem Knows.put {K : List Gid} {gm : GMap Part} (h : Knows p own' K gm) {v : Gid} {o : Part}
    (ho : own' v ≠ p → o = (own' v : Int)) : Knows p own' (K ++ [v]) (if o ≠ (p : Int) then gm.put v o else gm) := by
  intro u hu hne
  by_cases huv : u = v
  · subst huv
    have := ho hne
    rw [if_pos (by rw [this]; omega)]
    unfold GMap.put
    rw [if_pos rfl, this]
  · have hK : u ∈ K := by
      rcases List.mem_append.mp hu with h | h
      · exact h
      · exact absurd (List.mem_singleton.mp h) huv
    split
    · unfold GMap.put
      rw [if_neg huv]
      exact h u hK hne
    · exact h u hK hne

theorem keepPins_ok {known : List Gid} (hself : g.self = (p : Int)) (hg : ∀ v ∈ known, g.globalID (vh known v) = .ok v)
    {o : Gid → Part} (ho : ∀ v ∈ known, g.owner (vh known v) = .ok (o v)) :
    ∀ (l : List Gid), (∀ v ∈ l, v ∈ known) → (∀ v ∈ l, own' v ≠ p → o v = (own' v : Int)) →
      ∀ (acc : List Gid × GMap Part), Knows p own' acc.1 acc.2 →
      ∃ gm, loopList g.keepPin (l.map (vh known)) acc = .ok (acc.1 ++ l, gm) ∧ Knows p own' (acc.1 ++ l) gm := by
  intro l
  induction l with
  | nil => intro _ _ acc h; exact ⟨acc.2, by simp [loopList], by simpa using h⟩
  | cons a l ih =>
    intro hl hw acc h
    have ha := hl a (by simp)
    have h1 := h.put (v := a) (o := o a) (hw a (by simp))
    obtain ⟨gm, e, h2⟩ := ih (fun v hv => hl v (by simp [hv])) (fun v hv => hw v (by simp [hv]))
      (acc.1 ++ [a], if o a ≠ (p : Int) then acc.2.put a (o a) else acc.2) h1
    refine ⟨gm, ?_, by simpa using h2⟩
    rw [List.map_cons, loopList]
    have e1 : g.keepPin acc (vh known a) =
        .ok ((acc.1 ++ [a], if o a ≠ (p : Int) then acc.2.put a (o a) else acc.2), false) := by
      unfold Graph.keepPin
      rw [hg a ha, Outcome.bind_ok, ho a ha, Outcome.bind_ok, hself]
      rfl
    rw [e1, Outcome.bind_ok]
    simp only [Bool.false_eq_true, if_false]
    rw [e]
    simp

/-- the edges that stay are collected, and with them the owners of their pins -/
theorem keepEdges_ok (c : CRep g false V ghosts [⟨ids, es, wgts⟩]) (hs : ArcsOn V es) (hself : g.self = (p : Int))
    (hp : PlanTo V plan s own' p) {o : Gid → Part}
    (ho : ∀ v ∈ V ++ ghosts, g.owner (vh (V ++ ghosts) v) = .ok (o v))
    (hw : ∀ x ∈ grouped V es, (¬ ∃ v ∈ x, v ∈ s) → ∀ v ∈ x, own' v ≠ p → o v = (own' v : Int)) :
    ∃ a, g.keepEdges plan GMap.empty 0 = .ok a ∧ Knows p own' a.pins a.ghosts := by
  obtain ⟨f, hpr, -, -⟩ := hp
  have hph : ∀ v ∈ V ++ ghosts, g.planHas plan (vh (V ++ ghosts) v) = .ok (decide (v ∈ s)) := fun v hv =>
    planHas_known c.v hpr hv
  have hgi : ∀ v ∈ V ++ ghosts, g.globalID (vh (V ++ ghosts) v) = .ok v := fun v hv => globalID_eq c.v hv
  obtain ⟨it, hit, hy⟩ := edgeBegin_trad c hs
  unfold Graph.keepEdges
  rw [hit, Outcome.bind_ok, iterLoop_yields _ _ _ g.bound _ hy (by simpa using grouped_fuel c hs)]
  have key : ∀ (l : List Nat), (∀ k ∈ l, k < (grouped V es).length) → ∀ (a : EAcc), Knows p own' a.pins a.ghosts →
      ∃ r, loopList (g.keepEdge plan) (l.map (fun l => g.getEdge l 0)) a = .ok r ∧ Knows p own' r.pins r.ghosts := by
    intro l
    induction l with
    | nil => intro _ a h; exact ⟨a, rfl, h⟩
    | cons k l ih =>
      intro hl a h
      have hk := hl k (by simp)
      obtain ⟨E, hE, hat⟩ := arc_at c hs hk
      obtain ⟨hkn, hfu⟩ := trad_known c (List.getElem_mem hk)
      have hwk := hw _ (List.getElem_mem hk)
      rw [← hE] at hkn hfu hwk
      have h1 : ∃ a', g.keepEdge plan a (g.getEdge k 0) = .ok (a', false) ∧ Knows p own' a'.pins a'.ghosts := by
        unfold Graph.keepEdge
        rw [hasPlanned_at hph hat hkn hfu, Outcome.bind_ok]
        by_cases hpl : ∃ v ∈ E.pins, v ∈ s
        · simp only [hpl, decide_true, if_true]
          exact ⟨a, rfl, h⟩
        · simp only [hpl, decide_false, Bool.false_eq_true, if_false]
          obtain ⟨it', hit', hy'⟩ := hat.pins
          rw [hat.id, Outcome.bind_ok, hat.w, Outcome.bind_ok, hat.deg, Outcome.bind_ok, hit', Outcome.bind_ok,
            iterLoop_yields _ _ _ g.bound _ hy' (by rw [List.length_map]; exact hfu)]
          obtain ⟨gm, e, h2⟩ := keepPins_ok hself hgi ho E.pins hkn (hwk hpl) (a.pins, a.ghosts) h
          rw [e, Outcome.bind_ok]
          exact ⟨_, rfl, h2⟩
      obtain ⟨a', e1, h2⟩ := h1
      obtain ⟨r, e2, h3⟩ := ih (fun k hk => hl k (by simp [hk])) a' h2
      refine ⟨r, ?_, h3⟩
      rw [List.map_cons, loopList, e1, Outcome.bind_ok]
      simp only [Bool.false_eq_true, if_false]
      exact e2
  exact key _ (fun k hk => List.mem_range.mp hk) _ (by intro v hv; simp [EAcc.empty] at hv)

/-! ## what is sent -/

/-- a message that carries an edge: the owner of the destination is right unless both ends go to the same part -/
def MsgOk (own' : Gid → Nat) (m : Part × EMsg) : Prop :=
  ∃ u w o, m.2.pins = [u, w] ∧ m.2.owners = [(own' u : Int), o] ∧ m.1 = (own' u : Int) ∧
    (own' w ≠ own' u → o = (own' w : Int))

theorem packTrad_ok (c : CRep g false V ghosts [⟨ids, es, wgts⟩]) (hs : ArcsOn V es) (hself : g.self = (p : Int))
    (hp : PlanTo V plan s own' p) {o : Gid → Part}
    (ho : ∀ v ∈ V ++ ghosts, g.owner (vh (V ++ ghosts) v) = .ok (if v ∈ V then (p : Int) else o v))
    {k : Nat} (hk : k < (grouped V es).length) (hsrc : src (grouped V es)[k] ∈ s)
    (hw : dst (grouped V es)[k] ∉ V → own' (dst (grouped V es)[k]) ≠ own' (src (grouped V es)[k]) →
      o (dst (grouped V es)[k]) = (own' (dst (grouped V es)[k]) : Int)) :
    ∃ r : EMsg, g.packTrad plan (g.getEdge k 0) = .ok (r, [(own' (src (grouped V es)[k]) : Int)]) ∧
      MsgOk own' ((own' (src (grouped V es)[k]) : Int), r) := by
  obtain ⟨f, hpr, hf, hsm⟩ := hp
  obtain ⟨u, j, hu, -, -, -, hue, hve⟩ := arc_pos c hs hk
  obtain ⟨E, hE, hat⟩ := arc_at c hs hk
  have hsV := ((hsm _).mp hsrc).1
  obtain ⟨u', hu', w, hne, hx⟩ := hs _ (mem_grouped (List.getElem_mem hk))
  have hkn := (trad_known c (List.getElem_mem hk)).1
  have hdst : dst (grouped V es)[k] = w := by rw [hx]; rfl
  have hsrc' : src (grouped V es)[k] = u' := by rw [hx]; rfl
  rw [hsrc'] at hue hsrc hsV hw ⊢
  rw [hdst] at hve hw
  have hwk : w ∈ V ++ ghosts := hkn w (by rw [hx]; simp)
  have hgu : g.globalID (lh V u') = .ok u' := by
    have := globalID_eq c.v (List.mem_append_left ghosts hsV)
    rw [List.idxOf_append_of_mem hsV] at this
    exact this
  have hgw : g.globalID (vh (V ++ ghosts) w) = .ok w := globalID_eq c.v hwk
  have hph := planHas_eq hpr c.v.nl hsV
  have hpg := planGet_eq hpr c.v.nl hsV
  have hfs := hf _ hsrc
  have hno : ∃ od, g.newOwner plan (vh (V ++ ghosts) w) = .ok od ∧ (own' w ≠ own' u' → od = (own' w : Int)) := by
    unfold Graph.newOwner
    rw [ho w hwk, Outcome.bind_ok, planHas_known c.v hpr hwk, Outcome.bind_ok]
    by_cases hws : w ∈ s
    · have hwV := ((hsm w).mp hws).1
      simp only [hws, decide_true, if_true]
      rw [planGet_known c.v hpr hwV, hf w hws]
      exact ⟨_, rfl, fun _ => rfl⟩
    · simp only [hws, decide_false, Bool.false_eq_true, if_false]
      refine ⟨_, rfl, ?_⟩
      by_cases hwV : w ∈ V
      · intro _
        rw [if_pos hwV]
        by_contra hc
        exact hws ((hsm w).mpr ⟨hwV, by omega⟩)
      · rw [if_neg hwV]
        exact hw hwV
  obtain ⟨od, e1, hod⟩ := hno
  have hdec : g.decodeEdge (g.getEdge k 0) = .ok (0, k) := decode_getEdge (by rw [c.numTypes]; simp)
  refine ⟨⟨(k : Int), E.w, [u', w], [(own' u' : Int), od]⟩, ?_, ⟨u', w, od, rfl, rfl, rfl, hod⟩⟩
  unfold Graph.packTrad
  rw [hat.w, Outcome.bind_ok, hdec, Outcome.bind_ok]
  simp only
  rw [hue, Outcome.bind_ok, hgu, Outcome.bind_ok, hve, Outcome.bind_ok, e1, Outcome.bind_ok, hgw, Outcome.bind_ok, hph,
    Outcome.bind_ok, hfs]
  simp only [ne_eq, reduceCtorEq, not_false_eq_true, decide_true, if_true]
  rw [hpg, Outcome.bind_ok, hfs]
  rfl

theorem sendEdges_ok (c : CRep g false V ghosts [⟨ids, es, wgts⟩]) (hs : ArcsOn V es) (hself : g.self = (p : Int))
    (hp : PlanTo V plan s own' p) {o : Gid → Part}
    (ho : ∀ v ∈ V ++ ghosts, g.owner (vh (V ++ ghosts) v) = .ok (if v ∈ V then (p : Int) else o v))
    (hw : ∀ x ∈ es, src x ∈ s → dst x ∉ V → own' (dst x) ≠ own' (src x) → o (dst x) = (own' (dst x) : Int)) :
    ∀ (l : List Handle), (∀ e ∈ l, ∃ k, ∃ hk : k < (grouped V es).length, e = g.getEdge k 0 ∧ src (grouped V es)[k] ∈ s) →
      ∃ out, g.sendEdges plan l = .ok out ∧ ∀ m ∈ out, MsgOk own' m := by
  intro l hl
  have key : ∀ (l : List Handle), (∀ e ∈ l, ∃ k, ∃ hk : k < (grouped V es).length, e = g.getEdge k 0 ∧ src (grouped V es)[k] ∈ s) →
      ∃ packs : List (EMsg × List Part), l.mapM (fun e => if g.isHyper then g.packHyper plan e else g.packTrad plan e) = .ok packs ∧
        ∀ x ∈ packs, ∀ q ∈ x.2, MsgOk own' (q, x.1) := by
    intro l
    induction l with
    | nil => intro _; exact ⟨[], rfl, by simp⟩
    | cons e l ih =>
      intro hl
      obtain ⟨k, hk, rfl, hsk⟩ := hl e (by simp)
      obtain ⟨packs, e1, h1⟩ := ih (fun e he => hl e (by simp [he]))
      obtain ⟨r, e2, h2⟩ := packTrad_ok c hs hself hp ho hk hsk (hw _ (mem_grouped (List.getElem_mem hk)) hsk)
      refine ⟨(r, [(own' (src (grouped V es)[k]) : Int)]) :: packs, ?_, ?_⟩
      · rw [List.mapM_cons, c.hyp]
        simp only [Bool.false_eq_true, if_false]
        rw [e2, Outcome.bind_ok]
        rw [c.hyp] at e1
        simp only [Bool.false_eq_true, if_false] at e1
        rw [e1]; rfl
      · intro x hx q hq
        rcases List.mem_cons.mp hx with rfl | hx
        · simp only [List.mem_singleton] at hq
          subst hq
          exact h2
        · exact h1 x hx q hq
  obtain ⟨packs, e, h⟩ := key l hl
  unfold Graph.sendEdges
  rw [e, Outcome.bind_ok]
  refine ⟨_, rfl, ?_⟩
  intro m hm
  obtain ⟨x, hx, hm⟩ := List.mem_flatMap.mp hm
  obtain ⟨q, hq, rfl⟩ := List.mem_map.mp hm
  exact h x hx q hq

/-! ## what is received -/

theorem recv_ok : ∀ (ms : List (Nat × EMsg)) {a : EAcc}, Knows p own' a.pins a.ghosts →
    (∀ m ∈ ms, MsgOk own' ((p : Int), m.2)) →
    Knows p own' (ms.foldl (recvEdge (p : Int) false) a).pins (ms.foldl (recvEdge (p : Int) false) a).ghosts := by
  intro ms
  induction ms with
  | nil => intro a h _; exact h
  | cons m ms ih =>
    intro a h hm
    rw [List.foldl_cons]
    refine ih ?_ (fun m' h' => hm m' (by simp [h']))
    obtain ⟨u, w, o, h1, h2, h3, h4⟩ := hm m (by simp)
    simp only at h1 h2 h3
    have hu : own' u = p := by omega
    unfold recvEdge
    simp only [Bool.false_eq_true, false_and, if_false]
    rw [h1, h2]
    have k1 := h.put (v := u) (o := (own' u : Int)) (fun _ => rfl)
    have k2 := k1.put (v := w) (o := o) (by intro hne; exact h4 (by omega))
    rw [List.append_assoc] at k2
    exact k2

/-! ## rebuilding -/

/-- what a part is rebuilt from -/
def tradInput (D : VD) (W : List Gid) (a : EAcc) (L : List (List Gid)) : Input :=
  ⟨false, W, W.map D.wt, [⟨a.ids, L, a.wgts⟩]⟩

theorem tradInput_wf {D : VD} {W : List Gid} (hW : W.Nodup) {a : EAcc} {L : List (List Gid)} (hL : EOk a L)
    (h2 : ∀ x ∈ L, x.length = 2) : (tradInput D W a L).WF := by
  refine ⟨hW, by simp [tradInput, maxTypes], ?_⟩
  intro e he
  simp only [tradInput, List.mem_cons, List.not_mem_nil, or_false] at he
  subst he
  exact ⟨hL.ids, .inr (by simp [hL.wgts, hL.ids]), fun _ => h2⟩

theorem rebuild_ok {D : VD} {n : Nat} (hself : g.self = (p : Int)) (hpeers : g.peers = n) {W : List Gid} (hW : W.Nodup)
    {a : EAcc} {L : List (List Gid)} (hL : EOk a L) (h2 : ∀ x ∈ L, x.length = 2) (total : Int) :
    ∃ g' ghosts, g.rebuild false (W.map D.record) [a] (D.co.map (fun c => W.map c)) total = .ok g' ∧
      GRep g' (p : Int) n total (tradInput D W a L) ghosts ∧ g'.coords = D.co.map (fun c => Mem.ofList (W.map c)) := by
  obtain ⟨g1, ghosts, e, hr, hc⟩ := build_spec' (p : Int) n total (tradInput D W a L) (tradInput_wf hW hL h2)
  rw [← buildA_eq _ _ _ _ (tradInput_wf hW hL h2) (.inr (by simp [tradInput]))] at e
  have hb : (do
      let g ← constructVertsA g false (W.map D.record).length ((W.map D.record).map VRec.gid)
        (ptrOf ((W.map D.record).map VRec.w)) total
      [a].foldlM (fun g (e : EAcc) => constructEdgesA g e.ids e.degs e.pins (ptrOf e.wgts)) g) = .ok g1 := by
    rw [← e]
    unfold buildA tradInput
    have h1 : (W.map D.record).map VRec.gid = W := by
      rw [List.map_map]; exact List.map_id'' (fun v => rfl) W
    have h2 : (W.map D.record).map VRec.w = W.map D.wt := by rw [List.map_map]; rfl
    rw [h1, h2, List.length_map, ptrOf_eq]
    simp only [List.foldlM_cons, List.foldlM_nil, ptrOf_eq, hL.pins, hL.degs]
    subst hpeers
    rw [← hself]
    rfl
  unfold Graph.rebuild
  rcases hv : constructVertsA g false (W.map D.record).length ((W.map D.record).map VRec.gid)
      (ptrOf ((W.map D.record).map VRec.w)) total with x | _ | _
  · rw [hv, Outcome.bind_ok] at hb
    rw [Outcome.bind_ok, hb, Outcome.bind_ok]
    rcases hco : D.co with _ | c
    · simp only [Option.map_none]
      exact ⟨g1, ghosts, rfl, hr, hc⟩
    · simp only [Option.map_some]
      have hset : g1.setCoords (W.map c) = .ok { g1 with coords := some (Mem.ofList (W.map c)) } := by
        unfold Graph.setCoords
        rw [storeAll (W.map c) g1.numLocal (by rw [hr.vrep.nl]; simp [tradInput])]
        rfl
      exact ⟨_, ghosts, hset, hr.of_coords _, rfl⟩
  · rw [hv] at hb; simp at hb
  · rw [hv] at hb; simp at hb

end
end Verif.Agi
