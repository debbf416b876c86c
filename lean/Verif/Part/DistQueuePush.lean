import Verif.Part.DistQueueBfs
/-!
# The distance queue: `bfs_push`
-/
namespace Verif.Part
open Verif.Agi

/-- the edges and vertices of a part, by index: `pin e` the vertices of the edge `e < N`, `adj v` the edges of the local
vertex `v < nl` -/
structure EFacts (g : Graph) (N nl : Nat) (adj pin : Nat → List Nat) : Prop where
  types : 0 < g.numTypes
  loc : g.numLocal = nl
  pins : ∀ e, e < N → YieldsFrom (g.pins (g.getEdge e 0)) g.iterPin ((pin e).map getVertex) ∧ (pin e).length < g.bound
  owner : ∀ e, e < N → ∀ v ∈ pin e, ∃ o, g.owner (getVertex v) = .ok o ∧ (o = g.self ↔ v < nl)
  edges : ∀ v, v < nl → YieldsFrom (g.edges (getVertex v) 0) g.iterEdge ((adj v).map (fun e => g.getEdge e 0)) ∧
    (adj v).length < g.bound
  mem : ∀ v, v < nl → ∀ e, e ∈ adj v ↔ e < N ∧ v ∈ pin e

theorem getEdge0_inj {g : Graph} (h : 0 < g.numTypes) {a b : Nat} (he : g.getEdge a 0 = g.getEdge b 0) : a = b := by
  have h1 := decode_getEdge (g := g) (l := a) h
  rw [he, decode_getEdge h] at h1
  simp only [Outcome.ok.injEq, Prod.mk.injEq, true_and] at h1
  exact h1.symm

section
variable {g : Graph} {nl N : Nat} {adj pin : Nat → List Nat} {Old : List Nat} {visit : Visit}
  {I : List Nat → (Nat → Int) → List (Nat × Nat) → Inputs → Prop}
  {New0 : List Nat} {depth : Int} {vis0 : Nat → Int}

/-- the edges of a bridge -/
theorem push_edges (hF : EFacts g N nl adj pin) (hV : VisitOk visit N Old I) (hOld : ClosedSet nl adj (· ∈ Old)) {d : Int}
    {src v : Nat} (hv : v < nl) (hsv : src ∈ adj v) : ∀ (ds : List Nat), (∀ f ∈ ds, f ∈ adj v) →
    ∀ (New : List Nat) (vis : Nat → Int) (E : List (Nat × Nat)) (s : Inputs),
    Search nl adj I New0 depth vis0 d New vis E s → src ∈ New → vis src = d →
    ∃ s' New' vis' E', loopList (pushDest g visit (g.getEdge src 0)) (ds.map (fun e => g.getEdge e 0)) s = .ok s' ∧
      Search nl adj I New0 depth vis0 d New' vis' E' s' ∧ Grows New vis E New' vis' E' ∧
      ∀ f ∈ ds, f ∈ New' ∧ (f = src ∨ (src, f) ∈ E') := by
  intro ds
  induction ds with
  | nil =>
    intro _ New vis E s h _ _
    exact ⟨s, New, vis, E, rfl, h, Grows.refl _ _ _, by simp⟩
  | cons f ds ih =>
    intro hds New vis E s h hs hd
    have hN : ∀ v, v < nl → ∀ e ∈ adj v, e < N := fun v hv e he => ((hF.mem v hv e).mp he).1
    by_cases hfs : f = src
    · obtain ⟨s', New', vis', E', e, h1, h2, h3⟩ := ih (fun x hx => hds x (List.mem_cons_of_mem _ hx)) New vis E s h hs hd
      refine ⟨s', New', vis', E', ?_, h1, h2, ?_⟩
      · rw [List.map_cons, loopList]
        unfold pushDest at e ⊢
        rw [if_pos (by rw [hfs])]
        exact e
      · intro x hx
        rcases List.mem_cons.mp hx with rfl | hx
        · exact ⟨by rw [hfs]; exact h2.mem hs, Or.inl hfs⟩
        · exact h3 x hx
    · obtain ⟨s1, b, N1, v1, E1, e1, h1, g1, m1, p1, -⟩ := visit_step hV hN hOld h hs hd ⟨v, hv, hsv, hds f (by simp)⟩
      obtain ⟨s', New', vis', E', e, h2, g2, h3⟩ := ih (fun x hx => hds x (List.mem_cons_of_mem _ hx)) N1 v1 E1 s1 h1
        (g1.mem hs) (by rw [g1.same src hs]; exact hd)
      refine ⟨s', New', vis', E', ?_, h2, g1.trans g2, ?_⟩
      · rw [List.map_cons, loopList]
        have : pushDest g visit (g.getEdge src 0) s (g.getEdge f 0) = .ok (s1, false) := by
          unfold pushDest
          rw [if_neg (fun he => hfs (getEdge0_inj hF.types he)), decode_getEdge hF.types, Outcome.bind_ok]
          simp only [decode_getEdge hF.types, Outcome.bind_ok, e1]
          rfl
        rw [this]
        exact e
      · intro x hx
        rcases List.mem_cons.mp hx with rfl | hx
        · exact ⟨g2.mem m1, Or.inr (g2.pairs _ p1)⟩
        · exact h3 x hx

/-- the state of the push search with the first `k` edges dealt with; `pr` is the tag `processed` -/
structure PInv (nl : Nat) (adj : Nat → List Nat) (I : List Nat → (Nat → Int) → List (Nat × Nat) → Inputs → Prop)
    (New0 : List Nat) (depth : Int) (vis0 : Nat → Int) (k : Nat) (d : Int) (New : List Nat) (vis : Nat → Int)
    (E : List (Nat × Nat)) (s : Inputs) (tag : Mem Int) (pr : Nat → Int) : Prop where
  search : Search nl adj I New0 depth vis0 d New vis E s
  tag : Arr tag nl pr
  done : ∀ v, v < nl → pr v ≠ 0 → DoneAt adj New vis E v
  front : ∀ j, j < k → ∀ (hj : j < New.length), ∀ v, v < nl → New[j] ∈ adj v → pr v ≠ 0

theorem prefix_get {A B : List Nat} (h : A <+: B) {i : Nat} (hi : i < A.length) :
    ∃ h' : i < B.length, B[i] = A[i] := by
  have := h.length_le
  exact ⟨by omega, (h.getElem hi).symm⟩

/-- the pins of the `k`-th edge -/
theorem push_pins (hF : EFacts g N nl adj pin) (hV : VisitOk visit N Old I) (hOld : ClosedSet nl adj (· ∈ Old)) {d : Int}
    {src k : Nat} (hsN : src < N) : ∀ (ps : List Nat), (∀ v ∈ ps, v ∈ pin src) →
    ∀ (New : List Nat) (vis : Nat → Int) (E : List (Nat × Nat)) (s : Inputs) (tag : Mem Int) (pr : Nat → Int),
    PInv nl adj I New0 depth vis0 k d New vis E s tag pr → New[k]? = some src → vis src = d →
    ∃ s' New' vis' E' tag' pr', loopList (pushBridge g visit (g.getEdge src 0)) (ps.map getVertex) (s, tag) = .ok (s', tag') ∧
      PInv nl adj I New0 depth vis0 k d New' vis' E' s' tag' pr' ∧ Grows New vis E New' vis' E' ∧
      (∀ v, v < nl → pr v ≠ 0 → pr' v ≠ 0) ∧ ∀ v ∈ ps, v < nl → pr' v ≠ 0 := by
  intro ps
  induction ps with
  | nil =>
    intro _ New vis E s tag pr h _ _
    exact ⟨s, New, vis, E, tag, pr, rfl, h, Grows.refl _ _ _, fun _ _ h => h, by simp⟩
  | cons v ps ih =>
    intro hps New vis E s tag pr h hk hd
    have hs : src ∈ New := List.mem_of_getElem? hk
    obtain ⟨o, eo, ho⟩ := hF.owner src hsN v (hps v (by simp))
    by_cases hvl : v < nl
    · have hos : o = g.self := ho.mpr hvl
      have hget : g.getVtxTag tag (getVertex v) = .ok (pr v) := by
        unfold Graph.getVtxTag
        rw [vidx_getVertex, Outcome.bind_ok, hF.loc, if_neg (by omega), h.tag.load hvl]
      by_cases hp : pr v = 0
      · have hsv : src ∈ adj v := (hF.mem v hvl src).mpr ⟨hsN, hps v (by simp)⟩
        obtain ⟨⟨it, ei, hy⟩, hb⟩ := hF.edges v hvl
        obtain ⟨s1, N1, v1, E1, e1, h1, g1, m1⟩ := push_edges hF hV hOld hvl hsv (adj v) (fun _ h => h) New vis E s
          h.search hs hd
        obtain ⟨t1, e2, a1⟩ := h.tag.store hvl 1
        have hk1 : N1[k]? = some src := by
          obtain ⟨hkl, hke⟩ := List.getElem?_eq_some_iff.mp hk
          obtain ⟨h', e'⟩ := prefix_get g1.pre hkl
          rw [List.getElem?_eq_getElem h', e', hke]
        have hd1 : v1 src = d := by rw [g1.same src hs]; exact hd
        have hdone : DoneAt adj N1 v1 E1 v := by
          refine ⟨fun f hf => (m1 f hf).1, ?_, src, fun f hf => (m1 f hf).2⟩
          intro e he f hf
          have hmax := h1.max f (m1 f hf).1
          obtain ⟨i, hi, hie⟩ := List.mem_iff_getElem.mp (m1 e he).1
          have hki : ¬ i < k := by
            intro hik
            have hkl : k < New.length := (List.getElem?_eq_some_iff.mp hk).1
            have hiN : i < New.length := by omega
            obtain ⟨h', e'⟩ := prefix_get g1.pre hiN
            exact h.front i hik hiN v hvl (by rw [← e', hie]; exact he) hp
          have hle : d ≤ v1 e := by
            obtain ⟨hkl, hke⟩ := List.getElem?_eq_some_iff.mp hk1
            rcases Nat.lt_or_ge k i with hlt | hge
            · have := List.pairwise_iff_getElem.mp h1.sorted k i hkl hi hlt
              rw [hke, hie, hd1] at this; exact this
            · have : i = k := by omega
              subst this
              rw [← hie, hke, hd1]
          omega
        have hP1 : PInv nl adj I New0 depth vis0 k d N1 v1 E1 s1 t1 (Function.update pr v 1) := by
          refine ⟨h1, a1, ?_, ?_⟩
          · intro w hw hpw
            by_cases e : w = v
            · rw [e]; exact hdone
            · rw [Function.update_of_ne e] at hpw
              exact (h.done w hw hpw).grows g1
          · intro j hj hjl w hw hm
            by_cases e : w = v
            · rw [e, Function.update_self]; decide
            · rw [Function.update_of_ne e]
              have hkl : k < New.length := (List.getElem?_eq_some_iff.mp hk).1
              obtain ⟨h', e'⟩ := prefix_get g1.pre (show j < New.length by omega)
              exact h.front j hj (by omega) w hw (by rw [← e']; exact hm)
        obtain ⟨s', New', vis', E', tag', pr', e, h2, g2, mono, all⟩ := ih (fun x hx => hps x (List.mem_cons_of_mem _ hx))
          N1 v1 E1 s1 t1 _ hP1 hk1 hd1
        refine ⟨s', New', vis', E', tag', pr', ?_, h2, g1.trans g2, ?_, ?_⟩
        · have hb1 : pushBridge g visit (g.getEdge src 0) (s, tag) (getVertex v) = .ok ((s1, t1), false) := by
            unfold pushBridge
            rw [eo, Outcome.bind_ok, if_neg (by simpa using hos), hget, Outcome.bind_ok, if_neg (by simpa using hp), ei,
              Outcome.bind_ok, iterLoop_yields _ _ it g.bound s hy (by simpa using hb), e1, Outcome.bind_ok]
            unfold Graph.setVtxTag
            rw [vidx_getVertex, Outcome.bind_ok, e2]
            rfl
          rw [List.map_cons, loopList, hb1]
          exact e
        · intro w hw hpw
          apply mono w hw
          by_cases e : w = v
          · rw [e, Function.update_self]; decide
          · rw [Function.update_of_ne e]; exact hpw
        · intro w hw hwl
          rcases List.mem_cons.mp hw with rfl | hw
          · apply mono w hwl
            rw [Function.update_self]; decide
          · exact all w hw hwl
      · obtain ⟨s', New', vis', E', tag', pr', e, h2, g2, mono, all⟩ := ih (fun x hx => hps x (List.mem_cons_of_mem _ hx))
          New vis E s tag pr h hk hd
        refine ⟨s', New', vis', E', tag', pr', ?_, h2, g2, mono, ?_⟩
        · have hb1 : pushBridge g visit (g.getEdge src 0) (s, tag) (getVertex v) = .ok ((s, tag), false) := by
            unfold pushBridge
            rw [eo, Outcome.bind_ok, if_neg (by simpa using hos), hget, Outcome.bind_ok, if_pos hp]
            rfl
          rw [List.map_cons, loopList, hb1]
          exact e
        · intro w hw hwl
          rcases List.mem_cons.mp hw with rfl | hw
          · exact mono w hwl hp
          · exact all w hw hwl
    · obtain ⟨s', New', vis', E', tag', pr', e, h2, g2, mono, all⟩ := ih (fun x hx => hps x (List.mem_cons_of_mem _ hx))
        New vis E s tag pr h hk hd
      refine ⟨s', New', vis', E', tag', pr', ?_, h2, g2, mono, ?_⟩
      · have hb1 : pushBridge g visit (g.getEdge src 0) (s, tag) (getVertex v) = .ok ((s, tag), false) := by
          unfold pushBridge
          rw [eo, Outcome.bind_ok, if_pos (fun h => hvl (ho.mp h))]
          rfl
        rw [List.map_cons, loopList, hb1]
        exact e
      · intro w hw hwl
        rcases List.mem_cons.mp hw with rfl | hw
        · exact absurd hwl hvl
        · exact all w hw hwl

theorem Search.mono {d d' : Int} {New : List Nat} {vis : Nat → Int} {E : List (Nat × Nat)} {s : Inputs}
    (h : Search nl adj I New0 depth vis0 d New vis E s) (hd : d ≤ d') : Search nl adj I New0 depth vis0 d' New vis E s :=
  { h with max := fun e he => by have := h.max e he; omega }

/-- the loop over the queue of edges -/
theorem pushLoop_spec (hF : EFacts g N nl adj pin) (hV : VisitOk visit N Old I) (hOld : ClosedSet nl adj (· ∈ Old)) :
    ∀ (fuel k : Nat) (d : Int) (New : List Nat) (vis : Nat → Int) (E : List (Nat × Nat)) (s : Inputs) (tag : Mem Int)
      (pr : Nat → Int), PInv nl adj I New0 depth vis0 k d New vis E s tag pr → k ≤ New.length →
      (∀ hk : k < New.length, d ≤ vis New[k]) → N < fuel + k →
      ∃ s' New' vis' E', pushLoop g visit fuel (Old.length + k) (s, tag) = .ok s' ∧ I New' vis' E' s' ∧
        Found nl adj New0 depth vis0 New' vis' E'
  | 0, k, d, New, vis, E, s, tag, pr, h, hkl, _, hf => by
    have h1 := (hV.base _ _ _ _ h.search.inv).seeds.le
    rw [List.length_append] at h1
    omega
  | fuel + 1, k, d, New, vis, E, s, tag, pr, h, hkl, hd, hf => by
    have hst := hV.base _ _ _ _ h.search.inv
    unfold pushLoop
    by_cases hke : k = New.length
    · rw [if_pos (by show Old.length + k = s.numSeeds; rw [hst.seeds.num, List.length_append, hke])]
      refine ⟨s, New, vis, E, rfl, h.search.inv, h.search.found ?_⟩
      intro v hv e hev he
      obtain ⟨j, hj, rfl⟩ := List.mem_iff_getElem.mp he
      exact h.done v hv (h.front j (by omega) hj v hv hev)
    · have hk : k < New.length := by omega
      rw [if_neg (by show ¬ Old.length + k = s.numSeeds; rw [hst.seeds.num, List.length_append]; omega)]
      have hld : s.seeds.load (Old.length + k) = .ok New[k] := by
        rw [hst.seeds.load (by rw [List.length_append]; omega), List.getElem_append_right (by omega)]
        congr 1
        simp
      have hsN : New[k] < N := hst.seeds.lt _ (List.mem_append_right _ (List.getElem_mem hk))
      have hP : PInv nl adj I New0 depth vis0 k (vis New[k]) New vis E s tag pr :=
        { h with search := h.search.mono (hd hk) }
      obtain ⟨⟨it, ei, hy⟩, hb⟩ := hF.pins _ hsN
      obtain ⟨s1, N1, v1, E1, t1, pr1, e1, h1, g1, -, all⟩ := push_pins hF hV hOld hsN (pin New[k]) (fun _ h => h) New vis E s tag
        pr hP (List.getElem?_eq_getElem hk) rfl
      obtain ⟨hk1, ek⟩ := prefix_get g1.pre hk
      have hP1 : PInv nl adj I New0 depth vis0 (k + 1) (vis New[k]) N1 v1 E1 s1 t1 pr1 := by
        refine { h1 with front := ?_ }
        intro j hj hjl v hv hm
        rcases Nat.lt_or_ge j k with hjk | hjk
        · exact h1.front j hjk hjl v hv hm
        · have hjk' : j = k := by omega
          subst hjk'
          rw [ek] at hm
          exact all v ((hF.mem v hv _).mp hm).2 hv
      obtain ⟨s', New', vis', E', e, hi, hfd⟩ := pushLoop_spec hF hV hOld fuel (k + 1) (vis New[k]) N1 v1 E1 s1 t1 pr1 hP1
        (by omega) (by
          intro hk2
          have := List.pairwise_iff_getElem.mp h1.search.sorted k (k + 1) hk1 hk2 (by omega)
          rw [ek, g1.same _ (List.getElem_mem hk)] at this
          exact this) (by omega)
      refine ⟨s', New', vis', E', ?_, hi, hfd⟩
      simp only
      rw [hld, Outcome.bind_ok, ei, Outcome.bind_ok,
        iterLoop_yields _ _ it g.bound (s, tag) hy (by simpa using hb), e1, Outcome.bind_ok]
      exact e

/-- marking the seeds of a search -/
theorem setDepth_spec {s : Inputs} {vis : Nat → Int} (hS : Seeds s N (Old ++ New0)) (hA : Arr s.visited N vis)
    (depth : Int) : ∃ v, setDepth Old.length depth s = .ok { s with visited := v } ∧
      Arr v N (fun e => if e ∈ New0 then depth else vis e) := by
  have hn : s.numSeeds - Old.length = New0.length := by rw [hS.num, List.length_append]; omega
  obtain ⟨s', e, ⟨v, rfl, hv⟩⟩ := range_inv (fun (s : Inputs) i => do
      let e ← s.seeds.load i
      let v ← s.visited.store e depth
      return { s with visited := v })
    (fun k s' => ∃ v, s' = { s with visited := v } ∧ Arr v N (fun e => if e ∈ New0.take k then depth else vis e))
    Old.length New0.length (by
      rintro k s1 hk ⟨v, rfl, hv⟩
      have hld : s.seeds.load (Old.length + k) = .ok New0[k] := by
        rw [hS.load (by rw [List.length_append]; omega), List.getElem_append_right (by omega)]
        congr 1
        simp
      obtain ⟨v', e', hv'⟩ := hv.store (hS.lt _ (List.mem_append_right _ (List.getElem_mem hk))) depth
      refine ⟨{ s with visited := v' }, ?_, v', rfl, hv'.congr ?_⟩
      · simp only
        rw [hld, Outcome.bind_ok, e', Outcome.bind_ok]
        rfl
      · intro e _
        rw [List.take_succ_eq_append_getElem hk]
        by_cases he : e = New0[k]
        · subst he; rw [Function.update_self, if_pos (List.mem_append_right _ (List.mem_singleton.mpr rfl))]
        · rw [Function.update_of_ne he]
          simp only [List.mem_append, List.mem_singleton, he, or_false]) s
    ⟨s.visited, rfl, by simpa using hA⟩
  refine ⟨v, ?_, by simpa using hv⟩
  unfold setDepth
  rw [hn]
  exact e

/-- the tag of `bfs_push` -/
theorem pushTag (g : Graph) : ∃ tag : Mem Int, iterLoop g.iterVertex (fun tag v => do
    let tag ← Graph.setVtxTag tag v 0
    return (tag, false)) g.bound vertexBegin (Mem.alloc g.numLocal) = .ok tag ∧ Arr tag g.numLocal (fun _ => 0) := by
  obtain ⟨m, e, h⟩ := fill_arr g.numLocal (fun _ => (0 : Int))
  refine ⟨m, ?_, h⟩
  have hb : g.numLocal < g.bound := by unfold Graph.bound; omega
  rw [iterLoop_yields _ _ vertexBegin g.bound _ (yields_vertices g) (by simpa using hb)]
  rw [loopList_fold (f := fun (tag : Mem Int) v => Graph.setVtxTag tag v 0) _ (by
    intro b x _; rfl), List.foldlM_map]
  rw [← e]
  congr 1

/-- `bfs_push`: from the seeds `New0`, at the end of the list of seeds, it finds all edges that can be reached -/
theorem bfsPush_spec (hF : EFacts g N nl adj pin) (hV : VisitOk visit N Old I) (hOld : ClosedSet nl adj (· ∈ Old))
    (hne : New0 ≠ []) {s : Inputs} {vis : Nat → Int} (hS : Seeds s N (Old ++ New0)) (hA : Arr s.visited N vis)
    (hI : ∀ v, Arr v N (fun e => if e ∈ New0 then depth else vis e) →
      I New0 (fun e => if e ∈ New0 then depth else vis e) [] { s with visited := v }) :
    ∃ s' d New' vis' E', bfsPush g Old.length depth visit s = .ok (s', d) ∧ I New' vis' E' s' ∧
      Found nl adj New0 depth vis New' vis' E' ∧ depth ≤ d ∧ ∀ e ∈ New', vis' e ≤ d := by
  obtain ⟨tag, e1, ht⟩ := pushTag g
  rw [hF.loc] at ht
  obtain ⟨v, e2, hv⟩ := setDepth_spec hS hA depth
  have hS0 : Search nl adj I New0 depth vis depth New0 (fun e => if e ∈ New0 then depth else vis e) []
      { s with visited := v } := by
    refine ⟨hI v hv, List.prefix_rfl, fun C _ h0 => h0, ?_, fun e he => if_pos he, fun e he => Or.inl he,
      fun e he => if_neg he, fun e he => by simp only [if_pos he]; omega, by simp⟩
    rw [List.pairwise_iff_forall_sublist]
    intro a b hab
    have ha : a ∈ New0 := hab.subset (by simp)
    have hb : b ∈ New0 := hab.subset (by simp)
    simp only [if_pos ha, if_pos hb]
    exact le_refl _
  obtain ⟨s', New', vis', E', e3, hi, hfd⟩ := pushLoop_spec hF hV hOld (s.seeds.length + 1) 0 depth New0 _ [] _ tag _
    ⟨hS0, ht, fun v _ hp => absurd rfl hp, fun j hj => by omega⟩ (by omega)
    (fun hk => by simp only [if_pos (List.getElem_mem hk)]; exact le_refl _) (by rw [hS.len]; omega)
  have hst := hV.base _ _ _ _ hi
  have hpos : 0 < (Old ++ New').length := by
    have := hfd.pre.length_le
    have := List.length_pos_iff.mpr hne
    rw [List.length_append]; omega
  have hld : loadI s'.seeds ((s'.numSeeds : Int) - 1) = .ok ((Old ++ New')[(Old ++ New').length - 1]) := by
    unfold loadI
    rw [hst.seeds.num, if_neg (by omega)]
    have : (((Old ++ New').length : Int) - 1).toNat = (Old ++ New').length - 1 := by omega
    rw [this, hst.seeds.load (by omega)]
  have hlen : 0 < New'.length := by
    have := hfd.pre.length_le
    have := List.length_pos_iff.mpr hne
    omega
  have hlast : (Old ++ New')[(Old ++ New').length - 1] = New'[New'.length - 1] := by
    rw [List.getElem_append_right (by rw [List.length_append]; omega)]
    congr 1
    rw [List.length_append]; omega
  have hmax : ∀ e ∈ New', vis' e ≤ vis' New'[New'.length - 1] := by
    intro e he
    obtain ⟨i, hi', rfl⟩ := List.mem_iff_getElem.mp he
    rcases Nat.lt_or_ge i (New'.length - 1) with h | h
    · exact List.pairwise_iff_getElem.mp hfd.sorted i (New'.length - 1) hi' (by omega) h
    · have : i = New'.length - 1 := by omega
      subst this
      exact le_refl _
  refine ⟨s', vis' ((Old ++ New')[(Old ++ New').length - 1]), New', vis', E', ?_, hi, hfd, ?_, ?_⟩
  · unfold bfsPush
    rw [e1, Outcome.bind_ok, e2, Outcome.bind_ok]
    simp only [Nat.add_zero] at e3
    simp only
    rw [e3, Outcome.bind_ok, hld, Outcome.bind_ok, hst.arr.load (hst.seeds.lt _ (List.getElem_mem _)), Outcome.bind_ok]
    rfl
  · rw [hlast]
    obtain ⟨x, hx⟩ := List.exists_mem_of_ne_nil _ hne
    rw [← hfd.seed x hx]
    exact hmax x (hfd.pre.subset hx)
  · rw [hlast]; exact hmax

end
end Verif.Part
