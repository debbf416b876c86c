import Verif.Part.DistQueuePush
/-!
# The distance queue: `bfs_pull`
-/
namespace Verif.Part
open Verif.Agi

/-- the adjacency arrays of a hypergraph, by index -/
structure AFacts (et : EType) (nl : Nat) (adj : Nat → List Nat) (off : Nat → Nat) : Prop where
  deg : ∀ v, v ≤ nl → et.degreeList[v]? = some (some (off v))
  next : ∀ v, v < nl → off (v + 1) = off v + (adj v).length
  list : ∀ v, v < nl → ∀ k (hk : k < (adj v).length), et.edgeList[off v + k]? = some (some (adj v)[k])

section
variable {et : EType} {nl N : Nat} {adj : Nat → List Nat} {off : Nat → Nat} {Old : List Nat} {visit : Visit}
  {I : List Nat → (Nat → Int) → List (Nat × Nat) → Inputs → Prop}
  {New0 : List Nat} {depth : Int} {vis0 : Nat → Int}

/-- the loop that looks for the source of a vertex finds a visited edge of least depth, if there is one -/
theorem pullSource_spec (hA : AFacts et nl adj off) {v : Nat} (hv : v < nl) (hN : ∀ e ∈ adj v, e < N) {m : Mem Int}
    {vis : Nat → Int} (hm : Arr m N vis) :
    ∃ r, pullSource et m (off v) (off (v + 1)) = .ok r ∧
      match r with
      | none => ∀ e ∈ adj v, vis e = -1
      | some f => f ∈ adj v ∧ vis f ≠ -1 ∧ ∀ e ∈ adj v, vis e ≠ -1 → vis f ≤ vis e := by
  have hn : off (v + 1) - off v = (adj v).length := by rw [hA.next v hv]; omega
  obtain ⟨r, e, hr⟩ := range_inv (fun (source : Option Nat) j => do
      let e ← et.edgeList.load j
      let x ← m.load e
      let b ← better m x source
      return if b then some e else source)
    (fun k r => match r with
      | none => ∀ e ∈ (adj v).take k, vis e = -1
      | some f => f ∈ adj v ∧ vis f ≠ -1 ∧ ∀ e ∈ (adj v).take k, vis e ≠ -1 → vis f ≤ vis e)
    (off v) (adj v).length (by
      intro k r hk hr
      have hx := hm.load (hN _ (List.getElem_mem hk))
      rw [Mem.load_ok (hA.list v hv k hk), Outcome.bind_ok, hx, Outcome.bind_ok]
      unfold better
      by_cases hu : vis (adj v)[k] = -1
      · rw [if_pos hu, Outcome.bind_ok]
        refine ⟨r, rfl, ?_⟩
        rw [List.take_succ_eq_append_getElem hk]
        cases r with
        | none =>
          intro e he
          rcases List.mem_append.mp he with he | he
          · exact hr e he
          · rw [List.mem_singleton] at he; rw [he]; exact hu
        | some f =>
          refine ⟨hr.1, hr.2.1, ?_⟩
          intro e he hne
          rcases List.mem_append.mp he with he | he
          · exact hr.2.2 e he hne
          · rw [List.mem_singleton] at he; rw [he] at hne; exact absurd hu hne
      · rw [if_neg hu]
        cases r with
        | none =>
          simp only [Outcome.bind_ok, if_true]
          refine ⟨_, rfl, List.getElem_mem hk, hu, ?_⟩
          rw [List.take_succ_eq_append_getElem hk]
          intro e he hne
          rcases List.mem_append.mp he with he | he
          · exact absurd (hr e he) hne
          · rw [List.mem_singleton] at he; rw [he]
        | some f =>
          simp only
          rw [hm.load (hN f hr.1), Outcome.bind_ok]
          by_cases hlt : vis (adj v)[k] < vis f
          · refine ⟨some (adj v)[k], by simp [hlt], List.getElem_mem hk, hu, ?_⟩
            rw [List.take_succ_eq_append_getElem hk]
            intro e he hne
            rcases List.mem_append.mp he with he | he
            · have := hr.2.2 e he hne; omega
            · rw [List.mem_singleton] at he; rw [he]
          · refine ⟨some f, by simp [hlt], hr.1, hr.2.1, ?_⟩
            rw [List.take_succ_eq_append_getElem hk]
            intro e he hne
            rcases List.mem_append.mp he with he | he
            · exact hr.2.2 e he hne
            · rw [List.mem_singleton] at he; rw [he]; omega) none (by simp)
  refine ⟨r, ?_, by simpa using hr⟩
  unfold pullSource
  rw [hn]
  exact e

/-- the edges of a vertex found at this level -/
theorem pullVisit_spec (hA : AFacts et nl adj off) (hV : VisitOk visit N Old I) (hN : ∀ v, v < nl → ∀ e ∈ adj v, e < N)
    (hOld : ClosedSet nl adj (· ∈ Old)) {d : Int} {v : Nat} (hv : v < nl) {src : Nat} (hsv : src ∈ adj v)
    {New : List Nat} {vis : Nat → Int} {E : List (Nat × Nat)} {s : Inputs}
    (h : Search nl adj I New0 depth vis0 d New vis E s) (hs : src ∈ New) (hd : vis src = d) (upd : Nat) :
    ∃ s' New' vis' E', pullVisit et visit src (off v) (off (v + 1)) s upd = .ok (s', upd + (New'.length - New.length)) ∧
      Search nl adj I New0 depth vis0 d New' vis' E' s' ∧ Grows New vis E New' vis' E' ∧
      ∀ f ∈ adj v, f ∈ New' ∧ (src, f) ∈ E' := by
  have hn : off (v + 1) - off v = (adj v).length := by rw [hA.next v hv]; omega
  obtain ⟨st, e, New', vis', E', h1, h2, h3, h4⟩ := range_inv (fun (st : Inputs × Nat) j => do
      let e ← et.edgeList.load j
      let (s, b) ← visit st.1 src e
      return (s, if b then st.2 + 1 else st.2))
    (fun k st => ∃ New' vis' E', Search nl adj I New0 depth vis0 d New' vis' E' st.1 ∧ Grows New vis E New' vis' E' ∧
      (∀ f ∈ (adj v).take k, f ∈ New' ∧ (src, f) ∈ E') ∧ st.2 = upd + (New'.length - New.length))
    (off v) (adj v).length (by
      rintro k ⟨s1, u1⟩ hk ⟨N1, v1, E1, h1, g1, a1, hu⟩
      obtain ⟨s2, b, N2, v2, E2, e2, h2, g2, m2, p2, hl⟩ := visit_step hV hN hOld h1 (g1.mem hs)
        (by rw [g1.same src hs]; exact hd) ⟨v, hv, hsv, List.getElem_mem hk⟩
      refine ⟨(s2, if b then u1 + 1 else u1), ?_, N2, v2, E2, h2, g1.trans g2, ?_, ?_⟩
      · simp only
        rw [Mem.load_ok (hA.list v hv k hk), Outcome.bind_ok, e2, Outcome.bind_ok]
        rfl
      · rw [List.take_succ_eq_append_getElem hk]
        intro f hf
        rcases List.mem_append.mp hf with hf | hf
        · exact ⟨g2.mem (a1 f hf).1, g2.pairs _ (a1 f hf).2⟩
        · rw [List.mem_singleton] at hf; rw [hf]; exact ⟨m2, p2⟩
      · have hle := g1.pre.length_le
        simp only at hu ⊢
        cases b with
        | true => simp only [if_true] at hl ⊢; omega
        | false => simp only [Bool.false_eq_true, if_false] at hl ⊢; omega) (s, upd)
    ⟨New, vis, E, h, Grows.refl _ _ _, by simp, by simp⟩
  refine ⟨st.1, New', vis', E', ?_, h1, h2, by simpa using h3⟩
  unfold pullVisit
  rw [hn, e, ← h4]

theorem grows_ge {New : List Nat} {vis : Nat → Int} {E : List (Nat × Nat)} {New' : List Nat} {vis' : Nat → Int}
    {E' : List (Nat × Nat)} (hg : Grows New vis E New' vis' E') (hs : New'.Pairwise (fun a b => vis' a ≤ vis' b))
    {src e : Nat} (h1 : src ∈ New) (h2 : e ∈ New') : e ∈ New ∨ vis' src ≤ vis' e := by
  obtain ⟨j, hj, hje⟩ := List.mem_iff_getElem.mp h1
  obtain ⟨i, hi, hie⟩ := List.mem_iff_getElem.mp h2
  obtain ⟨hj', ej⟩ := prefix_get hg.pre hj
  rcases Nat.lt_or_ge i New.length with h | h
  · obtain ⟨hi', ei⟩ := prefix_get hg.pre h
    left
    rw [← hie, ei]
    exact List.getElem_mem h
  · right
    have := List.pairwise_iff_getElem.mp hs j i hj' hi (by omega)
    rw [hie, ej, hje] at this
    exact this

/-- the state of a pass of the pull search at `level`: `cur` still to be looked at, `next` put off -/
structure QInv (nl : Nat) (adj : Nat → List Nat) (I : List Nat → (Nat → Int) → List (Nat × Nat) → Inputs → Prop)
    (New0 : List Nat) (depth : Int) (vis0 : Nat → Int) (level : Int) (cur next New : List Nat) (vis : Nat → Int)
    (E : List (Nat × Nat)) (s : Inputs) : Prop where
  search : Search nl adj I New0 depth vis0 level New vis E s
  cur_lt : ∀ v ∈ cur, v < nl
  next_lt : ∀ v ∈ next, v < nl
  done : ∀ v, v < nl → v ∈ cur ∨ v ∈ next ∨ DoneAt adj New vis E v
  cur_ge : ∀ v ∈ cur, ∀ e ∈ adj v, e ∈ New → level ≤ vis e
  next_ge : ∀ v ∈ next, ∀ e ∈ adj v, e ∈ New → level + 1 ≤ vis e

/-- one pass -/
theorem pass_spec (hA : AFacts et nl adj off) (hV : VisitOk visit N Old I) (hN : ∀ v, v < nl → ∀ e ∈ adj v, e < N)
    (hOld : ClosedSet nl adj (· ∈ Old)) {level : Int} (hdl : depth ≤ level)
    (hov : ∀ e ∈ Old, vis0 e < depth) :
    ∀ (cur next New : List Nat) (vis : Nat → Int) (E : List (Nat × Nat)) (s : Inputs) (upd : Nat),
      QInv nl adj I New0 depth vis0 level cur next New vis E s →
      ∃ s' next' New' vis' E', cur.foldlM (pullVertex et visit level) (s, upd, next) =
          .ok (s', upd + (New'.length - New.length), next') ∧
        QInv nl adj I New0 depth vis0 level [] next' New' vis' E' s' ∧ Grows New vis E New' vis' E' := by
  intro cur
  induction cur with
  | nil =>
    intro next New vis E s upd h
    exact ⟨s, next, New, vis, E, by simp, h, Grows.refl _ _ _⟩
  | cons v cur ih =>
    intro next New vis E s upd h
    have hv := h.cur_lt v (by simp)
    have hst := hV.base _ _ _ _ h.search.inv
    obtain ⟨r, er, hr⟩ := pullSource_spec hA hv (hN v hv) hst.arr
    have hlo := Mem.load_ok (hA.deg v (by omega))
    have hhi := Mem.load_ok (hA.deg (v + 1) (by omega))
    -- is the source at this level?
    by_cases hb : ∃ f, r = some f ∧ vis f = level
    · obtain ⟨f, rfl, hfl⟩ := hb
      obtain ⟨hfv, hfu, hmin⟩ := hr
      have hfL : f ∈ Old ++ New := by
        by_contra hc
        exact hfu (hst.un f (hN v hv f hfv) hc)
      have hfO : f ∉ Old := by
        intro ho
        have hnn : f ∉ New := fun hn => (List.nodup_append.mp hst.seeds.nodup).2.2 f ho f hn rfl
        have := hov f ho
        rw [← h.search.out f hnn] at this
        omega
      have hfN : f ∈ New := (List.mem_append.mp hfL).resolve_left hfO
      obtain ⟨s1, N1, v1, E1, e1, h1, g1, a1⟩ := pullVisit_spec hA hV hN hOld hv hfv h.search hfN hfl upd
      have hf1 : v1 f = level := by rw [g1.same f hfN]; exact hfl
      have hdone : DoneAt adj N1 v1 E1 v := by
        refine ⟨fun x hx => (a1 x hx).1, ?_, f, fun x hx => Or.inr (a1 x hx).2⟩
        intro e he x hx
        have h2 := h1.max x (a1 x hx).1
        rcases grows_ge g1 h1.sorted hfN (a1 e he).1 with hh | hh
        · have h3 := h.cur_ge v (by simp) e he hh
          rw [← g1.same e hh] at h3
          omega
        · omega
      -- an edge reached in this visit gets `level + 1`
      have hnewv : ∀ e ∈ N1, e ∉ New → v1 e = level + 1 := by
        intro e he hn
        rcases h1.pred e he with h0 | ⟨x, hx1, hx2, hx3⟩
        · exact absurd (h.search.pre.subset h0) hn
        · have hmx := h1.max e he
          rcases grows_ge g1 h1.sorted hfN he with hh | hh
          · exact absurd hh hn
          · -- its predecessor is in `New`, or else of depth at least `level`
            rcases grows_ge g1 h1.sorted hfN hx1 with hy | hy
            · -- then the predecessor's vertex is either done or still ahead
              obtain ⟨w, hw, hxw, hew⟩ := hx2
              rcases h.done w hw with hc | hc | hc
              · have := h.cur_ge w hc x hxw hy
                rw [← g1.same x hy] at this
                omega
              · have := h.next_ge w hc x hxw hy
                rw [← g1.same x hy] at this
                omega
              · exact absurd (hc.mem e hew) hn
            · omega
      have hQ : QInv nl adj I New0 depth vis0 level cur next N1 v1 E1 s1 := by
        refine ⟨h1, fun w hw => h.cur_lt w (by simp [hw]), h.next_lt, ?_, ?_, ?_⟩
        · intro w hw
          rcases h.done w hw with hc | hc | hc
          · rcases List.mem_cons.mp hc with rfl | hc
            · exact Or.inr (Or.inr hdone)
            · exact Or.inl hc
          · exact Or.inr (Or.inl hc)
          · exact Or.inr (Or.inr (hc.grows g1))
        · intro w hw e he hen
          by_cases hh : e ∈ New
          · rw [g1.same e hh]; exact h.cur_ge w (by simp [hw]) e he hh
          · rw [hnewv e hen hh]; omega
        · intro w hw e he hen
          by_cases hh : e ∈ New
          · rw [g1.same e hh]; exact h.next_ge w hw e he hh
          · rw [hnewv e hen hh]
      obtain ⟨s', next', New', vis', E', e2, h2, g2⟩ := ih next N1 v1 E1 s1 (upd + (N1.length - New.length)) hQ
      refine ⟨s', next', New', vis', E', ?_, h2, g1.trans g2⟩
      have hstep : pullVertex et visit level (s, upd, next) v = .ok (s1, upd + (N1.length - New.length), next) := by
        unfold pullVertex
        rw [hlo, Outcome.bind_ok, hhi, Outcome.bind_ok]
        simp only
        rw [er, Outcome.bind_ok]
        unfold sourceAt
        simp only
        rw [hst.arr.load (hst.seeds.lt f hfL)]
        simp only [Outcome.bind_ok, pure_bind, hfl, decide_true, if_true]
        show (do let f ← (Outcome.ok f); _) = _
        rw [Outcome.bind_ok, e1, Outcome.bind_ok]
        rfl
      rw [List.foldlM_cons, hstep, Outcome.bind_ok, e2]
      congr 2
      have := g1.pre.length_le
      have := g2.pre.length_le
      rw [show upd + (N1.length - New.length) + (New'.length - N1.length) = upd + (New'.length - New.length) by omega]
    · have hQ : QInv nl adj I New0 depth vis0 level cur (next ++ [v]) New vis E s := by
        refine ⟨h.search, fun w hw => h.cur_lt w (by simp [hw]), ?_, ?_, fun w hw => h.cur_ge w (by simp [hw]), ?_⟩
        · intro w hw
          rcases List.mem_append.mp hw with hw | hw
          · exact h.next_lt w hw
          · rw [List.mem_singleton] at hw; rw [hw]; exact hv
        · intro w hw
          rcases h.done w hw with hc | hc | hc
          · rcases List.mem_cons.mp hc with rfl | hc
            · exact Or.inr (Or.inl (by simp))
            · exact Or.inl hc
          · exact Or.inr (Or.inl (by simp [hc]))
          · exact Or.inr (Or.inr hc)
        · intro w hw e he hen
          rcases List.mem_append.mp hw with hw | hw
          · exact h.next_ge w hw e he hen
          · rw [List.mem_singleton] at hw
            subst hw
            have h1 := h.cur_ge w (by simp) e he hen
            have hu : vis e ≠ -1 := hst.ne (List.mem_append_right _ hen)
            cases r with
            | none => exact absurd (hr e he) hu
            | some f =>
              have hle := hr.2.2 e he hu
              have hfl : vis f ≠ level := fun hf => hb ⟨f, rfl, hf⟩
              -- the source is at least `level`, for it is no older edge
              have hfL : f ∈ Old ++ New := by
                by_contra hc
                exact hr.2.1 (hst.un f (hN w hv f hr.1) hc)
              have hfN : f ∈ New := by
                rcases List.mem_append.mp hfL with ho | hn
                · exfalso
                  have := hOld f e ho ⟨w, hv, hr.1, he⟩
                  exact (List.nodup_append.mp hst.seeds.nodup).2.2 e this e hen rfl
                · exact hn
              have := h.cur_ge w (by simp) f hr.1 hfN
              omega
      obtain ⟨s', next', New', vis', E', e2, h2, g2⟩ := ih (next ++ [v]) New vis E s upd hQ
      refine ⟨s', next', New', vis', E', ?_, h2, g2⟩
      have hsrc : sourceAt s.visited level r = .ok false := by
        cases r with
        | none => rfl
        | some f =>
          have hfl : vis f ≠ level := fun hf => hb ⟨f, rfl, hf⟩
          unfold sourceAt
          simp only
          rw [hst.arr.load (hN v hv f hr.1)]
          simp [hfl]
      have hstep : pullVertex et visit level (s, upd, next) v = .ok (s, upd, next ++ [v]) := by
        unfold pullVertex
        rw [hlo, Outcome.bind_ok, hhi, Outcome.bind_ok]
        simp only
        rw [er, Outcome.bind_ok, hsrc, Outcome.bind_ok]
        rfl
      rw [List.foldlM_cons, hstep, Outcome.bind_ok, e2]

/-- the passes -/
theorem pullLoop_spec (hA : AFacts et nl adj off) (hV : VisitOk visit N Old I) (hN : ∀ v, v < nl → ∀ e ∈ adj v, e < N)
    (hOld : ClosedSet nl adj (· ∈ Old)) (hov : ∀ e ∈ Old, vis0 e < depth) :
    ∀ (fuel : Nat) (level : Int) (cur New : List Nat) (vis : Nat → Int) (E : List (Nat × Nat)) (s : Inputs),
      depth ≤ level → QInv nl adj I New0 depth vis0 level cur [] New vis E s → (∀ e ∈ New, vis e ≤ level) →
      N < fuel + New.length →
      ∃ s' d New' vis' E', pullLoop et visit fuel level cur s = .ok (s', d) ∧ I New' vis' E' s' ∧
        Found nl adj New0 depth vis0 New' vis' E' ∧ depth ≤ d ∧ ∀ e ∈ New', vis' e < d
  | 0, level, cur, New, vis, E, s, _, h, _, hf => by
    have h1 := (hV.base _ _ _ _ h.search.inv).seeds.le
    rw [List.length_append] at h1
    omega
  | fuel + 1, level, cur, New, vis, E, s, hdl, h, hm, hf => by
    obtain ⟨s1, next, N1, v1, E1, e1, h1, g1⟩ := pass_spec hA hV hN hOld hdl hov cur [] New vis E s 0 h
    have hle := g1.pre.length_le
    unfold pullLoop
    rw [e1, Outcome.bind_ok]
    simp only
    by_cases hu : 0 + (N1.length - New.length) = 0
    · rw [if_neg (by simpa using hu)]
      have heq : N1 = New := (g1.pre.eq_of_length (by omega)).symm
      subst heq
      refine ⟨s1, level + 1, N1, v1, E1, rfl, h1.search.inv, h1.search.found ?_, by omega, ?_⟩
      · intro v hv e hev he
        rcases h1.done v hv with hc | hc | hc
        · simp at hc
        · have h2 := h1.next_ge v hc e hev he
          have h3 := hm e he
          rw [g1.same e he] at h2
          omega
        · exact hc
      · intro e he
        have := hm e he
        rw [g1.same e he]; omega
    · rw [if_pos hu]
      have hQ : QInv nl adj I New0 depth vis0 (level + 1) next [] N1 v1 E1 s1 := by
        refine ⟨h1.search.mono (by omega), h1.next_lt, by simp, ?_, ?_, by simp⟩
        · intro v hv
          rcases h1.done v hv with hc | hc | hc
          · simp at hc
          · exact Or.inl hc
          · exact Or.inr (Or.inr hc)
        · exact h1.next_ge
      exact pullLoop_spec hA hV hN hOld hov fuel (level + 1) next N1 v1 E1 s1 (by omega) hQ h1.search.max (by omega)

/-- `bfs_pull` finds the same as `bfs_push` -/
theorem bfsPull_spec {g : Graph} (hg : g.slot 0 = .ok et) (hl : g.numLocal = nl) (hA : AFacts et nl adj off)
    (hV : VisitOk visit N Old I) (hN : ∀ v, v < nl → ∀ e ∈ adj v, e < N) (hOld : ClosedSet nl adj (· ∈ Old))
    {s : Inputs} {vis : Nat → Int} (hS : Seeds s N (Old ++ New0)) (hAv : Arr s.visited N vis)
    (hov : ∀ e ∈ Old, vis e < depth)
    (hI : ∀ v, Arr v N (fun e => if e ∈ New0 then depth else vis e) →
      I New0 (fun e => if e ∈ New0 then depth else vis e) [] { s with visited := v }) :
    ∃ s' d New' vis' E', bfsPull g Old.length depth visit s = .ok (s', d) ∧ I New' vis' E' s' ∧
      Found nl adj New0 depth vis New' vis' E' ∧ depth ≤ d ∧ ∀ e ∈ New', vis' e < d := by
  obtain ⟨v, e2, hv⟩ := setDepth_spec hS hAv depth
  have hS0 : Search nl adj I New0 depth vis depth New0 (fun e => if e ∈ New0 then depth else vis e) []
      { s with visited := v } := by
    refine ⟨hI v hv, List.prefix_rfl, fun C _ h0 => h0, ?_, fun e he => if_pos he, fun e he => Or.inl he,
      fun e he => if_neg he, fun e he => by simp only [if_pos he]; omega, by simp⟩
    rw [List.pairwise_iff_forall_sublist]
    intro a b hab
    have ha : a ∈ New0 := hab.subset (by simp)
    have hb : b ∈ New0 := hab.subset (by simp)
    simp only [if_pos ha, if_pos hb]
    exact le_refl _
  have hQ : QInv nl adj I New0 depth vis depth (List.range nl) [] New0 (fun e => if e ∈ New0 then depth else vis e) []
      { s with visited := v } := by
    refine ⟨hS0, fun w hw => List.mem_range.mp hw, by simp, fun w hw => Or.inl (List.mem_range.mpr hw), ?_, by simp⟩
    intro w _ e _ hen
    simp only [if_pos hen]; exact le_refl _
  obtain ⟨s', d, New', vis', E', e3, h3⟩ := pullLoop_spec hA hV hN hOld hov (s.seeds.length + 2) depth (List.range nl) New0
    _ [] _ (le_refl _) hQ (fun e he => by simp only [if_pos he]; exact le_refl _) (by rw [hS.len]; omega)
  refine ⟨s', d, New', vis', E', ?_, h3⟩
  unfold bfsPull
  rw [hg, Outcome.bind_ok, e2, Outcome.bind_ok, hl]
  exact e3

end
end Verif.Part
