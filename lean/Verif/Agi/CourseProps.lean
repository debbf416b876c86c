import Verif.Agi.CourseExact
import Verif.Agi.AnyLemmas
/-!
# C84: checking a graph on all processes

`checkTogether` runs `checkValidity` on all processes, which meet in three kinds of sums; `waiting` means that some have returned and the
others wait for them for ever.
-/
namespace Verif.Agi

/-! ## any graphs -/

theorem all_sums {gs : List Graph} {T : Nat} {bs : List Bool} (h : checkValidityAll gs T = .ok bs) :
    ∃ sumE sumP : Nat → Int, (∀ t, t < T → sumsOf gs T (1 + 2 * t) = sumE t ∧ sumsOf gs T (2 + 2 * t) = sumP t) ∧
      gs.mapM (fun g => g.checkValidity (sumsOf gs T 0) sumE sumP) = .ok bs := by
  unfold checkValidityAll at h
  obtain ⟨cnt, hc, h⟩ := bind_ok_inv h
  refine ⟨_, _, ?_, h⟩
  intro t ht
  obtain ⟨s1, s2⟩ := sumsOf_type gs ht
  obtain ⟨hl, hr⟩ := mapM_inv hc
  rw [List.length_range] at hl
  have hrow := hr t (by simpa using ht) (by omega)
  rw [List.getElem_range] at hrow
  obtain ⟨hl2, hr2⟩ := mapM_inv hrow
  rw [s1, s2, List.getD_eq_getElem?_getD, List.getElem?_eq_getElem (by omega), Option.getD_some]
  constructor
  · congr 1
    apply List.ext_getElem
    · simp [hl2]
    · intro k h1 h2
      simp only [List.length_map] at h1 h2
      simp only [List.getElem_map]
      unfold Graph.cE
      rw [hr2 k h1 h2]
  · congr 1
    apply List.ext_getElem
    · simp [hl2]
    · intro k h1 h2
      simp only [List.length_map] at h1 h2
      simp only [List.getElem_map]
      unfold Graph.cP
      rw [hr2 k h1 h2]

theorem answers_eq {gs : List Graph} {T : Nat} (hT : ∀ g ∈ gs, g.numTypes = T) {bs : List Bool} (h : checkValidityAll gs T = .ok bs) :
    (gs.map fun g => g.validCourse.under (sumsOf gs T) 0) = bs.map .ok ∧ bs.length = gs.length ∧
    ∀ k (h1 : k < gs.length) (h2 : k < bs.length), bs[k] = true → joins gs T gs[k] = 2 * T + 1 := by
  obtain ⟨sumE, sumP, hs, hm⟩ := all_sums h
  obtain ⟨hl, hr⟩ := mapM_inv hm
  have hk : ∀ k (h1 : k < gs.length) (h2 : k < bs.length), gs[k].validCourse.under (sumsOf gs T) 0 = .ok bs[k] ∧
      (bs[k] = true → (gs[k].validCourse.asks (sumsOf gs T) 0).length = 2 * gs[k].numTypes + 1) := by
    intro k h1 h2
    refine validCourse_under gs[k] (sumsOf gs T) (sumsOf gs T 0) sumE sumP rfl ?_ (hr k h1 h2)
    intro t ht
    rw [hT _ (List.getElem_mem h1)] at ht
    exact hs t ht
  refine ⟨?_, hl, ?_⟩
  · apply List.ext_getElem
    · simp [hl]
    · intro k h1 h2
      simp only [List.length_map] at h1 h2
      simp only [List.getElem_map]
      exact (hk k h1 h2).1
  · intro k h1 h2 hb
    have := (hk k h1 h2).2 hb
    rw [hT _ (List.getElem_mem h1)] at this
    exact this

/-- When the check comes back on all processes, the answers are those of C11's model, which hands every process the sums; otherwise some
processes wait for ever.  For arbitrary graphs, right or wrong. -/
theorem c84_answers (gs : List Graph) (T : Nat) (hT : ∀ g ∈ gs, g.numTypes = T) (bs : List Bool) (h : checkValidityAll gs T = .ok bs) :
    checkTogether gs T = .answers (bs.map .ok) ∨ checkTogether gs T = .waiting := by
  obtain ⟨e, -, -⟩ := answers_eq hT h
  obtain ⟨s1, s2⟩ := together_spec gs T hT
  rcases Classical.em (∀ g ∈ gs, ∀ h ∈ gs, joins gs T g = joins gs T h) with hj | hj
  · left; rw [s1 hj, e]
  · right
    apply s2
    simp only [not_forall] at hj
    obtain ⟨g, hg, h, hh, hne⟩ := hj
    exact ⟨g, hg, h, hh, hne⟩

/-- When every process accepts its part the check comes back. -/
theorem c84_accepted (gs : List Graph) (T : Nat) (hT : ∀ g ∈ gs, g.numTypes = T)
    (h : checkValidityAll gs T = .ok (List.replicate gs.length true)) :
    checkTogether gs T = .answers (List.replicate gs.length (.ok true)) := by
  obtain ⟨e, -, hj⟩ := answers_eq hT h
  rw [(together_spec gs T hT).1, e, List.map_replicate]
  have : ∀ g ∈ gs, joins gs T g = 2 * T + 1 := by
    intro g hg
    obtain ⟨k, hk, rfl⟩ := List.mem_iff_getElem.mp hg
    exact hj k hk (by simpa using hk) (by simp)
  intro g hg g' hg'
  rw [this g hg, this g' hg']

/-- The check comes back with a mixture of answers only when the processes that reject their part found the error after the last sum (a
ghost, or the pins of an edge of the last type); no process that accepts its part waits then. -/
theorem c84_mixed (gs : List Graph) (T : Nat) (hT : ∀ g ∈ gs, g.numTypes = T) (bs : List Bool) (h : checkValidityAll gs T = .ok bs)
    (hr : checkTogether gs T = .answers (bs.map .ok)) (ht : true ∈ bs) : ∀ g ∈ gs, joins gs T g = 2 * T + 1 := by
  obtain ⟨-, hl, hj⟩ := answers_eq hT h
  obtain ⟨k, hk, hb⟩ := List.mem_iff_getElem.mp ht
  have h1 := hj k (by omega) hk hb
  intro g hg
  rw [← h1]
  apply Classical.byContradiction
  intro hne
  rw [(together_spec gs T hT).2 ⟨g, hg, gs[k], List.getElem_mem (by omega), hne⟩] at hr
  cases hr

/-! ## hypergraphs -/

/-- A hypergraph distributed over any number of parts: the check comes back everywhere, with yes. -/
theorem c84_hyper (H : List (List HEdge)) (ins : List Input) (own : Gid → Nat) (h : HDist H ins own)
    (owns : List (GMap Part)) (ho : OwnMaps ins own owns) (o1 o2 : Nat → List Nat)
    (ho1 : Orders ins.length o1) (ho2 : Orders ins.length o2) :
    ∃ gs gs', buildAll ins = .ok gs ∧ constructGhosts gs owns o1 o2 = .ok gs' ∧
      checkTogether gs' H.length = .answers (List.replicate ins.length (.ok true)) := by
  have hd := h.dist
  obtain ⟨gs, e, hb⟩ := buildAll_spec ins h.wf
  obtain ⟨gs', e', hw, -⟩ := constructGhosts_spec hb hd (hdist_uniform h) ho ho1 ho2
  refine ⟨gs, gs', e, e', ?_⟩
  obtain ⟨gs2, gs2', f, f', hv⟩ := c11_valid_hyper H ins own h owns ho o1 o2 ho1 ho2
  rw [e] at f
  cases f
  rw [e'] at f'
  cases f'
  have hl := hw.1
  rw [← hl] at hv ⊢
  refine c84_accepted gs' H.length ?_ hv
  intro g hg
  obtain ⟨p, hp, rfl⟩ := List.mem_iff_getElem.mp hg
  obtain ⟨gh, hgr⟩ := hw.2 p hp (by omega)
  rw [hgr.core.numTypes, (hdist_uniform h).types _ (List.getElem_mem _)]

/-! ## traditional graphs -/

theorem trad_fits {gs : List Graph} {ins : List Input} {own : Gid → Nat} {T : Nat}
    (hw : World gs ins own) (hd : Dist ins own) (hu : Uniform ins false T) (hok : ∀ i ∈ ins, TradLocal i)
    (hcnt : ∀ p (h : p < gs.length), gs[p].globalVerts = (ins.map (fun i => (i.verts.length : Int))).sum ∧
      ∀ t, t < T → gs[p].numGlobalEdges t = .ok (edgeTotal ins own t) ∧ gs[p].numGlobalPins t = .ok (2 * edgeTotal ins own t)) :
    (∀ p (h : p < gs.length), ∀ t, t < T → ∃ c, gs[p].validCounts t = .ok c) ∧
    ∀ p (h : p < gs.length) (hi : p < ins.length), Fits gs[p] (sumsOf gs T 0) (fun t => sumsOf gs T (1 + 2 * t)) (fun t => sumsOf gs T (2 + 2 * t)) T
      (goodOf ins[p].types) := by
  obtain ⟨hl, hr⟩ := hw
  -- what each part counts
  have hvc : ∀ p (hp : p < gs.length) (hi : p < ins.length) t (ht : t < T) (ht' : t < ins[p].types.length),
      gs[p].validCounts t = .ok ((ins[p].types[t].pins.length : Int), (contribution ins own t p).1,
        (contribution ins own t p).2, (ins[p].types[t].pins.flatten.length : Int)) := by
    intro p hp hi t ht ht'
    obtain ⟨ghosts, hg⟩ := hr p hp hi
    have hH := hu.hyper _ (List.getElem_mem hi)
    have e1 : ins[p]? = some ins[p] := List.getElem?_eq_getElem _
    have e2 : ins[p].types[t]? = some ins[p].types[t] := List.getElem?_eq_getElem _
    unfold contribution
    simp only [e1, e2]
    cases hyp : ins[p].hyper with
    | true => rw [validCounts_hyper hg hyp (hd.verts p hi) ht']; simp
    | false =>
      rw [validCounts_loop hg (hd.wf _ (List.getElem_mem hi)) hyp
        (hok _ (List.getElem_mem hi)) ht']
      simp
  have hE : ∀ t, t < T → sumsOf gs T (1 + 2 * t) = edgeTotal ins own t ∧ sumsOf gs T (2 + 2 * t) = pinTotal ins own t := by
    intro t ht
    obtain ⟨s1, s2⟩ := sumsOf_type gs ht
    rw [s1, s2]
    unfold edgeTotal pinTotal
    constructor
    · congr 1
      apply List.ext_getElem
      · simp [hl]
      · intro k h1 h2
        simp only [List.length_map] at h1
        simp only [List.getElem_map, List.getElem_range]
        have hT := hu.types _ (List.getElem_mem (show k < ins.length by omega))
        unfold Graph.cE
        rw [hvc k h1 (by omega) t ht (by omega)]
    · congr 1
      apply List.ext_getElem
      · simp [hl]
      · intro k h1 h2
        simp only [List.length_map] at h1
        simp only [List.getElem_map, List.getElem_range]
        have hT := hu.types _ (List.getElem_mem (show k < ins.length by omega))
        unfold Graph.cP
        rw [hvc k h1 (by omega) t ht (by omega)]
  have hpin : ∀ t, t < T → pinTotal ins own t = 2 * edgeTotal ins own t := by
    intro t ht
    unfold pinTotal edgeTotal
    have : ∀ q, q < ins.length → (contribution ins own t q).2 = 2 * (contribution ins own t q).1 := by
      intro q hq
      have e1 : ins[q]? = some ins[q] := List.getElem?_eq_getElem _
      have hTq := hu.types _ (List.getElem_mem hq)
      have e2 : ins[q].types[t]? = some (ins[q].types[t]'(by omega)) := List.getElem?_eq_getElem _
      unfold contribution
      simp only [e1, e2, hu.hyper _ (List.getElem_mem hq)]
      simp
    have hm : (List.range ins.length).map (fun p => (contribution ins own t p).2) =
        (List.range ins.length).map (fun p => 2 * (contribution ins own t p).1) :=
      List.map_congr_left (fun q hq => this q (by simpa using hq))
    rw [hm]
    have hs : ∀ (l : List Nat), (l.map (fun p => 2 * (contribution ins own t p).1)).sum =
        2 * (l.map (fun p => (contribution ins own t p).1)).sum := by
      intro l
      induction l with
      | nil => rfl
      | cons a l ih => simp only [List.map_cons, List.sum_cons, ih]; omega
    rw [hs]
  refine ⟨?_, ?_⟩
  · intro p hp t ht
    have hT := hu.types _ (List.getElem_mem (show p < ins.length by omega))
    exact ⟨_, hvc p hp (by omega) t ht (by omega)⟩
  intro p hp hi
  obtain ⟨ghosts, hg⟩ := hr p hp hi
  have hT := hu.types _ (List.getElem_mem hi)
  have hH := hu.hyper _ (List.getElem_mem hi)
  have hwf := hd.wf _ (List.getElem_mem hi)
  obtain ⟨c1, c2⟩ := hcnt p hp
  have hc := hg.core
  rw [hH] at hc
  have hwf2 : ∀ e ∈ ins[p].types, e.WF false := by intro e he; rw [← hH]; exact hwf.edges e he
  refine ⟨by rw [hg.core.numTypes, hT], ?_, ?_, ?_, ?_⟩
  · rw [c1, sumsOf_zero]
    congr 1
    apply List.ext_getElem
    · simp [hl]
    · intro k h1 h2
      simp only [List.length_map] at h1 h2
      obtain ⟨gk, hgk⟩ := hr k (by omega) h1
      simp only [List.getElem_map]
      rw [hgk.core.v.nl]
  · intro u hu' t ht
    rw [hg.core.v.nl] at hu'
    exact vertOk_loop hc hwf2 (by omega) hu'
  · intro t ht
    have ht' : t < ins[p].types.length := by omega
    obtain ⟨g1, g2⟩ := c2 t ht
    refine ⟨_, _, _, _, hvc p hp hi t ht ht', numEdges_eq hg.core ht', numPins_eq hg.core ht', ?_, ?_, ?_⟩
    · rw [g1, (hE t ht).1]
    · rw [g2, (hE t ht).2, hpin t ht]
    · rw [edgesRight_loop hc hwf2 (hok _ (List.getElem_mem hi)) ht', goodOf, List.getElem?_eq_getElem ht']
  · intro k hk
    rw [hg.core.v.ng] at hk
    have hmem : ghosts[k] ∈ ins[p].verts ++ ghosts := by simp
    have hin := (hg.mem_ghosts ghosts[k]).mp (List.getElem_mem hk)
    have hidx : (ins[p].verts ++ ghosts).idxOf ghosts[k] = gs[p].numLocal + k := by
      rw [List.idxOf_append_of_notMem hin.2, hg.core.v.nl,
        (List.nodup_append.mp hg.core.v.nodup).2.1.idxOf_getElem]
    have ho := owner_eq hg.core.v hg.owners hmem
    rw [hidx] at ho
    refine ⟨_, ho, ?_, ?_⟩
    · unfold ownerOf
      rw [if_neg hin.2, hg.rank]
      simp only
      intro heq
      have heq' : own ghosts[k] = p := by exact_mod_cast heq
      obtain ⟨h1, h2⟩ := hd.pins p hi _ hin.1
      apply hin.2
      simpa only [heq'] using h2
    · unfold ownerOf
      rw [if_neg hin.2, hg.peers]
      obtain ⟨h1, h2⟩ := hd.pins p hi _ hin.1
      simp only
      omega

/-- Traditional graphs built from well-formed input whose edges start at local vertices, on any number of processes, with any number of
types: a process accepts its part exactly when it has no self-loop (`c11_valid_trad_partial` with self-loops). -/
theorem c84_trad_answers (ins : List Input) (own : Gid → Nat) (hd : Dist ins own) (T : Nat)
    (hu : Uniform ins false T) (hok : ∀ i ∈ ins, TradLocal i) (owns : List (GMap Part)) (ho : OwnMaps ins own owns)
    (o1 o2 : Nat → List Nat) (ho1 : Orders ins.length o1) (ho2 : Orders ins.length o2) :
    ∃ gs gs', buildAll ins = .ok gs ∧ constructGhosts gs owns o1 o2 = .ok gs' ∧
      checkValidityAll gs' T = .ok (ins.map fun i => decide (NoLoops i)) ∧
      ((∀ i ∈ ins, ∀ j ∈ ins, looked i.types = looked j.types) →
        checkTogether gs' T = .answers (ins.map fun i => .ok (decide (NoLoops i)))) ∧
      ((∃ i ∈ ins, ∃ j ∈ ins, looked i.types ≠ looked j.types) → checkTogether gs' T = .waiting) := by
  obtain ⟨gs, e, hb⟩ := buildAll_spec ins hd.wf
  obtain ⟨gs', e', hw, hr⟩ := constructGhosts_spec hb hd hu ho ho1 ho2
  have hl := hw.1
  have hl0 := hb.1
  refine ⟨gs, gs', e, e', ?_⟩
  obtain ⟨hvc, hfit⟩ := trad_fits hw hd hu hok (by
    intro p hp
    obtain ⟨r1, r2, -⟩ := hr p hp (by omega) (by omega)
    obtain ⟨gh, hgr⟩ := hb.2 p (by omega) (by omega)
    exact ⟨by rw [r2]; exact hgr.total, r1⟩)
  have hlook : ∀ p (hi : p < ins.length), joined (goodOf ins[p].types) (List.range T) =
      2 * looked ins[p].types ∧ (List.range T).all (goodOf ins[p].types) =
        decide (NoLoops ins[p]) := by
    intro p hi
    have hT := hu.types _ (List.getElem_mem hi)
    obtain ⟨j1, j2⟩ := joined_looked ins[p].types T 0 (by omega)
    rw [← List.range_eq_range', List.drop_zero] at j1 j2
    refine ⟨j1, ?_⟩
    rw [Bool.eq_iff_iff, j2, decide_eq_true_iff, NoLoops]
  have hans : ∀ p (hp : p < gs'.length) (hi : p < ins.length),
      gs'[p].checkValidity (sumsOf gs' T 0) (fun t => sumsOf gs' T (1 + 2 * t)) (fun t => sumsOf gs' T (2 + 2 * t)) =
        .ok (decide (NoLoops ins[p])) ∧ joins gs' T gs'[p] = 1 + 2 * looked ins[p].types := by
    intro p hp hi
    obtain ⟨a1, a2⟩ := fits_answer (hfit p hp hi) (sumsOf gs' T) rfl (fun t _ => ⟨rfl, rfl⟩)
    obtain ⟨l1, l2⟩ := hlook p hi
    rw [l2] at a1
    rw [l1] at a2
    exact ⟨a1, a2⟩
  have hT : ∀ g ∈ gs', g.numTypes = T := by
    intro g hg
    obtain ⟨p, hp, rfl⟩ := List.mem_iff_getElem.mp hg
    exact (hfit p hp (by omega)).types
  have hall : checkValidityAll gs' T = .ok (ins.map fun i => decide (NoLoops i)) := by
    obtain ⟨cnt, ec, -, hcr⟩ := mapM_idx (f := fun t => gs'.mapM (fun g => g.validCounts t)) (fun t row => gs'.mapM (fun g => g.validCounts t) = .ok row)
      (List.range T) (by
        intro t ht
        simp only [List.length_range] at ht
        simp only [List.getElem_range]
        obtain ⟨row, er, -, -⟩ := mapM_idx (f := fun g : Graph => g.validCounts t) (fun _ _ => True) gs' (by
          intro p hp
          obtain ⟨c, hc⟩ := hvc p hp t ht
          exact ⟨c, hc, trivial⟩)
        exact ⟨row, er, er⟩)
    obtain ⟨bs, eb, hbl, hbr⟩ := mapM_idx (f := fun g : Graph => g.checkValidity ((gs'.map (fun g => (g.numLocal : Int))).sum)
        (fun t => ((cnt.getD t []).map (fun c => c.2.1)).sum) (fun t => ((cnt.getD t []).map (fun c => c.2.2.1)).sum))
      (fun p b => ∀ hi : p < ins.length, b = decide (NoLoops ins[p])) gs' (by
        intro p hp
        have hi : p < ins.length := by omega
        refine ⟨decide (NoLoops ins[p]), ?_, fun _ => rfl⟩
        have hs : ∀ t, t < T → sumsOf gs' T (1 + 2 * t) = ((cnt.getD t []).map (fun c => c.2.1)).sum ∧
            sumsOf gs' T (2 + 2 * t) = ((cnt.getD t []).map (fun c => c.2.2.1)).sum := by
          intro t ht
          obtain ⟨s1, s2⟩ := sumsOf_type gs' ht
          obtain ⟨hcl, hcr⟩ := mapM_inv ec
          rw [List.length_range] at hcl
          have hrow := hcr t (by simpa using ht) (by omega)
          rw [List.getElem_range] at hrow
          obtain ⟨hl2, hr2⟩ := mapM_inv hrow
          rw [s1, s2, List.getD_eq_getElem?_getD, List.getElem?_eq_getElem (by omega), Option.getD_some]
          constructor
          · congr 1
            apply List.ext_getElem
            · simp [hl2]
            · intro k h1 h2
              simp only [List.length_map] at h1 h2
              simp only [List.getElem_map]
              unfold Graph.cE
              rw [hr2 k h1 h2]
          · congr 1
            apply List.ext_getElem
            · simp [hl2]
            · intro k h1 h2
              simp only [List.length_map] at h1 h2
              simp only [List.getElem_map]
              unfold Graph.cP
              rw [hr2 k h1 h2]
        have hf := hfit p hp hi
        have hf' : Fits gs'[p] (sumsOf gs' T 0) (fun t => ((cnt.getD t []).map (fun c => c.2.1)).sum) (fun t => ((cnt.getD t []).map (fun c => c.2.2.1)).sum) T
            (goodOf ins[p].types) :=
          ⟨hf.types, hf.verts, hf.vert, (fun t ht => by
            obtain ⟨j, k, ne, np, a1, a2, a3, a4, a5, a6⟩ := hf.typ t ht
            exact ⟨j, k, ne, np, a1, a2, a3, a4.trans (congrArg _ (hs t ht).1), a5.trans (congrArg _ (hs t ht).2), a6⟩), hf.ghost⟩
        have := (fits_answer hf' (sumsOf gs' T) rfl hs).1
        rw [(hlook p hi).2] at this
        exact this)
    unfold checkValidityAll
    rw [ec, Outcome.bind_ok, eb]
    congr 1
    apply List.ext_getElem
    · simp; omega
    · intro k h1 h2
      simp only [List.length_map] at h2
      rw [hbr k h1 h2, List.getElem_map]
  refine ⟨hall, ?_, ?_⟩
  · intro hsame
    rw [(together_spec gs' T hT).1, (answers_eq hT hall).1, List.map_map]
    · rfl
    · intro g hg g2 hg2
      obtain ⟨p, hp, rfl⟩ := List.mem_iff_getElem.mp hg
      obtain ⟨q, hq, rfl⟩ := List.mem_iff_getElem.mp hg2
      rw [(hans p hp (by omega)).2, (hans q hq (by omega)).2, hsame _ (List.getElem_mem (show p < ins.length by omega)) _ (List.getElem_mem (show q < ins.length by omega))]
  · rintro ⟨i, hi, j, hj, hne⟩
    apply (together_spec gs' T hT).2
    obtain ⟨p, hp, rfl⟩ := List.mem_iff_getElem.mp hi
    obtain ⟨q, hq, rfl⟩ := List.mem_iff_getElem.mp hj
    refine ⟨gs'[p], List.getElem_mem (by omega), gs'[q], List.getElem_mem (by omega), ?_⟩
    rw [(hans p (by omega) hp).2, (hans q (by omega) hq).2]
    omega

/-- The property for traditional graphs: the check comes back on every process when there is only one type of edges, or no self-loop before
the last type.  Missing: with a self-loop in an earlier type on some processes only, the others wait for ever (`c84_waits`). -/
theorem c84_trad_partial (ins : List Input) (own : Gid → Nat) (hd : Dist ins own) (T : Nat)
    (hu : Uniform ins false T) (hok : ∀ i ∈ ins, TradLocal i) (owns : List (GMap Part)) (ho : OwnMaps ins own owns)
    (o1 o2 : Nat → List Nat) (ho1 : Orders ins.length o1) (ho2 : Orders ins.length o2)
    (hlast : ∀ i ∈ ins, ∀ e ∈ i.types.dropLast, LoopFree e) :
    ∃ gs gs', buildAll ins = .ok gs ∧ constructGhosts gs owns o1 o2 = .ok gs' ∧
      checkTogether gs' T = .answers (ins.map fun i => .ok (decide (NoLoops i))) := by
  obtain ⟨gs, gs', e, e', -, h1, -⟩ := c84_trad_answers ins own hd T hu hok owns ho o1 o2 ho1 ho2
  refine ⟨gs, gs', e, e', h1 ?_⟩
  have hlook : ∀ (es : List EdgeInput), (∀ e ∈ es.dropLast, LoopFree e) → looked es = es.length := by
    intro es
    induction es with
    | nil => intro _; rfl
    | cons a es ih =>
      intro hd
      cases es with
      | nil => rw [looked]; split <;> rfl
      | cons b es =>
        rw [looked, if_pos (hd a (by simp)), ih fun x hx => hd x (by rw [List.dropLast_cons_cons]; exact List.mem_cons_of_mem _ hx)]
        rfl
  intro i hi j hj
  rw [hlook _ (hlast i hi), hlook _ (hlast j hj), hu.types i hi, hu.types j hj]

/-! ## Where the code does not keep the property -/

/-- two processes, two types of edges; process 0 has an edge of type 0 from a vertex to itself -/
def loopWorld : List Input :=
  [{ hyper := false, verts := [1], wgts := [], types := [⟨[0, 1], [[1, 1], [1, 2]], []⟩, ⟨[0], [[1, 2]], []⟩] },
   { hyper := false, verts := [2, 3], wgts := [], types := [⟨[0], [[2, 3]], []⟩, ⟨[0], [[2, 1]], []⟩] }]

def togetherOf (ins : List Input) (T : Nat) : Outcome Together := do
  let gs ← buildAll ins
  let gs ← constructGhosts gs [fun v => some (sampleOwn v : Int), fun v => some (sampleOwn v : Int)] (fun _ => [1, 0]) (fun _ => [0, 1])
  return checkTogether gs T

/-- process 0 returns with no after the first type; process 1 waits in the sum of the second type -/
theorem c84_waits : Dist loopWorld sampleOwn ∧ Uniform loopWorld false 2 ∧ (∀ i ∈ loopWorld, TradLocal i) ∧
    togetherOf loopWorld 2 = .ok .waiting := by
  refine ⟨⟨?_, by decide, by decide⟩, ⟨by decide, by decide⟩, ?_, by decide +kernel⟩
  · intro i hi
    simp only [loopWorld, List.mem_cons, List.not_mem_nil, or_false] at hi
    rcases hi with rfl | rfl
    · refine ⟨by decide, by decide, ?_⟩
      intro e he
      simp only [List.mem_cons, List.not_mem_nil, or_false] at he
      rcases he with rfl | rfl <;> exact ⟨by decide, by decide, by decide⟩
    · refine ⟨by decide, by decide, ?_⟩
      intro e he
      simp only [List.mem_cons, List.not_mem_nil, or_false] at he
      rcases he with rfl | rfl <;> exact ⟨by decide, by decide, by decide⟩
  · unfold TradLocal; decide

/-- with the self-loop in the last type the processes come back with different answers -/
theorem c84_disagree : togetherOf (loopWorld.map fun i => { i with types := i.types.reverse }) 2 = .ok (.answers [.ok false, .ok true]) := by
  decide +kernel

/-! ## Non-vacuity -/

/-- the hypotheses of `c84_trad_answers` are those of `c84_waits`; both of its cases are there -/
example : loopWorld.map (fun i => looked i.types) = [1, 2] := by decide

example : togetherOf sampleTradWorld 1 = .ok (.answers [.ok true, .ok true]) := by decide +kernel

example : togetherOf sampleWorld 1 = .ok (.answers [.ok true, .ok true]) := by decide +kernel

example : ∀ i ∈ loopWorld.map (fun i => { i with types := i.types.reverse }), ∀ e ∈ i.types.dropLast, LoopFree e := by decide

/-- a graph that is wrong: the number of vertices in the whole graph -/
example : (do
    let gs ← buildAll sampleWorld
    let gs ← constructGhosts gs [fun v => some (sampleOwn v : Int), fun v => some (sampleOwn v : Int)] (fun _ => [1, 0]) (fun _ => [0, 1])
    return checkTogether (gs.map fun g => { g with globalVerts := 7 }) 1 : Outcome _) = .ok (.answers [.ok false, .ok false]) := by
  decide +kernel

end Verif.Agi
