import Verif.Part.SelectTrad
import Verif.Part.WBalTrad
/-!
# C36 for traditional graphs: statements
-/
namespace Verif.Part
open Verif.Agi

/-- **C36** for a part of a traditional graph, with non-negative weights: a selection (iteration queue, selector and sweeps)
terminates without undefined behaviour whatever the iteration order of the hash tables, and leaves a plan in which
* every planned vertex is a vertex of the part, listed once;
* it has an edge to another part, and goes to a part of the target list that wants a positive amount;
* the planned weight exceeds the total of the targets by less than the weight of one vertex (`M`), and for vertex
  weights it is the sum of the weights of the planned vertices;
* if there is a vertex that can be sent (`EagerT`), something is planned.

Partial: as for hypergraphs the amount planned for a single part is not bounded by its target
(`c36_trad_redirected_uncharged`); the distance queue (off unless the user switches it on) is undefined on traditional
graphs (`c56_traditional_ub`); different weights of the edges of a part are excluded in an edge dimension
(`SameWeights`, C08). -/
theorem c36_select_trad_partial (ins : List Input) (own : Gid → Nat) (T : Nat) (hd : TradDist ins own T) (hT : 0 < T)
    (hnn : NonNegT ins own) (owns : List (GMap Part)) (ho : OwnMaps ins own owns) (o1 o2 : Nat → List Nat)
    (ho1 : Orders ins.length o1) (ho2 : Orders ins.length o2) (p : Nat) (hp : p < ins.length)
    (targets : Cont Rat) (hk : ∀ d, targets.has d = true → 0 ≤ d) (dim : Int)
    (hdim : -1 ≤ dim ∧ dim < (T : Int)) (hsame : dim ≠ -1 → SameWeights ins dim.toNat)
    (ord : HashOrd) (hord : ord.Ok) (limit : Rat) (sizes : List Nat) (M : Rat) (hM : SourceBound ins own p dim M)
    (push : Bool) :
    ∃ gs gs' g s, ∃ l : List Gid, buildAll ins = .ok gs ∧ constructGhosts gs owns o1 o2 = .ok gs' ∧ gs'[p]? = some g ∧
      selectAll ⟨false, push⟩ ord g limit targets dim sizes = .ok s ∧
      l.Nodup ∧ (∀ v ∈ l, v ∈ ins[p].verts) ∧ s.plan.sending.mapM g.globalID = .ok l ∧
      (∀ v ∈ ins[p].verts, ∃ h d, g.findGID v = .ok h ∧ g.planGet s.plan h = .ok d ∧ (v ∈ l ↔ d ≠ -1) ∧
        (d ≠ -1 → targets.has d = true ∧ 0 < targets.get d ∧ ∃ w, Arc ins 0 v w ∧ own w ≠ p)) ∧
      s.planW ≤ max 0 targets.total + M ∧
      (dim = -1 → s.planW = (l.map (weightOf ins own)).sum) ∧
      (limit ≤ 0 → 0 ≤ targets.total → (∃ k ∈ sizes, 2 ≤ k) → EagerT ins own p targets → l ≠ []) := by
  obtain ⟨gs, e1, hb⟩ := buildAll_spec ins hd.dist.wf
  obtain ⟨gs', e2, hw, -⟩ := constructGhosts_spec hb hd.dist hd.uniform ho ho1 ho2
  have hg : p < gs'.length := by rw [hw.1]; exact hp
  obtain ⟨ghosts, hr⟩ := hw.2 p hg hp
  have ht : 0 < ins[p].types.length := by rw [hd.uniform.types _ (List.getElem_mem hp)]; exact hT
  obtain ⟨q, e3, hq⟩ := queue_tradPart hd hp hr ht
  obtain ⟨top, hsz⟩ : ∃ top : Nat, ∀ k ∈ sizes, k ≤ top := ⟨sizes.sum, fun k hk => List.single_le_sum (by simp) _ hk⟩
  have hx := selCtx_trad hd hnn hp hr hT ht hk hdim hsame hord top hM
  obtain ⟨plan, e4, hpl⟩ := newPlan_rep hx.sel.numLocal
  obtain ⟨s0, e5, h0, hcav0⟩ := newSelector_inv hx hM.1 hq hpl
  have hinit : (∀ d, s0.sending d = 0) ∧ s0.planW = 0 := by
    unfold newSelector at e5
    rw [bind_ok_iff] at e5
    obtain ⟨x, -, e6⟩ := e5
    have e6 : Outcome.ok (⟨x.1, x.2, fun _ => 0, plan, 0⟩ : Sel) = .ok s0 := e6
    injection e6 with e6
    subst e6
    exact ⟨fun _ => rfl, rfl⟩
  have hall : ∃ (s' : Sel) (C' N' : List Handle) (l' : List Gid) (f' : Gid → Option Part),
      sizes.foldlM (select ord gs'[p] limit targets dim) s0 = .ok s' ∧
      SelInv ins[p].verts (fun v => getVertex ((ins[p].verts ++ ghosts).idxOf v))
        (pinsOfE gs'[p] (Io.grouped ins[p].verts ins[p].types[0].pins))
        (weightOf ins own) targets dim (tradBoundary gs'[p] own ins[p] ins[p].types[0].pins) M C' N' l' f' s' ∧
      (limit ≤ 0 → 0 ≤ targets.total → (∃ k ∈ sizes, 2 ≤ k) → EagerT ins own p targets → l' ≠ []) := by
    by_cases hc : limit ≤ 0 ∧ 0 ≤ targets.total ∧ (∃ k ∈ sizes, 2 ≤ k) ∧ EagerT ins own p targets
    · obtain ⟨k, hks, hk2⟩ := hc.2.2.1
      obtain ⟨h, hh, hready⟩ := ready_of_eagerT hd hp hr ht hc.2.2.2 hk2
      obtain ⟨s', C', N', l', f', r1, r2, r3⟩ := selects_progress hx hc.1 hc.2.1 hcav0 hh sizes _ s0 hsz ⟨k, hks, hready⟩ h0 rfl
        hinit.1 hinit.2
      exact ⟨s', C', N', l', f', r1, r2, fun _ _ _ _ => r3⟩
    · obtain ⟨s', C', N', l', f', r1, r2, -⟩ := selects_inv hx limit sizes _ _ _ _ s0 hsz h0 (le_refl _)
      exact ⟨s', C', N', l', f', r1, r2, fun h1 h2 h3 h4 => absurd ⟨h1, h2, h3, h4⟩ hc⟩
  obtain ⟨s, C, N, l, f, e6, hs, hprog⟩ := hall
  have hlv : ∀ v ∈ l, v ∈ ins[p].verts := fun v hv => ((hs.plan.mem v).mp hv).1
  refine ⟨gs, gs', gs'[p], s, l, e1, e2, List.getElem?_eq_getElem hg, ?_, hs.plan.nodup, hlv, ?_, ?_, hs.total.2,
    hs.exact, hprog⟩
  · unfold selectAll makeQueue
    rw [if_neg (by simp), e3, Outcome.bind_ok, e4, Outcome.bind_ok, e5, Outcome.bind_ok]
    exact e6
  · rw [hs.plan.sending, List.mapM_map]
    rw [mapM_ok (g := fun v => v)]
    · simp
    · intro v hv
      have hv' := hlv v hv
      have := globalID_eq hr.core.v (v := v) (by simp [hv'])
      rw [List.idxOf_append_of_mem hv'] at this
      exact this
  · intro v hv
    have hu := List.idxOf_lt_length_of_mem hv
    have hfg := findGID_local hr.core.v hu
    rw [List.getElem_idxOf] at hfg
    refine ⟨_, (f v).getD (-1), hfg, planGet_eq hs.plan hx.sel.numLocal hv, ?_, ?_⟩
    · rw [hs.plan.mem]
      have := hs.plan.val v hv
      cases hfv : f v with
      | none => simp
      | some d =>
        rw [hfv] at this
        simp only [Option.getD_some, ne_eq, reduceCtorEq, not_false_eq_true, and_true, hv, true_iff]
        intro h
        exact this (by rw [h])
    · intro hne
      cases hfv : f v with
      | none => rw [hfv] at hne; exact absurd rfl hne
      | some d =>
        obtain ⟨h1, h2, h, hh, hvp⟩ := hs.dest v d hfv
        obtain ⟨-, u, w, huv, hwv, hm, hpe⟩ := mem_tradBoundary hd hp hr ht hh
        rw [hpe] at hvp
        have hvu : v = u := by
          simp only [List.mem_cons, List.not_mem_nil, or_false] at hvp
          rcases hvp with h | h
          · exact h
          · exact absurd (h ▸ hv) hwv
        subst hvu
        have hwk : w ∈ ins[p].verts ++ ghosts := hr.core.pins 0 ht w (List.mem_flatten.mpr ⟨_, hm, by simp⟩)
        exact ⟨h1, h2, w, (arc_part hd hp ht hv w).mpr hm, fun h => hwv ((dist_mine hd.dist hp hr hwk).mp h)⟩

/-- the hypotheses are met: part 1 of the sample may send vertex 2 (weight 90; two edges), the only one with an edge to
part 0; it does so when part 0 wants weight -/
example : TradDist wayWorld lopOwn 1 ∧ NonNegT wayWorld lopOwn ∧ SourceBound wayWorld lopOwn 1 (-1) 90 ∧
    SourceBound wayWorld lopOwn 1 0 2 ∧ SameWeights wayWorld 0 ∧ EagerT wayWorld lopOwn 1 ⟨[(0, 1)], 1⟩ ∧
    selection iterQ wayWorld lopOwn 1 plainOrd ⟨[(0, 1)], 1⟩ (-1) [2, 4] = .ok ([(2, 0), (3, -1)], 90) ∧
    selection iterQ wayWorld lopOwn 1 plainOrd ⟨[(0, 1)], 1⟩ 0 [2, 4] = .ok ([(2, 0), (3, -1)], 1) ∧
    selection iterQ wayWorld lopOwn 1 plainOrd ⟨[], 0⟩ (-1) [2, 4] = .ok ([(2, -1), (3, -1)], 0) := by
  have h0 : arcsOf wayWorld 0 = [⟨0, [1, 2], 1⟩, ⟨1, [1, 4], 1⟩, ⟨2, [4, 1], 1⟩, ⟨3, [2, 1], 1⟩, ⟨4, [2, 3], 1⟩,
    ⟨5, [3, 2], 1⟩] := by decide +kernel
  have hsrc : ∀ u w, Arc wayWorld 0 u w → lopOwn u = 1 → lopOwn w ≠ 1 → u = 2 ∧ w = 1 := by
    rintro u w ⟨e, he, hpe⟩ hu hw
    rw [h0] at he
    simp only [List.mem_cons, List.not_mem_nil, or_false] at he
    rcases he with rfl | rfl | rfl | rfl | rfl | rfl
    all_goals
      simp only [List.cons.injEq, and_true] at hpe
      obtain ⟨rfl, rfl⟩ := hpe
      revert hu hw
      decide
  refine ⟨wayWorld_dist, ⟨by decide +kernel, ?_⟩, ⟨by decide, ?_⟩, ⟨by decide, ?_⟩, ?_, ?_, by decide +kernel,
    by decide +kernel, by decide +kernel⟩
  · intro t e he
    rcases t with _ | t
    · rw [h0] at he
      revert e
      decide +kernel
    · simp [arcsOf, wayWorld] at he
  · intro u w ha hu hw
    obtain ⟨rfl, rfl⟩ := hsrc u w ha hu hw
    decide +kernel
  · intro u w ha hu hw
    obtain ⟨rfl, rfl⟩ := hsrc u w ha hu hw
    decide +kernel
  · intro i hi e he
    simp only [wayWorld, List.mem_cons, List.not_mem_nil, or_false] at hi
    rcases hi with rfl | rfl
    all_goals
      simp only [List.getElem?_cons_zero, Option.some.injEq] at he
      subst he
      decide +kernel
  · refine ⟨2, 1, ⟨⟨3, [2, 1], 1⟩, by rw [h0]; simp, rfl⟩, by decide, by decide, ?_⟩
    intro w' ha hw'
    obtain ⟨-, rfl⟩ := hsrc 2 w' ha (by decide) hw'
    decide

/-- part 0 with three vertices of weight 1, each with two edges to part 1 and one to part 2 -/
def redirectArcs : List Input :=
  [{ hyper := false, verts := [1, 2, 3], wgts := [],
     types := [⟨[0, 1, 2, 3, 4, 5, 6, 7, 8], [[1, 11], [1, 13], [2, 11], [2, 13], [3, 11], [3, 13], [1, 12], [2, 12], [3, 12]], []⟩] },
   { hyper := false, verts := [11, 13], wgts := [], types := [⟨[], [], []⟩] },
   { hyper := false, verts := [12], wgts := [], types := [⟨[], [], []⟩] }]
def redirectArcsOwn : Gid → Nat := fun v => if v = 11 ∨ v = 13 then 1 else if v = 12 then 2 else 0

/-- **Defect** (C36), the same as `c36_redirected_uncharged` in a traditional graph: part 1 and part 2 want weight 1 each,
and two vertices of weight 1 are planned for part 2, none for part 1, for either iteration order of the hash tables. -/
theorem c36_trad_redirected_uncharged :
    (∀ v ∈ ([1, 2, 3] : List Gid), weightOf redirectArcs redirectArcsOwn v = 1) ∧
    selection iterQ redirectArcs redirectArcsOwn 0 plainOrd ⟨[(1, 1), (2, 1)], 2⟩ (-1) [2, 4, 6, 8, 10, 12] =
      .ok ([(1, 2), (2, 2), (3, -1)], 2) ∧
    selection iterQ redirectArcs redirectArcsOwn 0 backOrd ⟨[(1, 1), (2, 1)], 2⟩ (-1) [2, 4, 6, 8, 10, 12] =
      .ok ([(1, 2), (2, 2), (3, -1)], 2) := by
  refine ⟨?_, ?_, ?_⟩ <;> decide +kernel

end Verif.Part
