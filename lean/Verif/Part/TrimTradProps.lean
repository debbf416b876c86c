import Verif.Part.TrimTrad
import Verif.Part.WBalTrad
/-!
# C35 for traditional graphs: statements
-/
namespace Verif.Part
open Verif.Agi

theorem bringT_perm {ins : List Input} {own : Gid → Nat} {a b : List Gid} (h : a.Perm b) (dim : Int) (q : Nat) :
    bringWeightT ins own dim q a = bringWeightT ins own dim q b := by
  unfold bringWeightT
  split
  · exact (h.map _).sum_eq
  · have : ∀ e : HEdge, (∃ v ∈ a, e.pins.head? = some v) ↔ ∃ v ∈ b, e.pins.head? = some v := by
      intro e; simp only [h.mem_iff]
    simp only [this]

/-- **C35** for traditional graphs.  For every distributed graph with non-negative weights, every plan the parts may have
filled (any calls, any destinations), every set of one to five completed dimensions with any limits, counting ghosts or
not, and all delivery orders: `trim` followed by `cancel` succeeds; each vertex either keeps its planned destination or is
dropped from the plan; and if the vertices were placed as the remaining plans say, no part would in any completed
dimension weigh more than the larger of what it weighed before and the limit of that dimension, plus (in edge dimensions)
the edges that come with the vertices it receives and end at a vertex it owns already.  Nothing is dropped needlessly: the
vertices going to a part all stay planned if what they bring fits the room that part has (strictly, in the last dimension).

Partial: the limit of an edge dimension may really be exceeded by those edges (`c35_trad_edges_over_limit`): the code takes
an edge with an end on the receiver for one the receiver has already, which is only true in hypergraphs.  Edge dimensions
where edges have lost their weights (C08) are excluded (`WeightsKept`), as are more than five completed dimensions
(`c35_six_dimensions_ub`). -/
theorem c35_within_limits_trad_partial (ins : List Input) (own : Gid → Nat) (T : Nat) (hd : TradDist ins own T)
    (hnn : NonNegT ins own) (owns : List (GMap Part)) (ho : OwnMaps ins own owns) (o1 o2 o3 o4 : Nat → List Nat)
    (ho1 : Orders ins.length o1) (ho2 : Orders ins.length o2) (ho3 : Orders ins.length o3) (ho4 : Orders ins.length o4)
    (ops : Nat → List GOp) (hops : ∀ p (hp : p < ins.length), ∀ v d, GOp.insert v d ∈ ops p →
      v ∈ ins[p].verts ∧ 0 ≤ d ∧ d < (ins.length : Int))
    (dims : List Int) (limits : List Rat) (hpos : 0 < dims.length) (h5 : dims.length ≤ 5)
    (hlim : dims.length ≤ limits.length) (hdims : ∀ d ∈ dims, -1 ≤ d ∧ d < (T : Int))
    (hkept : ∀ d ∈ dims, d ≠ -1 → WeightsKept ins d.toNat)
    (cg : Bool) (hcg : cg = true → 1 < ins.length) :
    ∃ gs gs' plans plans' own', buildAll ins = .ok gs ∧ constructGhosts gs owns o1 o2 = .ok gs' ∧
      gs'.zipIdx.mapM (fun x => x.1.planG (ops x.2)) = .ok plans ∧
      trimCancel gs' plans dims limits cg o3 o4 = .ok plans' ∧
      gs'.length = ins.length ∧ plans'.length = ins.length ∧
      (∀ p (hp : p < ins.length) (hg : p < gs'.length) (hpl : p < plans'.length), ∀ v ∈ ins[p].verts, ∃ h,
        gs'[p].findGID v = .ok h ∧
        ((gs'[p].planGet plans'[p] h = .ok (-1) ∧ own' v = own v) ∨
          (plannedG v (ops p).reverse = some ((own' v : Nat) : Int) ∧
            gs'[p].planGet plans'[p] h = .ok ((own' v : Nat) : Int)))) ∧
      (∀ q, q < ins.length → ∀ i (hi : i < dims.length) (hl : i < limits.length),
        partWeightT ins own own' dims[i] q ≤ max (partWeightT ins own own dims[i] q) limits[i] + innerWeight ins own own' dims[i] q) ∧
      (dims.Nodup → ∀ q (hq : q < gs'.length),
        (∀ i (hi : i < dims.length) (hl : i < limits.length), ∀ w, getWeight gs'[q] dims[i] cg = .ok w →
          ((List.range ins.length).map (fun p => bringWeightT ins own dims[i] q (plannedTo ins ops p q))).sum ≤ limits[i] - w ∧
          (i = dims.length - 1 →
            ((List.range ins.length).map (fun p => bringWeightT ins own dims[i] q (plannedTo ins ops p q))).sum < limits[i] - w)) →
        ∀ p (_ : p < ins.length), ∀ v ∈ plannedTo ins ops p q, own' v = q) := by
  obtain ⟨gs, e, hb⟩ := buildAll_spec ins hd.dist.wf
  obtain ⟨gs', e', hw, hrr⟩ := constructGhosts_spec hb hd.dist hd.uniform ho ho1 ho2
  have hgl := hw.1
  have hb1 := hb.1
  have hgw : 1 < ins.length → ∀ p (h : p < gs'.length) (hi : p < ins.length), ∃ ghosts,
      PartRep gs'[p] p ins.length ins[p] own ghosts ∧ gs'[p].ghostWeights = some (Mem.ofList (ghosts.map (weightOf ins own))) :=
    fun h1 p h hi => (hrr p h (by omega) hi).2.2.2.2 h1
  -- the plans
  have hview : ∀ p, ∃ x : PartView, ∃ gh : List Gid, ∀ (hp : p < ins.length) (hg : p < gs'.length),
      x.g = gs'[p] ∧ x.vs = ins[p].verts ∧ x.hnd = (fun v => getVertex (ins[p].verts.idxOf v)) ∧
      x.wt = weightOf ins own ∧ x.inc = incT gs'[p] ins[p] ∧ x.res = resOf gs'[p] ∧ x.ew = ewOf gs'[p] ∧
      x.f = (fun v => plannedG v (ops p).reverse) ∧ PartRep gs'[p] p ins.length ins[p] own gh ∧
      gs'[p].planG (ops p) = .ok x.plan ∧ x.Ok dims ins.length := by
    intro p
    by_cases hp : p < ins.length
    swap
    · exact ⟨⟨emptyGraph 0 0, ⟨none, []⟩, [], fun _ => 0, fun _ => 0, fun _ _ => [], fun _ _ => false, fun _ => 0, [], fun _ => none⟩,
        [], fun h => absurd h hp⟩
    have hg : p < gs'.length := by omega
    obtain ⟨gh, hr⟩ := hw.2 p hg hp
    obtain ⟨plan, s, e1, hpr⟩ := planG_rep hr.core.v (ops p) (fun v d h => by
      have := hops p hp v d h; exact ⟨this.1, by omega⟩)
    refine ⟨⟨gs'[p], plan, ins[p].verts, fun v => getVertex (ins[p].verts.idxOf v), weightOf ins own,
      incT gs'[p] ins[p], resOf gs'[p], ewOf gs'[p], s, fun v => plannedG v (ops p).reverse⟩, gh, fun _ _ =>
      ⟨rfl, rfl, rfl, rfl, rfl, rfl, rfl, rfl, hr, e1, ?_⟩⟩
    have hrange : ∀ (l : List GOp), (∀ v d, GOp.insert v d ∈ l → 0 ≤ d ∧ d < (ins.length : Int)) → ∀ v d,
        plannedG v l = some d → 0 ≤ d ∧ d < (ins.length : Int) := by
      intro l
      induction l with
      | nil => intro _ v d h; simp [plannedG] at h
      | cons a l ih =>
        intro hl v d h
        cases a with
        | clear => simp [plannedG] at h
        | insert v' d' =>
          unfold plannedG at h
          split at h
          · cases h; exact hl v' d (by simp)
          · exact ih (fun v d h => hl v d (by simp [h])) v d h
    refine ⟨facts_trad hd hnn hp hr hdims, ?_, fun e => ewOf_nonneg _ e, hr.core.v.nl,
      (hd.dist.wf _ (List.getElem_mem hp)).nodup, fun v _ => rfl, hpr, ?_⟩
    · intro v hv; exact hnn.verts v (mem_allVerts.mpr ⟨p, hp, hv⟩)
    · intro v hv
      obtain ⟨hv1, hv2⟩ := (hpr.mem v).mp hv
      obtain ⟨d, hdd⟩ := Option.ne_none_iff_exists'.mp hv2
      unfold PartView.dest
      simp only [hdd, Option.getD_some]
      exact hrange _ (fun v d h => (hops p hp v d (by simpa using h)).2) v d hdd
  choose X gh hX using hview
  have hXo : ∀ p, p < ins.length → (X p).Ok dims ins.length := fun p hp => (hX p hp (by omega)).2.2.2.2.2.2.2.2.2.2
  have hWex : ∀ p, ∃ W : Nat → Rat, ∀ (hp : p < gs'.length), ∀ i (hi : i < dims.length),
      getWeight gs'[p] dims[i] cg = .ok (W i) ∧ partWeightT ins own own dims[i] p ≤ W i := by
    intro p
    by_cases hp : p < gs'.length
    swap
    · exact ⟨fun _ => 0, fun h => absurd h hp⟩
    have : ∀ i, ∃ w, ∀ (hi : i < dims.length), getWeight gs'[p] dims[i] cg = .ok w ∧ partWeightT ins own own dims[i] p ≤ w := by
      intro i
      by_cases hi : i < dims.length
      · obtain ⟨w, h1, h2, -⟩ := getWeight_trad hd hnn hw hgw hcg hp (hdims _ (List.getElem_mem hi))
        exact ⟨w, fun _ => ⟨h1, h2⟩⟩
      · exact ⟨0, fun h => absurd h hi⟩
    choose W hW using this
    exact ⟨W, fun _ i hi => hW i hi⟩
  choose W hW using hWex
  have hgd : ∀ i (hi : i < dims.length), dims.getD i 0 = dims[i] := by
    intro i hi; rw [List.getD_eq_getElem?_getD, List.getElem?_eq_getElem hi]; rfl
  have hld : ∀ i (hi : i < limits.length), limits.getD i 0 = limits[i] := by
    intro i hi; rw [List.getD_eq_getElem?_getD, List.getElem?_eq_getElem hi]; rfl
  obtain ⟨plans', kept, hrun, hk, hfit, hall⟩ := trimCancel_spec (n := ins.length) (X := X) (dims := dims) (limits := limits)
    (cg := cg) hXo hpos h5 hlim (W := W)
    (by
      intro p hp i hi
      obtain ⟨x1, -⟩ := hX p hp (by omega)
      rw [x1, hgd i hi]
      exact (hW p (by omega) i hi).1) ho3 ho4
  have hgs : (List.range ins.length).map (fun p => (X p).g) = gs' := by
    apply List.ext_getElem
    · simp [hgl]
    · intro p h1 h2
      simp only [List.getElem_map, List.getElem_range]
      exact (hX p (by omega) h2).1
  rw [hgs] at hrun
  let own' : Gid → Nat := fun v => if v ∈ kept (own v) then ((X (own v)).dest v).toNat else own v
  have hks : ∀ p (hp : p < ins.length), ∀ v ∈ kept p, v ∈ (X p).s ∧ v ∈ ins[p].verts := by
    intro p hp v hv
    have h1 := (hk p hp).1.subset hv
    have h2 := (((hXo p hp).plan.mem v).mp h1).1
    rw [(hX p hp (by omega)).2.1] at h2
    exact ⟨h1, h2⟩
  have hload : ∀ p (hp : p < ins.length), ∀ i (hi : i < dims.length), ∀ (q : Nat) (us : List Gid), (∀ v ∈ us, v ∈ ins[p].verts) →
      load (X p).wt (X p).inc (X p).res (X p).ew dims[i] q us = bringWeightT ins own dims[i] q us := by
    intro p hp i hi q us hus
    obtain ⟨x1, x2, x3, x4, x5, x6, x7, x8, x9, -⟩ := hX p hp (by omega)
    rw [x4, x5, x6, x7]
    exact load_trad hd hnn hp x9 (hdims _ (List.getElem_mem hi)) (hkept _ (List.getElem_mem hi)) q hus
  refine ⟨gs, gs', (List.range ins.length).map (fun p => (X p).plan), (List.range ins.length).map plans', own', e, e', ?_, hrun, hgl,
    by simp, ?_, ?_, ?_⟩
  · have : gs'.zipIdx = (List.range ins.length).map (fun p => ((X p).g, p)) := by
      conv_lhs => rw [← hgs]
      exact zipIdx_range _ _
    rw [this]
    apply mapM_range
    intro p hp
    obtain ⟨x1, x2, x3, x4, x5, x6, x7, x8, x9, x10, -⟩ := hX p hp (by omega)
    simp only
    rw [x1]; exact x10
  · intro p hp hg hpl v hv
    obtain ⟨x1, x2, x3, x4, x5, x6, x7, x8, x9, x10, x11⟩ := hX p hp hg
    have hpr := (hk p hp).2
    rw [x2] at hpr
    refine ⟨getVertex (ins[p].verts.idxOf v), ?_, ?_⟩
    · have := findGID_eq x9.core.v (show v ∈ ins[p].verts ++ gh p by simp [hv])
      rwa [List.idxOf_append_of_mem hv] at this
    · simp only [List.getElem_map, List.getElem_range]
      rw [planGet_eq hpr (by exact x9.core.v.nl) hv]
      have hov := hd.dist.verts p hp v hv
      simp only [own', hov]
      by_cases hin : v ∈ kept p
      · right
        obtain ⟨hs1, -⟩ := hks p hp v hin
        obtain ⟨d, hdd⟩ := Option.ne_none_iff_exists'.mp (((hXo p hp).plan.mem v).mp hs1).2
        have hr := (hXo p hp).range v hs1
        have hde : (X p).dest v = d := by unfold PartView.dest; rw [hdd]; rfl
        rw [hde] at hr
        rw [if_pos hin, if_pos hin, hdd, hde]
        have h2 : ((d.toNat : Nat) : Int) = d := by omega
        rw [h2]
        rw [x8] at hdd
        exact ⟨hdd, rfl⟩
      · left
        rw [if_neg hin, if_neg hin]
        exact ⟨rfl, rfl⟩
  · intro q hq i hi hl
    have hb1 := partWeightT_bound (own' := own') (q := q) (dim := dims[i]) hd hnn
      (M := fun p => going (X p).dest (q : Int) (kept p)) (by
        intro p hp v hv
        exact (hks p hp v (List.mem_filter.mp hv).1).2)
      (by
        intro p hp v hv ho' hno
        have hov := hd.dist.verts p hp v hv
        simp only [own', hov] at ho' hno
        by_cases hin : v ∈ kept p
        · rw [if_pos hin] at ho'
          refine List.mem_filter.mpr ⟨hin, ?_⟩
          have := (hXo p hp).range v (hks p hp v hin).1
          simp only [decide_eq_true_eq]; omega
        · rw [if_neg hin] at ho'; exact absurd ho' hno)
    have hb2 := hfit q hq i hi
    rw [hgd i hi, hld i hl] at hb2
    have hb3 : ((List.range ins.length).map (fun p => bringWeightT ins own dims[i] q (going (X p).dest (q : Int) (kept p)))).sum =
        ((List.range ins.length).map (fun p => (X p).load dims[i] q (kept p))).sum := by
      congr 1
      apply List.map_congr_left
      intro p hp
      have hp := List.mem_range.mp hp
      unfold PartView.load
      exact (hload p hp i hi q _ (fun v hv => (hks p hp v (List.mem_filter.mp hv).1).2)).symm
    rw [hb3] at hb1
    have hb4 := (hW q (by omega) i hi).2
    rcases le_total (limits[i] - W q i) 0 with h0 | h0
    · rw [max_eq_left h0] at hb2
      have := le_max_left (partWeightT ins own own dims[i] q) limits[i]
      linarith
    · rw [max_eq_right h0] at hb2
      have := le_max_right (partWeightT ins own own dims[i] q) limits[i]
      linarith
  · intro hnd q hq hroom p hp v hv
    have hq' : q < ins.length := by omega
    have hsp : ∀ p, (hp : p < ins.length) → (going (X p).dest (q : Int) (X p).s).Perm (plannedTo ins ops p q) := by
      intro p hp
      obtain ⟨x1, x2, x3, x4, x5, x6, x7, x8, x9, x10, x11⟩ := hX p hp (by omega)
      unfold going plannedTo
      rw [getD_ins hp]
      rw [List.perm_ext_iff_of_nodup (x11.plan.nodup.filter _) ((hd.dist.wf _ (List.getElem_mem hp)).nodup.filter _)]
      intro v
      rw [List.mem_filter, List.mem_filter, x11.plan.mem v, x2, x8]
      simp only [decide_eq_true_eq, PartView.dest, x8]
      constructor
      · rintro ⟨⟨h1, h2⟩, h3⟩
        obtain ⟨d, hdd⟩ := Option.ne_none_iff_exists'.mp h2
        rw [hdd] at h3 ⊢
        exact ⟨h1, by rw [← h3]; rfl⟩
      · rintro ⟨h1, h2⟩
        rw [h2]
        exact ⟨⟨h1, by simp⟩, rfl⟩
    have hoff : ∀ i (hi : i < dims.length),
        ((List.range ins.length).map (fun p => (offerOf X dims p q).getD i 0)).sum =
        ((List.range ins.length).map (fun p => bringWeightT ins own dims[i] q (plannedTo ins ops p q))).sum := by
      intro i hi
      congr 1
      apply List.map_congr_left
      intro p hp
      have hp := List.mem_range.mp hp
      unfold offerOf
      have hlp := hload p hp i hi q (going (X p).dest (q : Int) (X p).s) (by
        intro v hv
        have := (((hXo p hp).plan.mem v).mp (List.mem_filter.mp hv).1).1
        rwa [(hX p hp (by omega)).2.1] at this)
      rw [offer_getD hi, hgd i hi, hlp, bringT_perm (hsp p hp)]
      have hone : (if dims[i] = -1 then (dims.count (-1) : Rat) else 1) = 1 := by
        split
        · rename_i h1
          have : dims.count (-1) = 1 := by
            apply List.count_eq_one_of_mem hnd
            rw [← h1]; exact List.getElem_mem hi
          rw [this]; rfl
        · rfl
      rw [hone, one_mul]
    have hg := hall q hq' (by
        intro i hi
        rw [hoff i hi, hld i (by omega)]
        exact (hroom i hi (by omega) _ (hW q hq i hi).1).1)
      (by
        rw [hoff _ (by omega), hld _ (by omega)]
        exact (hroom _ (by omega) (by omega) _ (hW q hq _ (by omega)).1).2 rfl) p hp
    have hv1 := (hsp p hp).mem_iff.mpr hv
    rw [← hg] at hv1
    obtain ⟨hv2, hv3⟩ := List.mem_filter.mp hv1
    have hov := hd.dist.verts p hp v (hks p hp v hv2).2
    simp only [own', hov]
    rw [if_pos hv2]
    simp only [decide_eq_true_eq] at hv3
    omega



/-- the plans of the example: part 1 wants to send vertices 2 and 3 to part 0 -/
def wayOps : Nat → List GOp := fun p => if p = 1 then [.insert 2 0, .insert 3 0] else []

/-- the hypotheses are met, and several outcomes occur: part 0 (vertex weight 40, three edges) would receive vertices 2 and 3
(weights 90 and 70, two edges and one edge).  With limits 130 and 10 only vertex 2 may go; with 300 and 10 both, counting
ghosts; with 131 and 10 and ghosts counted neither -/
example : TradDist wayWorld lopOwn 1 ∧ NonNegT wayWorld lopOwn ∧ WeightsKept wayWorld 0 ∧
    negotiate wayWorld lopOwn wayOps [-1, 0] [130, 10] false = .ok [[(1, -1), (4, -1)], [(2, 0), (3, -1)]] ∧
    negotiate wayWorld lopOwn wayOps [-1, 0] [300, 10] true = .ok [[(1, -1), (4, -1)], [(2, 0), (3, 0)]] ∧
    negotiate wayWorld lopOwn wayOps [-1, 0] [131, 10] true = .ok [[(1, -1), (4, -1)], [(2, -1), (3, -1)]] := by
  have h0 : arcsOf wayWorld 0 = [⟨0, [1, 2], 1⟩, ⟨1, [1, 4], 1⟩, ⟨2, [4, 1], 1⟩, ⟨3, [2, 1], 1⟩, ⟨4, [2, 3], 1⟩,
    ⟨5, [3, 2], 1⟩] := by decide +kernel
  refine ⟨wayWorld_dist, ⟨by decide +kernel, ?_⟩, ?_, by decide +kernel, by decide +kernel, by decide +kernel⟩
  · intro t e he
    rcases t with _ | t
    · rw [h0] at he
      revert e
      decide +kernel
    · simp [arcsOf, wayWorld] at he
  · intro i hi e he
    right
    simp only [wayWorld, List.mem_cons, List.not_mem_nil, or_false] at hi
    rcases hi with rfl | rfl
    all_goals
      simp only [List.getElem?_cons_zero, Option.some.injEq] at he
      subst he
      decide +kernel

/-- **Defect** (C35): part 0 has three edges and the limit for its edges is 4.  Vertex 2 of part 1 has two edges, to vertex 1
of part 0 and to vertex 3; the first is taken for an edge part 0 has already
(partition/Diffusive/src/engpar_selector.cpp:247,260), so vertex 2 is let in and part 0 ends up with five edges. -/
theorem c35_trad_edges_over_limit : TradDist wayWorld lopOwn 1 ∧
    negotiate wayWorld lopOwn wayOps [0] [4] false = .ok [[(1, -1), (4, -1)], [(2, 0), (3, -1)]] ∧
    partWeightT wayWorld lopOwn lopOwn 0 0 = 3 ∧
    partWeightT wayWorld lopOwn (fun v => if v = 3 then 1 else 0) 0 0 = 5 ∧
    innerWeight wayWorld lopOwn (fun v => if v = 3 then 1 else 0) 0 0 = 1 :=
  ⟨wayWorld_dist, by decide +kernel, by decide +kernel, by decide +kernel, by decide +kernel⟩

end Verif.Part
