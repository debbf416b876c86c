import Verif.Part.DiffuseModel
import Verif.Part.TrimProps
import Verif.Part.SelectProps
/-!
# The pieces of a step of the diffusive balancer on graphs that represent a distributed hypergraph
-/
namespace Verif.Part
open Verif.Agi

/-- the graphs `gs` hold the distributed hypergraph `H`, with non-negative weights and with ghost weights -/
structure Spot (H : List (List HEdge)) (ins : List Input) (own : Gid → Nat) (gs : List Graph) : Prop where
  dist : HDist H ins own
  nn : NonNeg H ins own
  world : World gs ins own
  ghostW : 1 < ins.length → ∀ p (h : p < gs.length) (hi : p < ins.length), ∃ ghosts,
    PartRep gs[p] p ins.length ins[p] own ghosts ∧ gs[p].ghostWeights = some (Mem.ofList (ghosts.map (weightOf ins own)))

section
variable {H : List (List HEdge)} {ins : List Input} {own : Gid → Nat} {gs : List Graph}

/-- the parts' weights can be computed -/
theorem Spot.weights (h : Spot H ins own gs) (h1 : 1 < ins.length) {dim : Int} (hdim : -1 ≤ dim ∧ dim < (H.length : Int))
    (cg : Bool) : ∃ W : Nat → Rat, ∀ p (hp : p < gs.length), getWeight gs[p] dim cg = .ok (W p) ∧
      partWeight H ins own own dim p ≤ W p ∧ (dim ≠ -1 ∨ cg = false → W p = partWeight H ins own own dim p) := by
  have : ∀ p, ∃ w, ∀ (hp : p < gs.length), getWeight gs[p] dim cg = .ok w ∧
      partWeight H ins own own dim p ≤ w ∧ (dim ≠ -1 ∨ cg = false → w = partWeight H ins own own dim p) := by
    intro p
    by_cases hp : p < gs.length
    · obtain ⟨w, h1, h2⟩ := getWeight_ge h.dist h.nn h.world h.ghostW (cg := cg) (fun _ => h1) hp hdim
      exact ⟨w, fun _ => ⟨h1, h2⟩⟩
    · exact ⟨0, fun h => absurd h hp⟩
  choose W hW using this
  exact ⟨W, hW⟩

theorem sum_filter_le {es : List HEdge} (hw : ∀ e ∈ es, 0 ≤ e.w) (P : HEdge → Bool) :
    ((es.filter P).map HEdge.w).sum ≤ (es.map HEdge.w).sum := by
  induction es with
  | nil => simp
  | cons e es ih =>
    have ih := ih (fun x hx => hw x (by simp [hx]))
    have h0 := hw e (by simp)
    rw [List.filter_cons]
    split
    · simp only [List.map_cons, List.sum_cons]; linarith
    · simp only [List.map_cons, List.sum_cons]; linarith

/-- there is some bound for what a cavity brings -/
theorem cavity_bounded (hd : HDist H ins own) (hnn : NonNeg H ins own) {dim : Int}
    (hdim : -1 ≤ dim ∧ dim < (H.length : Int)) (p top : Nat) : ∃ M, CavityBound H ins own p dim top M := by
  by_cases h1 : dim = -1
  · subst h1
    refine ⟨((allVerts ins).map (weightOf ins own)).sum, ?_, ?_⟩
    · apply List.sum_nonneg
      intro x hx
      obtain ⟨v, hv, rfl⟩ := List.mem_map.mp hx
      exact hnn.verts v hv
    · intro e he _ us hn hus _ q
      unfold bringWeight
      rw [if_pos rfl]
      apply sum_subset hn
      · intro v hv
        rw [mem_allVerts]
        by_cases hH : 0 < H.length
        · rw [getD_zero hH] at he
          obtain ⟨h2, h3⟩ := hd.pins _ (List.getElem_mem hH) e he v (hus v hv).1
          exact ⟨_, h2, h3⟩
        · rw [List.getD_eq_getElem?_getD, List.getElem?_eq_none (by omega)] at he
          simp at he
      · exact hnn.verts
  · have ht : dim.toNat < H.length := by omega
    have hHt : H.getD dim.toNat [] = H[dim.toNat] := by
      rw [List.getD_eq_getElem?_getD, List.getElem?_eq_getElem ht]; rfl
    refine ⟨(H[dim.toNat].map HEdge.w).sum, ?_, ?_⟩
    · apply List.sum_nonneg
      intro x hx
      obtain ⟨e, he, rfl⟩ := List.mem_map.mp hx
      exact hnn.edges _ (List.getElem_mem ht) e he
    · intro e he _ us hn hus _ q
      unfold bringWeight
      rw [if_neg h1, hHt]
      exact sum_filter_le (hnn.edges _ (List.getElem_mem ht)) _

/-- the selection of a part -/
theorem select_world (h : Spot H ins own gs) (hH : 0 < H.length) {p : Nat} (hg : p < gs.length)
    {targets : Cont Rat} (hk : ∀ d, targets.has d = true → 0 ≤ d) {dim : Int} (hdim : -1 ≤ dim ∧ dim < (H.length : Int))
    {ord : HashOrd} (hord : ord.Ok) (limit : Rat) (sizes : List Nat) (h100 : SmallCavities H own p)
    (kind : QKind) (hfit : QueueFits kind own p (ins[p]'(by rw [← h.world.1]; exact hg))) :
    ∃ (s : Sel) (l : List Gid) (f : Gid → Option Part), selectAll kind ord gs[p] limit targets dim sizes = .ok s ∧
      PlanRep (ins[p]'(by rw [← h.world.1]; exact hg)).verts s.plan l f ∧
      ∀ v d, f v = some d → targets.has d = true ∧ 0 < targets.get d := by
  have hp : p < ins.length := by rw [← h.world.1]; exact hg
  obtain ⟨ghosts, hr⟩ := h.world.2 p hg hp
  have ht : 0 < ins[p].types.length := by rw [h.dist.types p hp]; exact hH
  obtain ⟨q, B, e3, hq, hB⟩ := queue_kind kind h.dist hp hr ht hfit
  obtain ⟨M, hM⟩ := cavity_bounded h.dist h.nn hdim p (sizes.foldr max 0)
  have hx := selCtx_part h.dist h.nn hp hr hH ht hk hdim hord hM h100 (fun h hh => hB.mem_iff.mp hh)
  obtain ⟨plan, e4, hpl⟩ := newPlan_rep hx.sel.numLocal
  obtain ⟨s0, e5, h0, hcav0⟩ := newSelector_inv hx hM.1 hq hpl
  have hsz : ∀ (L : List Nat), ∀ k ∈ L, k ≤ L.foldr max 0 := by
    intro L
    induction L with
    | nil => simp
    | cons a L ih =>
      intro k hk
      simp only [List.foldr_cons]
      rcases List.mem_cons.mp hk with rfl | hk
      · exact le_max_left _ _
      · exact le_trans (ih k hk) (le_max_right _ _)
  obtain ⟨s', C', N', l', f', r1, r2, -⟩ := selects_inv hx limit sizes _ _ _ _ s0 (hsz sizes) h0 (le_refl _)
  refine ⟨s', l', f', ?_, r2.plan, fun v d hf => ?_⟩
  · unfold selectAll
    rw [e3, Outcome.bind_ok, e4, Outcome.bind_ok, e5, Outcome.bind_ok]
    exact r1
  · obtain ⟨h1, h2, -⟩ := r2.dest v d hf
    exact ⟨h1, h2⟩

/-- `trim` and `cancel` on plans the parts made -/
theorem trim_world (h : Spot H ins own gs) (h1 : 1 < ins.length) {pl : Nat → Plan} {sl : Nat → List Gid}
    {f : Nat → Gid → Option Part}
    (hpl : ∀ p (hp : p < ins.length), PlanRep ins[p].verts (pl p) (sl p) (f p) ∧
      ∀ v d, f p v = some d → 0 ≤ d ∧ d < (ins.length : Int))
    {o3 o4 : Nat → List Nat} (ho3 : Orders ins.length o3) (ho4 : Orders ins.length o4)
    {dims : List Int} {limits : List Rat} (hpos : 0 < dims.length) (h5 : dims.length ≤ 5)
    (hlim : dims.length ≤ limits.length) (hdims : ∀ d ∈ dims, -1 ≤ d ∧ d < (H.length : Int)) (cg : Bool) :
    ∃ (plans' : Nat → Plan) (kept : Nat → List Gid),
      trimCancel gs ((List.range ins.length).map pl) dims limits cg o3 o4 = .ok ((List.range ins.length).map plans') ∧
      (∀ p (hp : p < ins.length),
        PlanRep ins[p].verts (plans' p) (kept p) (fun v => if v ∈ kept p then f p v else none)) ∧
      ∀ own' : Gid → Nat, (∀ p (hp : p < ins.length), ∀ v ∈ ins[p].verts,
          ((own' v : Nat) : Int) = (if v ∈ kept p then f p v else none).getD (p : Int)) →
        ∀ q, q < ins.length → ∀ i (hi : i < dims.length) (hl : i < limits.length),
          partWeight H ins own own' dims[i] q ≤ max (partWeight H ins own own dims[i] q) limits[i] := by
  have hd := h.dist
  have hnn := h.nn
  have hgl := h.world.1
  have hview : ∀ p, ∃ x : PartView, ∃ gh : List Gid, ∀ (hp : p < ins.length) (hg : p < gs.length),
      x.g = gs[p] ∧ x.vs = ins[p].verts ∧ x.plan = pl p ∧
      x.wt = weightOf ins own ∧ x.inc = incOf gs[p] ins[p] gh ∧ x.res = resOf gs[p] ∧ x.ew = ewOf gs[p] ∧
      x.f = f p ∧ PartRep gs[p] p ins.length ins[p] own gh ∧ x.s = sl p ∧ x.Ok dims ins.length := by
    intro p
    by_cases hp : p < ins.length
    swap
    · exact ⟨⟨emptyGraph 0 0, ⟨none, []⟩, [], fun _ => 0, fun _ => 0, fun _ _ => [], fun _ _ => false, fun _ => 0, [], fun _ => none⟩,
        [], fun h => absurd h hp⟩
    have hg : p < gs.length := by omega
    obtain ⟨gh, hr⟩ := h.world.2 p hg hp
    obtain ⟨hpr, hrange⟩ := hpl p hp
    refine ⟨⟨gs[p], pl p, ins[p].verts, fun v => getVertex (ins[p].verts.idxOf v), weightOf ins own,
      incOf gs[p] ins[p] gh, resOf gs[p], ewOf gs[p], sl p, f p⟩, gh, fun _ _ =>
      ⟨rfl, rfl, rfl, rfl, rfl, rfl, rfl, rfl, hr, rfl, ?_⟩⟩
    refine ⟨facts_part hd hnn hp hr hdims, ?_, fun e => ewOf_nonneg _ e, hr.core.v.nl,
      (hd.wf _ (List.getElem_mem hp)).nodup, fun v _ => rfl, hpr, ?_⟩
    · intro v hv; exact hnn.verts v (mem_allVerts.mpr ⟨p, hp, hv⟩)
    · intro v hv
      obtain ⟨hv1, hv2⟩ := (hpr.mem v).mp hv
      obtain ⟨d, hdd⟩ := Option.ne_none_iff_exists'.mp hv2
      unfold PartView.dest
      simp only [hdd, Option.getD_some]
      exact hrange v d hdd
  choose X gh hX using hview
  have hXo : ∀ p, p < ins.length → (X p).Ok dims ins.length := fun p hp => (hX p hp (by omega)).2.2.2.2.2.2.2.2.2.2
  have hWex : ∀ p, ∃ W : Nat → Rat, ∀ (hp : p < gs.length), ∀ i (hi : i < dims.length),
      getWeight gs[p] dims[i] cg = .ok (W i) ∧ partWeight H ins own own dims[i] p ≤ W i := by
    intro p
    by_cases hp : p < gs.length
    swap
    · exact ⟨fun _ => 0, fun h => absurd h hp⟩
    have : ∀ i, ∃ w, ∀ (hi : i < dims.length), getWeight gs[p] dims[i] cg = .ok w ∧ partWeight H ins own own dims[i] p ≤ w := by
      intro i
      by_cases hi : i < dims.length
      · obtain ⟨w, h1, h2, -⟩ := getWeight_ge hd hnn h.world h.ghostW (cg := cg) (fun _ => h1) hp (hdims _ (List.getElem_mem hi))
        exact ⟨w, fun _ => ⟨h1, h2⟩⟩
      · exact ⟨0, fun h => absurd h hi⟩
    choose W hW using this
    exact ⟨W, fun _ i hi => hW i hi⟩
  choose W hW using hWex
  have hgd : ∀ i (hi : i < dims.length), dims.getD i 0 = dims[i] := by
    intro i hi; rw [List.getD_eq_getElem?_getD, List.getElem?_eq_getElem hi]; rfl
  have hld : ∀ i (hi : i < limits.length), limits.getD i 0 = limits[i] := by
    intro i hi; rw [List.getD_eq_getElem?_getD, List.getElem?_eq_getElem hi]; rfl
  obtain ⟨plans', kept, hrun, hk, hfit, -⟩ := trimCancel_spec (n := ins.length) (X := X) (dims := dims) (limits := limits)
    (cg := cg) hXo hpos h5 hlim (W := W)
    (by
      intro p hp i hi
      obtain ⟨x1, -⟩ := hX p hp (by omega)
      rw [x1, hgd i hi]
      exact (hW p (by omega) i hi).1) ho3 ho4
  have hgs : (List.range ins.length).map (fun p => (X p).g) = gs := by
    apply List.ext_getElem
    · simp [hgl]
    · intro p h1 h2
      simp only [List.getElem_map, List.getElem_range]
      exact (hX p (by omega) h2).1
  have hps : (List.range ins.length).map (fun p => (X p).plan) = (List.range ins.length).map pl := by
    apply List.map_congr_left
    intro p hp
    have hp := List.mem_range.mp hp
    exact (hX p hp (by omega)).2.2.1
  rw [hgs, hps] at hrun
  have hks : ∀ p (hp : p < ins.length), ∀ v ∈ kept p, v ∈ (X p).s ∧ v ∈ ins[p].verts := by
    intro p hp v hv
    have h1 := (hk p hp).1.subset hv
    have h2 := (((hXo p hp).plan.mem v).mp h1).1
    rw [(hX p hp (by omega)).2.1] at h2
    exact ⟨h1, h2⟩
  have hload : ∀ p (hp : p < ins.length), ∀ i (hi : i < dims.length), ∀ (q : Nat) (us : List Gid), (∀ v ∈ us, v ∈ ins[p].verts) →
      load (X p).wt (X p).inc (X p).res (X p).ew dims[i] q us = bringWeight H ins own dims[i] q us := by
    intro p hp i hi q us hus
    obtain ⟨x1, x2, x3, x4, x5, x6, x7, x8, x9, -⟩ := hX p hp (by omega)
    rw [x4, x5, x6, x7]
    exact load_part hd hnn hp x9 (hdims _ (List.getElem_mem hi)) q hus
  refine ⟨plans', kept, hrun, ?_, ?_⟩
  · intro p hp
    obtain ⟨x1, x2, x3, x4, x5, x6, x7, x8, x9, -⟩ := hX p hp (by omega)
    have := (hk p hp).2
    rwa [x2, x8] at this
  intro own' hown' q hq i hi hl
  have hb1 := partWeight_bound (own' := own') (q := q) hd hnn (hdims _ (List.getElem_mem hi))
    (M := fun p => going (X p).dest (q : Int) (kept p)) (by
      intro p hp v hv
      exact (hks p hp v (List.mem_filter.mp hv).1).2)
    (by
      intro p hp v hv ho' hno
      have hov := hd.verts p hp v hv
      have ho2 := hown' p hp v hv
      rw [ho'] at ho2
      by_cases hin : v ∈ kept p
      · rw [if_pos hin] at ho2
        refine List.mem_filter.mpr ⟨hin, ?_⟩
        obtain ⟨d, hdd⟩ := Option.ne_none_iff_exists'.mp (((hXo p hp).plan.mem v).mp (hks p hp v hin).1).2
        have hx8 := (hX p hp (by omega)).2.2.2.2.2.2.2.1
        simp only [decide_eq_true_eq]
        unfold PartView.dest
        rw [hdd]
        rw [hx8] at hdd
        rw [hdd] at ho2
        exact ho2.symm
      · rw [if_neg hin, Option.getD_none] at ho2
        exact absurd (by rw [hov]; exact_mod_cast ho2.symm) hno)
  have hb2 := hfit q hq i hi
  rw [hgd i hi, hld i hl] at hb2
  have hb3 : ((List.range ins.length).map (fun p => bringWeight H ins own dims[i] q (going (X p).dest (q : Int) (kept p)))).sum =
      ((List.range ins.length).map (fun p => (X p).load dims[i] q (kept p))).sum := by
    congr 1
    apply List.map_congr_left
    intro p hp
    have hp := List.mem_range.mp hp
    unfold PartView.load
    exact (hload p hp i hi q _ (fun v hv => (hks p hp v (List.mem_filter.mp hv).1).2)).symm
  rw [hb3] at hb1
  have hb4 := (hW q (by omega) i hi).2
  rcases le_total (limits[i] - W q i) 0 with h0 | h0
  · rw [max_eq_left h0] at hb2
    exact le_max_of_le_left (by linarith)
  · rw [max_eq_right h0] at hb2
    exact le_max_of_le_right (by linarith)

end
end Verif.Part
