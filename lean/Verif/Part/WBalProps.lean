import Verif.Part.WBalRun
/-!
# C58: weight diffusion as a whole
-/
namespace Verif.Part
open Verif.Agi

/-- the result of weight diffusion: `gs` are the graphs before, `b` the state after, `rs` what the steps reported and `ts`
the transfers of the steps that migrated -/
structure Diffused (H : List (List HEdge)) (ins : List Input) (own : Gid → Nat) (par : WPar) (gs : List Graph) (b : WBal)
    (rs : List StepRec) (ts : List Transfers) : Prop where
  /-- every step does what its code says, and only the last one may fail to migrate -/
  steps : ∀ k (h : k < rs.length), StepMeans par.tol ((rs.take (k + 1)).map StepRec.imb) rs[k] ∧
    (k + 1 < rs.length → rs[k].rc = 0) ∧
    rs[k].imb = imbalance ((List.range ins.length).map (loadAfter ins own (ts.take k))) ∧ (rs[k].rc = 0 ↔ k < ts.length)
  /-- the number of steps is bounded -/
  count : rs.length ≤ par.maxIterations.toNat ∧ ts.length ≤ rs.length
  ends : rs.length = par.maxIterations.toNat ∨ ∃ r, rs.getLast? = some r ∧ r.rc ≠ 0
  /-- every step moves weight downhill, between neighbours, and reports how much -/
  fair : ∀ k (h : k < ts.length), FairStep H ins own par.stepFactor (loadAfter ins own (ts.take k)) ts[k] ∧
    ∀ r, rs[k]? = some r → (r.moved : Rat) = ((List.range ins.length).map (sentBy ts[k])).sum
  /-- nothing but vertex weights changes -/
  same : b.gs.length = gs.length ∧
    ∀ p (h : p < gs.length) (h' : p < b.gs.length), { b.gs[p] with weights := gs[p].weights } = gs[p]
  /-- the weights of the vertices, which are not negative -/
  weights : ∀ p (h : p < b.gs.length) (hp : p < ins.length), ∀ v ∈ ins[p].verts,
    b.gs[p].weightG v = .ok (weightAfter ins own ts v) ∧ 0 ≤ weightAfter ins own ts v
  /-- the weights of the parts, and their sum -/
  loads : ∀ p (h : p < b.gs.length), getWeight b.gs[p] (-1) false = .ok (loadAfter ins own ts p)
  total : ((List.range ins.length).map (loadAfter ins own ts)).sum = ((allVerts ins).map (weightOf ins own)).sum
  /-- the record: the positive part of the net movement from a vertex of the part to another vertex -/
  record : b.wps.length = ins.length ∧ ∀ p (h : p < b.wps.length) (hp : p < ins.length), ∀ v u, b.wps[p] v u =
    if v ∈ ins[p].verts ∧ u ∈ allVerts ins then max 0 (netFlow own ts v u) else 0

section
variable {H : List (List HEdge)} {ins : List Input} {own : Gid → Nat} {par : WPar}

theorem sum_only (n k : Nat) (hk : k < n) (F : Nat → Rat) (h : ∀ q, q < n → q ≠ k → F q = 0) :
    ((List.range n).map F).sum = F k := by
  rw [sum_range_list]
  exact Finset.sum_eq_single k (fun q hq hqk => h q (Finset.mem_range.mp hq) hqk) (fun h => absurd (Finset.mem_range.mpr hk) h)

theorem sum_nonpos_list (l : List Rat) (h : ∀ x ∈ l, x ≤ 0) : l.sum ≤ 0 := by
  induction l with
  | nil => simp
  | cons x l ih =>
    rw [List.sum_cons]
    have h1 := h x List.mem_cons_self
    have h2 := ih (fun y hy => h y (List.mem_cons_of_mem _ hy))
    linarith

/-- what is recorded of one step -/
theorem record_step (hd : WDist H ins own) {sf : Rat} {W : Nat → Rat} {L : Transfers} (hf : FairStep H ins own sf W L)
    {p : Nat} (hp : p < ins.length) (a b : Gid) :
    moved (L p) (fun x y => x = a ∧ y = b) -
        ((List.range ins.length).map (fun q => moved (L q) (fun x y => own y = p ∧ x = b ∧ y = a))).sum =
      if a ∈ ins[p].verts ∧ b ∈ allVerts ins then
        moved (L (own a)) (fun x y => x = a ∧ y = b) - moved (L (own b)) (fun x y => x = b ∧ y = a) else 0 := by
  have hpin : ∀ q (hq : q < ins.length), ∀ x ∈ L q, ∃ h : own x.2.1 < ins.length, x.2.1 ∈ ins[own x.2.1].verts := by
    intro q hq x hx
    obtain ⟨-, -, e, he, -, h5⟩ := hf.between q hq x hx
    by_cases hH : 0 < H.length
    · rw [getD_zero hH] at he
      exact hd.pins _ (List.getElem_mem hH) e he _ h5
    · rw [List.getD_eq_getElem?_getD, List.getElem?_eq_none (by omega)] at he
      simp at he
  by_cases h : a ∈ ins[p].verts ∧ b ∈ allVerts ins
  · obtain ⟨ha, hb⟩ := h
    rw [if_pos ⟨ha, hb⟩]
    have hoa := hd.verts p hp a ha
    obtain ⟨q, hq, hb⟩ := mem_allVerts.mp hb
    have hob := hd.verts q hq b hb
    rw [hoa, hob]
    congr 1
    rw [sum_only ins.length q hq]
    · apply moved_congr
      intro x _
      constructor
      · rintro ⟨-, h⟩; exact h
      · rintro ⟨h1, h2⟩; exact ⟨by rw [h2]; exact hoa, h1, h2⟩
    · intro q' hq' hne
      apply moved_none
      rintro x hx ⟨-, h1, -⟩
      have h2 := hd.verts q' hq' x.1 (hf.between q' hq' x hx).1
      rw [h1, hob] at h2
      exact hne h2.symm
  · rw [if_neg h]
    have h1 : moved (L p) (fun x y => x = a ∧ y = b) = 0 := by
      apply moved_none
      rintro x hx ⟨h1, h2⟩
      obtain ⟨h3, h4⟩ := hpin p hp x hx
      exact h ⟨h1 ▸ (hf.between p hp x hx).1, mem_allVerts.mpr ⟨_, h3, h2 ▸ h4⟩⟩
    have h2 : ((List.range ins.length).map (fun q => moved (L q) (fun x y => own y = p ∧ x = b ∧ y = a))).sum = 0 := by
      apply List.sum_eq_zero
      intro y hy
      obtain ⟨q, hq, rfl⟩ := List.mem_map.mp hy
      have hq := List.mem_range.mp hq
      apply moved_none
      rintro x hx ⟨h1, h2, h3⟩
      obtain ⟨h4, h5⟩ := hpin q hq x hx
      refine h ⟨?_, mem_allVerts.mpr ⟨q, hq, h2 ▸ (hf.between q hq x hx).1⟩⟩
      simp only [h1] at h5
      rw [← h3]
      exact h5
    rw [h1, h2, sub_zero]

theorem simplify_max (x : Rat) : (if x ≤ 0 then 0 else x) = max 0 x := by
  split
  · rename_i h; exact (max_eq_left h).symm
  · rename_i h; exact (max_eq_right (le_of_lt (not_le.mp h))).symm

/-- weight diffusion, for any parts that represent a graph and can plan their steps -/
theorem diffused_spot {gs' : List Graph} (hs : WSpot H ins own gs' par) (h2 : 1 < ins.length)
    {env : Nat → WStepEnv} (he : ∀ k, (env k).Ok ins.length) (sideTol : Int) {wps : List WpMap}
    (hwps : wps.length = ins.length) :
    ∃ b rs ts, weightBalance par env sideTol gs' wps = .ok (b, rs) ∧ Diffused H ins own par gs' b rs ts := by
  have hw := hs.world
  have hd := hs.dist
  have hwm : wps.map (fun _ => (fun _ _ => 0 : WpMap)) = (List.range ins.length).map (fun _ => (fun _ _ => 0 : WpMap)) := by
    rw [List.map_const', List.map_const', hwps, List.length_range]
  obtain ⟨gs1, wp', sd', rs, ts, e3, hrun, hwp⟩ := wRunSteps_world (H := H) (own := own) (par := par) (env := env) sideTol
    par.maxIterations.toNat 0 ins gs' (fun _ => (fun _ _ => 0 : WpMap)) SDSlope.new [] hs he
    (by unfold SdIs SDSlope.pushAll; rfl)
  obtain ⟨f, hspot, hload, hf⟩ := hrun.final
  have hl1 : gs1.length = ins.length := by rw [hspot.world.1, reweigh_length]
  refine ⟨⟨gs1, ((List.range ins.length).map wp').map simplifyW, sd'⟩, rs, ts, ?_, ?_, hrun.count, hrun.ends,
    hrun.fair, ⟨by rw [hl1, hw.1], hrun.same⟩, ?_, ?_, ?_, ?_, ?_⟩
  · unfold weightBalance
    rw [if_neg (by rw [hw.1]; omega), hwm, e3]
    rfl
  · intro k hk
    have := hrun.steps k hk
    simpa using this
  · intro p h hp v hv
    have hp' : p < (reweigh ins f).length := by simpa using hp
    have hva : v ∈ allVerts ins := mem_allVerts.mpr ⟨p, hp, hv⟩
    obtain ⟨gh, hr⟩ := hspot.world.2 p h hp'
    have hwo := weightOf_verts hspot.dist.verts (fun i hi => (hspot.dist.wf i hi).nodup) hp'
    have hrw := hr.weights
    rw [hwo] at hrw
    have hfv : f v = weightAfter ins own ts v := hf v hva
    constructor
    · have hv' : v ∈ (reweigh ins f)[p].verts := by rw [reweigh_get]; exact hv
      unfold Graph.weightG
      dsimp only
      rw [findGID_eq hr.core.v (List.mem_append_left _ hv'), Outcome.bind_ok, List.idxOf_append_of_mem hv',
        weight_local hr.core.v hrw (List.idxOf_lt_length_of_mem hv') (by simpa using List.idxOf_lt_length_of_mem hv'),
        List.getElem_map, List.getElem_idxOf, weightOf_reweigh hd hp hv, hfv]
    · rw [← hfv, ← weightOf_reweigh (f := f) hd hp hv]
      exact hspot.nn v (by rw [allVerts_reweigh]; exact hva)
  · intro p h
    have h' : p < gs1.length := h
    have hp : p < ins.length := by omega
    have hp' : p < (reweigh ins f).length := by simpa using hp
    rw [← hload p hp]
    unfold startLoad
    rw [getD_ins hp']
    exact partWeight_local hspot.dist hspot.world h hp'
  · have : (List.range ins.length).map (loadAfter ins own ts) =
        (List.range ins.length).map (fun p => startLoad ins own p + (ts.map (fun L => gotBy own ins.length L p - sentBy L p)).sum) := rfl
    rw [this, List.sum_map_add, total_eq_loads]
    have hz : ∀ us : List Transfers, (∀ L ∈ us, ∃ W, FairStep H ins own par.stepFactor W L) →
        ((List.range ins.length).map (fun p => (us.map (fun L => gotBy own ins.length L p - sentBy L p)).sum)).sum = 0 := by
      intro us
      induction us with
      | nil => intro _; simp
      | cons L us ih =>
        intro h
        obtain ⟨W, hW⟩ := h L (by simp)
        simp only [List.map_cons, List.sum_cons]
        rw [List.sum_map_add, ih (fun L' hL' => h L' (by simp [hL']))]
        have h1 : (fun p => gotBy own ins.length L p - sentBy L p) = fun p => gotBy own ins.length L p + -sentBy L p := by
          funext p; ring
        rw [h1, List.sum_map_add, sum_swap_moved ins.length own L (fun p hp => fair_dest hd hW hp), sum_neg_list]
        ring
    rw [hz ts, add_zero]
    intro L hL
    obtain ⟨k, hk, rfl⟩ := List.mem_iff_getElem.mp hL
    exact ⟨_, (hrun.fair k hk).1⟩
  · simp
  · intro p h hp v u
    simp only [List.getElem_map, List.getElem_range]
    unfold simplifyW
    rw [simplify_max, hwp p hp v u, zero_add]
    have hstep : ts.map (fun L => moved (L p) (fun x y => x = v ∧ y = u) -
        ((List.range ins.length).map (fun q => moved (L q) (fun x y => own y = p ∧ x = u ∧ y = v))).sum) =
        ts.map (fun L => if v ∈ ins[p].verts ∧ u ∈ allVerts ins then
          moved (L (own v)) (fun x y => x = v ∧ y = u) - moved (L (own u)) (fun x y => x = u ∧ y = v) else 0) := by
      apply List.map_congr_left
      intro L hL
      obtain ⟨k, hk, rfl⟩ := List.mem_iff_getElem.mp hL
      exact record_step hd (hrun.fair k hk).1 hp v u
    rw [hstep]
    by_cases hc : v ∈ ins[p].verts ∧ u ∈ allVerts ins
    · simp only [if_pos hc]
      rfl
    · simp only [if_neg hc]
      simp

/-- **C58** for a hypergraph distributed over at least two parts, with non-negative vertex weights whose sum is below 2³¹
and positive integer weights of the hyperedges that measure the sides: weight diffusion ends after at most
`maxIterations` steps without undefined behaviour, whatever the delivery orders and the iteration orders of the hash
tables; every step moves natural amounts downhill between vertices of neighbouring parts that share a hyperedge; nothing
but vertex weights changes, they stay non-negative and their sum is kept; and the record holds the net movements.

Partial: what arrives at a part is put on its last vertex instead of the vertex it was meant for
(`c58_wrong_vertex`), and the weights of ghosts become stale (`c58_stale_ghost`). -/
theorem c58_diffusion_partial (H : List (List HEdge)) (ins : List Input) (own : Gid → Nat) (hd : HDist H ins own)
    (hnn : NonNeg H ins own) (owns : List (GMap Part)) (ho : OwnMaps ins own owns) (o1 o2 : Nat → List Nat)
    (ho1 : Orders ins.length o1) (ho2 : Orders ins.length o2) (h2 : 1 < ins.length) (par : WPar)
    (ht : par.type < H.length) (hint : ∀ e ∈ H.getD par.type [], ∃ w : Int, e.w = (w : Rat) ∧ 0 < w)
    (hsf : 0 < par.stepFactor) (htot : ((allVerts ins).map (weightOf ins own)).sum < 2147483648)
    (env : Nat → WStepEnv) (he : ∀ k, (env k).Ok ins.length) (sideTol : Int) (wps : List WpMap)
    (hwps : wps.length = ins.length) :
    ∃ gs gs' b rs ts, buildAll ins = .ok gs ∧ constructGhosts gs owns o1 o2 = .ok gs' ∧
      weightBalance par env sideTol gs' wps = .ok (b, rs) ∧ Diffused H ins own par gs' b rs ts := by
  obtain ⟨gs, e1, hb⟩ := buildAll_spec ins hd.wf
  obtain ⟨gs', e2, hw, -⟩ := constructGhosts_spec hb hd.dist (hdist_uniform hd) ho ho1 ho2
  obtain ⟨b, rs, ts, h⟩ := diffused_spot (H := H) (own := own) (par := par)
    ⟨hdist_wdist hd, hnn.verts, hw, plans_hyper hd hnn ht hint hsf, htot⟩ h2 he sideTol hwps
  exact ⟨gs, gs', b, rs, ts, e1, e2, h⟩

/-! ## what the record says -/

theorem list_sum_comm {α β : Type} (l : List α) (m : List β) (F : α → β → Rat) :
    (l.map (fun a => (m.map (fun b => F a b)).sum)).sum = (m.map (fun b => (l.map (fun a => F a b)).sum)).sum := by
  induction l with
  | nil => simp
  | cons x l ih =>
    simp only [List.map_cons, List.sum_cons, ih]
    rw [← List.sum_map_add]

/-- the flows of one step between the vertices of part `p` and all others -/
theorem flow_step (hd : WDist H ins own) {sf : Rat} {W : Nat → Rat} {L : Transfers} (hf : FairStep H ins own sf W L)
    {p : Nat} (hp : p < ins.length) :
    (ins[p].verts.map (fun a => ((allVerts ins).map (fun b => moved (L (own a)) (fun x y => x = a ∧ y = b) -
      moved (L (own b)) (fun x y => x = b ∧ y = a))).sum)).sum = sentBy L p - gotBy own ins.length L p := by
  have hnd : ∀ q (hq : q < ins.length), ins[q].verts.Nodup := fun q hq => (hd.wf _ (List.getElem_mem hq)).nodup
  have hall : (allVerts ins).Nodup := allVerts_nodup (fun i hi => (hd.wf i hi).nodup) hd.verts
  have hpin : ∀ q (hq : q < ins.length), ∀ x ∈ L q, ∃ h : own x.2.1 < ins.length, x.2.1 ∈ ins[own x.2.1].verts := by
    intro q hq x hx
    obtain ⟨-, -, e, he, -, h5⟩ := hf.between q hq x hx
    by_cases hH : 0 < H.length
    · rw [getD_zero hH] at he
      exact hd.pins _ (List.getElem_mem hH) e he _ h5
    · rw [List.getD_eq_getElem?_getD, List.getElem?_eq_none (by omega)] at he
      simp at he
  have hsplit : (ins[p].verts.map (fun a => ((allVerts ins).map (fun b => moved (L (own a)) (fun x y => x = a ∧ y = b) -
      moved (L (own b)) (fun x y => x = b ∧ y = a))).sum)).sum =
      (ins[p].verts.map (fun a => ((allVerts ins).map (fun b => moved (L p) (fun x y => x = a ∧ y = b))).sum +
        -((allVerts ins).map (fun b => moved (L (own b)) (fun x y => x = b ∧ y = a))).sum)).sum := by
    congr 1
    apply List.map_congr_left
    intro a ha
    rw [hd.verts p hp a ha, ← sum_neg_list, ← List.sum_map_add]
    congr 1
    apply List.map_congr_left
    intro b _
    ring
  rw [hsplit, List.sum_map_add, sum_neg_list, ← sub_eq_add_neg]
  congr 1
  · unfold sentBy
    rw [← moved_split (L p) (fun _ _ => True) (fun a _ => a) ins[p].verts (hnd p hp) (fun x hx _ => (hf.between p hp x hx).1)]
    congr 1
    apply List.map_congr_left
    intro a _
    rw [← moved_split (L p) (fun x _ => True ∧ x = a) (fun _ b => b) (allVerts ins) hall]
    · simp only [true_and]
    · intro x hx _
      obtain ⟨h1, h2⟩ := hpin p hp x hx
      exact mem_allVerts.mpr ⟨_, h1, h2⟩
  · rw [list_sum_comm, sum_allVerts]
    unfold gotBy
    congr 1
    apply List.map_congr_left
    intro q hq
    have hq := List.mem_range.mp hq
    rw [getD_ins hq, ← moved_split (L q) (fun _ b => own b = p) (fun a _ => a) ins[q].verts (hnd q hq)
      (fun x hx _ => (hf.between q hq x hx).1)]
    congr 1
    apply List.map_congr_left
    intro b hb
    rw [← moved_split (L q) (fun x y => own y = p ∧ x = b) (fun _ y => y) ins[p].verts (hnd p hp)]
    · congr 1
      apply List.map_congr_left
      intro a ha
      rw [hd.verts q hq b hb]
      apply moved_congr
      intro x _
      constructor
      · rintro ⟨h1, h2⟩; exact ⟨⟨by rw [h2]; exact hd.verts p hp a ha, h1⟩, h2⟩
      · rintro ⟨⟨-, h1⟩, h2⟩; exact ⟨h1, h2⟩
    · rintro x hx ⟨h1, -⟩
      obtain ⟨h2, h3⟩ := hpin q hq x hx
      simp only [h1] at h3
      exact h3

theorem netFlow_swap (own : Gid → Nat) (ts : List Transfers) (a b : Gid) : netFlow own ts b a = -netFlow own ts a b := by
  unfold netFlow
  rw [← sum_neg_list]
  congr 1
  apply List.map_congr_left
  intro L _
  ring

theorem netFlow_int (own : Gid → Nat) (ts : List Transfers) (a b : Gid) : ∃ k : Int, netFlow own ts a b = (k : Rat) := by
  unfold netFlow
  induction ts with
  | nil => exact ⟨0, by simp⟩
  | cons L ts ih =>
    obtain ⟨k, hk⟩ := ih
    obtain ⟨i, hi⟩ := moved_nat (L (own a)) (fun x y => x = a ∧ y = b)
    obtain ⟨j, hj⟩ := moved_nat (L (own b)) (fun x y => x = b ∧ y = a)
    refine ⟨(i : Int) - (j : Int) + k, ?_⟩
    rw [List.map_cons, List.sum_cons, hk, hi, hj]
    push_cast
    ring

/-- what the record says: natural amounts, from a vertex of the part to a vertex of another part with a common edge of type
0, in one direction only, which account for the change of the weights of the parts -/
structure Recorded (H : List (List HEdge)) (ins : List Input) (own : Gid → Nat) (gs' : List Graph) (b : WBal)
    (r : Nat → WpMap) : Prop where
  parts : b.gs.length = ins.length
  table : b.wps = (List.range ins.length).map r
  nat : ∀ p, p < ins.length → ∀ v u, ∃ k : Nat, r p v u = (k : Rat)
  between : ∀ p (hp : p < ins.length), ∀ v u, 0 < r p v u → v ∈ ins[p].verts ∧ own u < ins.length ∧ own u ≠ p ∧
        (∃ e ∈ H.getD 0 [], v ∈ e.pins ∧ u ∈ e.pins) ∧ r (own u) u v = 0
  weights : ∀ p (h : p < b.gs.length), ∃ w, getWeight gs'[p]! (-1) false = .ok w ∧
        getWeight b.gs[p] (-1) false = .ok (w - recordedOut ins r p + recordedIn ins own r p)

theorem recorded_spot {gs' : List Graph} (hs : WSpot H ins own gs' par) {b : WBal} {rs : List StepRec} {ts : List Transfers}
    (h : Diffused H ins own par gs' b rs ts) : ∃ r, Recorded H ins own gs' b r := by
  have hw := hs.world
  have hd := hs.dist
  have hbl : b.gs.length = ins.length := by rw [h.same.1, hw.1]
  let r : Nat → WpMap := fun p => b.wps.getD p (fun _ _ => 0)
  have hr : ∀ p (hp : p < ins.length) v u, r p v u =
      if v ∈ ins[p].verts ∧ u ∈ allVerts ins then max 0 (netFlow own ts v u) else 0 := by
    intro p hp v u
    have hpw : p < b.wps.length := by rw [h.record.1]; exact hp
    have := h.record.2 p hpw hp v u
    simp only [r]
    rw [List.getD_eq_getElem?_getD, List.getElem?_eq_getElem hpw, Option.getD_some]
    exact this
  refine ⟨r, hbl, ?_, ?_, ?_, ?_⟩
  · rw [← h.record.1]
    exact list_range b.wps _
  · intro p hp v u
    rw [hr p hp]
    split
    · obtain ⟨k, hk⟩ := netFlow_int own ts v u
      refine ⟨k.toNat, ?_⟩
      rw [hk]
      have : ((k.toNat : Nat) : Rat) = ((max k 0 : Int) : Rat) := by
        rw [← Int.toNat_eq_max]; rfl
      rw [this, max_comm]
      push_cast
      rfl
    · exact ⟨0, by simp⟩
  · intro p hp v u hpos
    rw [hr p hp] at hpos
    split at hpos
    swap
    · exact absurd hpos (lt_irrefl _)
    rename_i hc
    obtain ⟨hv, hu⟩ := hc
    obtain ⟨q, hq, hu'⟩ := mem_allVerts.mp hu
    have hou := hd.verts q hq u hu'
    have hov := hd.verts p hp v hv
    have hnet : 0 < netFlow own ts v u := by
      rcases lt_max_iff.mp hpos with h | h
      · exact absurd h (lt_irrefl _)
      · exact h
    -- some step moved weight from v to u
    have hex : ∃ L ∈ ts, 0 < moved (L p) (fun x y => x = v ∧ y = u) := by
      by_contra hno
      push Not at hno
      have : netFlow own ts v u ≤ 0 := by
        unfold netFlow
        apply sum_nonpos_list
        intro x hx
        obtain ⟨L, hL, rfl⟩ := List.mem_map.mp hx
        have h1 := hno L hL
        rw [← hov] at h1
        have h2 := moved_nonneg (L (own u)) (fun x y => x = u ∧ y = v)
        linarith
      linarith
    obtain ⟨L, hL, hLp⟩ := hex
    obtain ⟨k, hk, rfl⟩ := List.mem_iff_getElem.mp hL
    have hfair := (h.fair k hk).1
    obtain ⟨x, hx, hxv, hxu⟩ : ∃ x ∈ ts[k] p, x.1 = v ∧ x.2.1 = u := by
      by_contra hno
      push Not at hno
      rw [moved_none (fun x hx h => hno x hx h.1 h.2)] at hLp
      exact absurd hLp (lt_irrefl _)
    obtain ⟨-, b2, b3⟩ := hfair.between p hp x hx
    rw [hxu] at b2 b3
    rw [hxv] at b3
    refine ⟨hv, by rw [hou]; exact hq, b2, b3, ?_⟩
    rw [hou, hr q hq]
    rw [if_pos ⟨hu', mem_allVerts.mpr ⟨p, hp, hv⟩⟩, netFlow_swap, max_eq_left (by linarith)]
  · intro p hpb
    have hp : p < ins.length := by omega
    have hg : p < gs'.length := by rw [hw.1]; exact hp
    refine ⟨startLoad ins own p, ?_, ?_⟩
    · rw [getElem!_pos gs' p hg, partWeight_local hd hw hg hp]
      unfold startLoad
      rw [getD_ins hp]
    · rw [h.loads p hpb]
      congr 1
      unfold loadAfter recordedOut recordedIn
      rw [getD_ins hp]
      have key : (ins[p].verts.map (fun a => ((allVerts ins).map (fun b => r p a b)).sum)).sum -
          (ins[p].verts.map (fun a => ((allVerts ins).map (fun b => r (own b) b a)).sum)).sum =
          -(ts.map (fun L => gotBy own ins.length L p - sentBy L p)).sum := by
        have h1 : ∀ a ∈ ins[p].verts, ∀ b ∈ allVerts ins, r p a b + -r (own b) b a = netFlow own ts a b := by
          intro a ha b hb
          obtain ⟨q, hq, hb'⟩ := mem_allVerts.mp hb
          have hob := hd.verts q hq b hb'
          rw [hr p hp, hob, hr q hq, if_pos ⟨ha, hb⟩, if_pos ⟨hb', mem_allVerts.mpr ⟨p, hp, ha⟩⟩, netFlow_swap own ts a b]
          rcases le_total 0 (netFlow own ts a b) with hx | hx
          · rw [max_eq_right hx, max_eq_left (by linarith)]; ring
          · rw [max_eq_left hx, max_eq_right (by linarith)]; ring
        rw [sub_eq_add_neg, ← sum_neg_list, ← List.sum_map_add]
        have h2 : ins[p].verts.map (fun a => ((allVerts ins).map (fun b => r p a b)).sum +
            -((allVerts ins).map (fun b => r (own b) b a)).sum) =
            ins[p].verts.map (fun a => ((allVerts ins).map (fun b => netFlow own ts a b)).sum) := by
          apply List.map_congr_left
          intro a ha
          rw [← sum_neg_list, ← List.sum_map_add]
          congr 1
          apply List.map_congr_left
          intro b hb
          exact h1 a ha b hb
        rw [h2]
        have h3 : ∀ us : List Transfers, (∀ L ∈ us, ∃ W, FairStep H ins own par.stepFactor W L) →
            (ins[p].verts.map (fun a => ((allVerts ins).map (fun b => netFlow own us a b)).sum)).sum =
            -(us.map (fun L => gotBy own ins.length L p - sentBy L p)).sum := by
          intro us
          induction us with
          | nil => intro _; simp [netFlow]
          | cons L us ih =>
            intro hus
            obtain ⟨W, hW⟩ := hus L (by simp)
            have h4 : ∀ a b, netFlow own (L :: us) a b = (moved (L (own a)) (fun x y => x = a ∧ y = b) -
                moved (L (own b)) (fun x y => x = b ∧ y = a)) + netFlow own us a b := by
              intro a b; unfold netFlow; rw [List.map_cons, List.sum_cons]
            simp only [h4, List.map_cons, List.sum_cons]
            simp only [List.sum_map_add]
            rw [flow_step hd hW hp, ih (fun L' hL' => hus L' (by simp [hL']))]
            ring
        apply h3
        intro L hL
        obtain ⟨k, hk, rfl⟩ := List.mem_iff_getElem.mp hL
        exact ⟨_, (h.fair k hk).1⟩
      linarith

/-- **C58**, the record: after weight diffusion the recorded movements are natural numbers; a positive one goes from a
vertex of the part to a vertex of another part with a common hyperedge of type 0, and nothing is recorded in the other
direction; and the weight of every part is what it was, less what its record says went out, plus what the records of
the others say came in. -/
theorem c58_record_partial (H : List (List HEdge)) (ins : List Input) (own : Gid → Nat) (hd : HDist H ins own)
    (hnn : NonNeg H ins own) (owns : List (GMap Part)) (ho : OwnMaps ins own owns) (o1 o2 : Nat → List Nat)
    (ho1 : Orders ins.length o1) (ho2 : Orders ins.length o2) (h2 : 1 < ins.length) (par : WPar)
    (ht : par.type < H.length) (hint : ∀ e ∈ H.getD par.type [], ∃ w : Int, e.w = (w : Rat) ∧ 0 < w)
    (hsf : 0 < par.stepFactor) (htot : ((allVerts ins).map (weightOf ins own)).sum < 2147483648)
    (env : Nat → WStepEnv) (he : ∀ k, (env k).Ok ins.length) (sideTol : Int) (wps : List WpMap)
    (hwps : wps.length = ins.length) :
    ∃ gs gs' b rs, ∃ r : Nat → WpMap, buildAll ins = .ok gs ∧ constructGhosts gs owns o1 o2 = .ok gs' ∧
      weightBalance par env sideTol gs' wps = .ok (b, rs) ∧ b.gs.length = ins.length ∧ b.wps = (List.range ins.length).map r ∧
      (∀ p, p < ins.length → ∀ v u, ∃ k : Nat, r p v u = (k : Rat)) ∧
      (∀ p (hp : p < ins.length), ∀ v u, 0 < r p v u → v ∈ ins[p].verts ∧ own u < ins.length ∧ own u ≠ p ∧
        (∃ e ∈ H.getD 0 [], v ∈ e.pins ∧ u ∈ e.pins) ∧ r (own u) u v = 0) ∧
      ∀ p (h : p < b.gs.length), ∃ w, getWeight gs'[p]! (-1) false = .ok w ∧
        getWeight b.gs[p] (-1) false = .ok (w - recordedOut ins r p + recordedIn ins own r p) := by
  obtain ⟨gs, e1, hb⟩ := buildAll_spec ins hd.wf
  obtain ⟨gs', e2, hw, -⟩ := constructGhosts_spec hb hd.dist (hdist_uniform hd) ho ho1 ho2
  have hs : WSpot H ins own gs' par := ⟨hdist_wdist hd, hnn.verts, hw, plans_hyper hd hnn ht hint hsf, htot⟩
  obtain ⟨b, rs, ts, e3, h⟩ := diffused_spot hs h2 he sideTol hwps
  obtain ⟨r, hr⟩ := recorded_spot hs h
  exact ⟨gs, gs', b, rs, r, e1, e2, e3, hr.parts, hr.table, hr.nat, hr.between, hr.weights⟩

/-- in serial nothing is done -/
theorem c58_serial (par : WPar) (env : Nat → WStepEnv) (sideTol : Int) (g : Graph) (wp : WpMap) :
    ∃ b, weightBalance par env sideTol [g] [wp] = .ok (b, []) ∧ b.gs = [g] ∧ b.wps = [wp] := by
  exact ⟨_, rfl, rfl, rfl⟩

end

/-! ## concrete case and witnesses -/

/-- a chain 4 - 1 - 2 - 3, cut between 1 and 2 -/
def lopH : List (List HEdge) := [[⟨100, [1, 2], 1⟩, ⟨101, [1, 4], 1⟩, ⟨102, [2, 3], 1⟩]]
def lopWorld : List Input :=
  [{ hyper := true, verts := [1, 4], wgts := [30, 10], types := [⟨[100, 101], [[1, 2], [1, 4]], []⟩] },
   { hyper := true, verts := [2, 3], wgts := [90, 70], types := [⟨[102, 100], [[2, 3], [1, 2]], []⟩] }]
def lopOwn : Gid → Nat := fun v => if v = 1 ∨ v = 4 then 0 else 1
def lopEnv : WStepEnv := ⟨fun _ => [0, 1], fun _ l => l, fun _ => plainOrd, fun _ => [0, 1]⟩
def lopPar : WPar := ⟨0, 1/2, 11/10, 5⟩

theorem lopWorld_dist : HDist lopH lopWorld lopOwn := by
  refine ⟨?_, by decide, ?_, ?_, by decide, ?_, ?_⟩
  · intro i hi
    simp only [lopWorld, List.mem_cons, List.not_mem_nil, or_false] at hi
    rcases hi with rfl | rfl
    · refine ⟨by decide, by decide, ?_⟩
      intro e he
      simp only [List.mem_cons, List.not_mem_nil, or_false] at he
      subst he; exact ⟨by decide, by decide, by decide⟩
    · refine ⟨by decide, by decide, ?_⟩
      intro e he
      simp only [List.mem_cons, List.not_mem_nil, or_false] at he
      subst he; exact ⟨by decide, by decide, by decide⟩
  · decide
  · decide
  · decide
  · intro p hp t ht ht'
    have h1 : p = 0 ∨ p = 1 := by simp [lopWorld] at hp; omega
    have h2 : t = 0 := by simp [lopH] at ht'; exact ht'
    subst h2
    rcases h1 with rfl | rfl
    · decide +revert
    · decide +revert

theorem lopEnv_ok : lopEnv.Ok lopWorld.length :=
  ⟨fun _ _ => List.Perm.refl [0, 1], fun _ _ => List.Perm.refl _, fun _ => plainOrd_ok, fun _ _ => List.Perm.refl [0, 1]⟩

/-- weight diffusion of the chain: the codes and amounts of the steps, what every part sees of the weight of every
vertex, and the records -/
def lopRun : Outcome (List (Nat × Nat) × List (List (Outcome Rat)) × List (List Rat)) := do
  let gs ← buildAll lopWorld
  let gs ← constructGhosts gs [fun v => some (lopOwn v : Int), fun v => some (lopOwn v : Int)] lopEnv.weights lopEnv.weights
  let (b, rs) ← weightBalance lopPar (fun _ => lopEnv) 1000 gs [fun _ _ => 0, fun _ _ => 0]
  return (rs.map (fun r => (r.rc, r.moved)), b.gs.map (fun g => [1, 4, 2, 3].map g.weightG),
    b.wps.map (fun m => [m 2 1, m 1 2, m 2 4]))

/-- the hypotheses of C58 are met by a chain whose parts weigh 40 and 160: the first step moves 56, the second one
finds the parts balanced -/
example : HDist lopH lopWorld lopOwn ∧ NonNeg lopH lopWorld lopOwn ∧ lopEnv.Ok lopWorld.length ∧ 1 < lopWorld.length ∧
    lopPar.type < lopH.length ∧ 0 < lopPar.stepFactor ∧ ((allVerts lopWorld).map (weightOf lopWorld lopOwn)).sum < 2147483648 ∧
    ∃ s r, lopRun = .ok ([(0, 56), (1, 0)], s, r) := by
  refine ⟨lopWorld_dist, ⟨by decide +kernel, by decide +kernel⟩, lopEnv_ok, by decide, by decide, by decide +kernel,
    by decide +kernel, ?_⟩
  have h : lopRun = .ok ([(0, 56), (1, 0)], [[.ok 30, .ok 66, .ok 90, .ub], [.ok 30, .ub, .ok 34, .ok 70]],
    [[0, 0, 0], [56, 0, 0]]) := by decide +kernel
  exact ⟨_, _, h⟩

/-- "weight that is handed to a vertex is on that vertex afterwards" is false: part 1 records that vertex 2 handed 56 to
vertex 1 and nothing to vertex 4, but vertex 1 still weighs 30 and vertex 4 weighs 66 instead of 10 -/
theorem c58_wrong_vertex : ∃ c s r, lopRun = .ok (c, s, r) ∧ r[1]? = some [56, 0, 0] ∧
    s[0]?.bind (·[0]?) = some (.ok 30) ∧ s[0]?.bind (·[1]?) = some (.ok 66) := by
  have h : lopRun = .ok ([(0, 56), (1, 0)], [[.ok 30, .ok 66, .ok 90, .ub], [.ok 30, .ub, .ok 34, .ok 70]],
    [[0, 0, 0], [56, 0, 0]]) := by decide +kernel
  exact ⟨_, _, _, h, rfl, rfl, rfl⟩

/-- "every part sees the weight of a vertex" is false after weight diffusion: vertex 2 weighs 34 on its part and 90 on
part 0, which sees it as a ghost -/
theorem c58_stale_ghost : ∃ c s r, lopRun = .ok (c, s, r) ∧ s[1]?.bind (·[2]?) = some (.ok 34) ∧
    s[0]?.bind (·[2]?) = some (.ok 90) := by
  have h : lopRun = .ok ([(0, 56), (1, 0)], [[.ok 30, .ok 66, .ok 90, .ub], [.ok 30, .ub, .ok 34, .ok 70]],
    [[0, 0, 0], [56, 0, 0]]) := by decide +kernel
  exact ⟨_, _, _, h, rfl, rfl⟩

end Verif.Part
