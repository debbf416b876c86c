import Verif.Part.SelectPart
import Verif.Part.DistQueuePart
/-!
# C36: the selection sends only vertices of the part, along boundary edges, to parts that want weight, and stops at the
total

Specification: `bringWeight` (TrimSpec) is what a set of vertices weighs for a part; everything else is stated with the
hyperedges `H` and the API.
-/
namespace Verif.Part
open Verif.Agi

section
variable {H : List (List HEdge)} {ins : List Input} {own : Gid → Nat}

theorem mem_verts_iff (hd : HDist H ins own) {p : Nat} (hp : p < ins.length) (hH : 0 < H.length) {e : HEdge}
    (he : e ∈ H[0]) {v : Gid} (hv : v ∈ e.pins) : v ∈ ins[p].verts ↔ own v = p := by
  constructor
  · exact hd.verts p hp v
  · rintro rfl
    obtain ⟨_, h⟩ := hd.pins _ (List.getElem_mem hH) e he v hv
    exact h

/-- the weight of the at most `top - 1` vertices of part `p` sent with one boundary edge is at most `M` -/
def CavityBound (H : List (List HEdge)) (ins : List Input) (own : Gid → Nat) (p : Nat) (dim : Int) (top : Nat)
    (M : Rat) : Prop :=
  0 ≤ M ∧ ∀ e ∈ H.getD 0 [], (∃ v ∈ e.pins, own v ≠ p) → ∀ us : List Gid, us.Nodup → (∀ v ∈ us, v ∈ e.pins ∧ own v = p) → us.length < top →
    ∀ q : Nat, bringWeight H ins own dim q us ≤ M

/-- no boundary edge of type 0 has 100 or more vertices of part `p` -/
def SmallCavities (H : List (List HEdge)) (own : Gid → Nat) (p : Nat) : Prop :=
  ∀ e ∈ H.getD 0 [], (∃ v ∈ e.pins, own v ≠ p) → (e.pins.filter (fun v => decide (own v = p))).dedup.length < 100

/-- part `p` has a boundary edge of type 0 with fewer than `k` vertices of `p` for some sweep size `k`, such that all
other parts that edges of these vertices touch want weight -/
def Eager (H : List (List HEdge)) (own : Gid → Nat) (p : Nat) (targets : Cont Rat) (sizes : List Nat) : Prop :=
  ∃ e ∈ H.getD 0 [], (∃ v ∈ e.pins, own v = p) ∧ (∃ v ∈ e.pins, own v ≠ p) ∧
    (∃ k ∈ sizes, (e.pins.filter (fun v => decide (own v = p))).dedup.length < k) ∧
    ∀ e' ∈ H.getD 0 [], (∃ v ∈ e.pins, own v = p ∧ v ∈ e'.pins) → ∀ u ∈ e'.pins, own u ≠ p →
      targets.has (own u : Int) = true ∧ 0 < targets.get (own u : Int)

/-- the queue of this kind can be built on part `p`: the distance queue needs a part that shares an edge with another one,
or one with no edge or at least three edges of type 0 (C56) -/
def QueueFits (k : QKind) (own : Gid → Nat) (p : Nat) (i : Input) : Prop :=
  k.dist = true → Touched own p i ∨ (i.types.getD 0 ⟨[], [], []⟩).pins.length = 0 ∨
    3 ≤ (i.types.getD 0 ⟨[], [], []⟩).pins.length

theorem getD_zero (hH : 0 < H.length) : H.getD 0 [] = H[0] := by
  rw [List.getD_eq_getElem?_getD, List.getElem?_eq_getElem hH]; rfl

theorem length_le_of_subset {c d : List Gid} (hc : c.Nodup) (h : ∀ v ∈ c, v ∈ d) : c.length ≤ d.length :=
  (hc.subperm h).length_le

/-- either queue holds the boundary edges, each once -/
theorem queue_kind (k : QKind) (hd : HDist H ins own) {g : Graph} {p n : Nat} (hp : p < ins.length)
    {ghosts : List Gid} (hr : PartRep g p n ins[p] own ghosts) (ht : 0 < ins[p].types.length)
    (hfit : QueueFits k own p ins[p]) :
    ∃ (q : Queue) (B : List Handle), makeQueue k g = .ok q ∧ QRep q B.length [] B ∧
      B.Perm (boundaryOf g ins[p].types[0].pins own) := by
  unfold makeQueue
  by_cases hk : k.dist = true
  · rw [if_pos hk]
    have h0 : ins[p].types.getD 0 ⟨[], [], []⟩ = ins[p].types[0] := by
      rw [List.getD_eq_getElem?_getD, List.getElem?_eq_getElem ht]; rfl
    have hf := hfit hk
    rw [h0] at hf
    obtain ⟨q, cap, L, e, hq, hl, hperm, -⟩ := distQueue_part k.push hd hp hr ht hf
    refine ⟨q, _, e, hq.mono (by simpa using hl), ?_⟩
    rw [← leaves_boundary hr]
    exact hperm.map _
  · rw [if_neg hk]
    obtain ⟨q, e, hq⟩ := queue_part hd hp hr ht
    exact ⟨q, _, e, hq, List.Perm.refl _⟩

theorem selCtx_part (hd : HDist H ins own) (hnn : NonNeg H ins own) {g : Graph} {p n : Nat} (hp : p < ins.length)
    {ghosts : List Gid} (hr : PartRep g p n ins[p] own ghosts) (hH : 0 < H.length) (ht : 0 < ins[p].types.length)
    {targets : Cont Rat} (hk : ∀ d, targets.has d = true → 0 ≤ d) {dim : Int} (hdim : -1 ≤ dim ∧ dim < (H.length : Int))
    {ord : HashOrd} (hord : ord.Ok) {top : Nat} {M : Rat} (hM : CavityBound H ins own p dim top M)
    (h100 : SmallCavities H own p) {B : List Handle} (hB : ∀ h ∈ B, h ∈ boundaryOf g ins[p].types[0].pins own) :
    SelCtx ord g ins[p].verts (ins[p].verts ++ ghosts) (fun v => getVertex ((ins[p].verts ++ ghosts).idxOf v))
      ((List.range ins[p].types[0].pins.length).map (fun k => g.getEdge k 0)) (pinsOfE g ins[p].types[0].pins)
      (fun v => (own v : Int)) (incOf g ins[p] ghosts) [dim, 0] (weightOf ins own) (resOf g) (ewOf g) targets dim
      B top M := by
  have hf := facts_part hd hnn hp hr (dims := [dim, 0]) (by
    intro d hd'
    rcases List.mem_cons.mp hd' with rfl | hd'
    · exact hdim
    · rw [List.mem_singleton.mp hd']; exact ⟨by omega, by exact_mod_cast hH⟩)
  unfold CavityBound at hM
  unfold SmallCavities at h100
  rw [getD_zero hH] at hM h100
  refine ⟨hord, selFacts_part hd hp hr ht, hf.congr ?_, by simp, by simp, ?_, ewOf_nonneg g, hk, ?_, ?_, ?_⟩
  · intro v hv
    simp only [List.idxOf_append_of_mem hv]
  · intro v hv
    exact hnn.verts v (List.mem_flatten.mpr ⟨_, List.mem_map.mpr ⟨_, List.getElem_mem hp, rfl⟩, hv⟩)
  · intro h hh
    exact (mem_boundaryOf hd hp hr ht hH (hB h hh)).1
  · intro h hh c hcn hc hlt d hd0
    obtain ⟨-, e, he, hpe, -, hcross⟩ := mem_boundaryOf hd hp hr ht hH (hB h hh)
    obtain ⟨q, rfl⟩ := Int.eq_ofNat_of_zero_le hd0
    rw [load_part hd hnn hp hr hdim q (fun v hv => (hc v hv).1)]
    refine hM.2 e he hcross c hcn (fun v hv => ?_) hlt q
    obtain ⟨h1, h2⟩ := hc v hv
    rw [hpe] at h2
    exact ⟨h2, hd.verts p hp v h1⟩
  · intro h hh c hcn hc
    obtain ⟨-, e, he, hpe, -, hcross⟩ := mem_boundaryOf hd hp hr ht hH (hB h hh)
    refine lt_of_le_of_lt (length_le_of_subset hcn ?_) (h100 e he hcross)
    intro v hv
    obtain ⟨h1, h2⟩ := hc v hv
    rw [hpe] at h2
    rw [List.mem_dedup, List.mem_filter]
    exact ⟨h2, by simpa using hd.verts p hp v h1⟩

theorem mem_inc0 (hd : HDist H ins own) {g : Graph} {p n : Nat} (hp : p < ins.length)
    {ghosts : List Gid} (hr : PartRep g p n ins[p] own ghosts) (hH : 0 < H.length) (ht : 0 < ins[p].types.length)
    {v : Gid} {h : Handle} (hh : h ∈ incOf g ins[p] ghosts v 0) :
    ∃ e ∈ H[0], pinsOfE g ins[p].types[0].pins h = e.pins ∧ v ∈ e.pins := by
  unfold incOf at hh
  rw [getD_types ht] at hh
  obtain ⟨k, hk, rfl⟩ := List.mem_map.mp hh
  obtain ⟨hk, hvk⟩ := mem_adjOf_hyper.mp hk
  have hn : 0 < g.numTypes := by rw [hr.core.numTypes]; exact ht
  have hwf := (hd.wf _ (List.getElem_mem hp)).edges _ (List.getElem_mem ht)
  obtain ⟨q1, q2, q3, q4⟩ := edges_get ht hwf hk
  have hm := List.mem_filter.mp ((hd.edges p hp 0 ht hH).mem_iff.mp (List.getElem_mem q1))
  exact ⟨_, hm.1, by rw [pinsOfE_getEdge hn hk, q3], by rw [q3]; exact hvk⟩

/-- the eager edge is ready -/
theorem ready_of_eager (hd : HDist H ins own) {g : Graph} {p n : Nat} (hp : p < ins.length)
    {ghosts : List Gid} (hr : PartRep g p n ins[p] own ghosts) (hH : 0 < H.length) (ht : 0 < ins[p].types.length)
    {targets : Cont Rat} {sizes : List Nat} (he : Eager H own p targets sizes) :
    ∃ h ∈ boundaryOf g ins[p].types[0].pins own, ∃ k ∈ sizes,
      Ready g.self ins[p].verts (pinsOfE g ins[p].types[0].pins) (fun v => (own v : Int)) (incOf g ins[p] ghosts)
        targets k h := by
  unfold Eager at he
  rw [getD_zero hH] at he
  obtain ⟨e, heH, h1, h2, ⟨k, hk, hlen⟩, hall⟩ := he
  obtain ⟨h, hh, hpe⟩ := boundaryOf_mem hd hp hr ht hH heH h1 h2
  refine ⟨h, hh, k, hk, ?_⟩
  intro c hcn hc
  obtain ⟨w, hw, hwp⟩ := h1
  have hcw : w ∈ c := (hc w).mpr ⟨(mem_verts_iff hd hp hH heH hw).mpr hwp, by rw [hpe]; exact hw⟩
  refine ⟨?_, by rintro rfl; simp at hcw, ?_, ?_⟩
  · refine lt_of_le_of_lt (length_le_of_subset hcn ?_) hlen
    intro v hv
    obtain ⟨q1, q2⟩ := (hc v).mp hv
    rw [hpe] at q2
    rw [List.mem_dedup, List.mem_filter]
    exact ⟨q2, by simpa using hd.verts p hp v q1⟩
  · obtain ⟨u, hu, hup⟩ := h2
    refine ⟨(own u : Int), ?_⟩
    unfold surface
    rw [List.countP_pos_iff]
    refine ⟨h, ?_, ?_⟩
    · unfold cavityEdges
      rw [List.mem_dedup, List.mem_flatMap]
      refine ⟨w, hcw, ?_⟩
      -- the handle of an edge is among the edges of its vertices
      unfold boundaryOf boundaryEdges at hh
      obtain ⟨j, hj, rfl⟩ := List.mem_map.mp hh
      have hj := List.mem_range.mp (List.mem_filter.mp hj).1
      have hn : 0 < g.numTypes := by rw [hr.core.numTypes]; exact ht
      rw [pinsOfE_getEdge hn hj] at hpe
      unfold incOf
      rw [getD_types ht]
      exact List.mem_map.mpr ⟨j, mem_adjOf_hyper.mpr ⟨hj, by rw [hpe]; exact hw⟩, rfl⟩
    · rw [decide_eq_true_iff]
      refine ⟨u, by rw [hpe]; exact hu, ?_⟩
      unfold dstOf
      rw [hr.rank, if_pos (by simpa using hup)]
  · intro q hq
    unfold surface at hq
    rw [List.countP_pos_iff] at hq
    obtain ⟨h', hh', hj⟩ := hq
    rw [decide_eq_true_iff] at hj
    obtain ⟨u, hu, hdst⟩ := hj
    unfold cavityEdges at hh'
    rw [List.mem_dedup, List.mem_flatMap] at hh'
    obtain ⟨v, hv, hinc⟩ := hh'
    obtain ⟨e', he', hpe', hve'⟩ := mem_inc0 hd hp hr hH ht hinc
    obtain ⟨q1, q2⟩ := (hc v).mp hv
    rw [hpe] at q2
    rw [hpe'] at hu
    unfold dstOf at hdst
    rw [hr.rank] at hdst
    split at hdst
    · rename_i hne
      obtain rfl : (own u : Int) = q := by simpa using hdst
      exact hall e' he' ⟨v, q2, hd.verts p hp v q1, hve'⟩ u hu (by simpa using hne)
    · simp at hdst

end

/-- **C36** for a part of a distributed hypergraph, with non-negative weights: a selection (either queue, selector and sweeps)
terminates without undefined behaviour whatever the iteration order of the hash tables, and leaves a plan in which
* every planned vertex is a vertex of the part, listed once;
* it lies on a boundary edge and goes to a part of the target list that wants a positive amount;
* the planned weight exceeds the total of the targets by less than the weight of one cavity (`M`), and for vertex
  weights it is the sum of the weights of the planned vertices;
* if there is a boundary edge whose vertices can be sent (`Eager`), something is planned.

Partial: the amount planned for a single part is not bounded by its target (`c36_redirected_uncharged`), and cavities of
100 or more vertices are undefined behaviour (`c36_big_cavity_ub`), as is the distance queue on an isolated part with one
or two edges (`QueueFits`, `c56_small_part_ub`). -/
theorem c36_select_partial (H : List (List HEdge)) (ins : List Input) (own : Gid → Nat) (hd : HDist H ins own)
    (hnn : NonNeg H ins own) (owns : List (GMap Part)) (ho : OwnMaps ins own owns) (o1 o2 : Nat → List Nat)
    (ho1 : Orders ins.length o1) (ho2 : Orders ins.length o2) (hH : 0 < H.length) (p : Nat) (hp : p < ins.length)
    (targets : Cont Rat) (hk : ∀ d, targets.has d = true → 0 ≤ d) (dim : Int)
    (hdim : -1 ≤ dim ∧ dim < (H.length : Int)) (ord : HashOrd) (hord : ord.Ok) (limit : Rat) (sizes : List Nat)
    (top : Nat) (hsz : ∀ k ∈ sizes, k ≤ top) (M : Rat) (hM : CavityBound H ins own p dim top M)
    (h100 : SmallCavities H own p) (kind : QKind) (hfit : QueueFits kind own p ins[p]) :
    ∃ gs gs' g s, ∃ l : List Gid, buildAll ins = .ok gs ∧ constructGhosts gs owns o1 o2 = .ok gs' ∧ gs'[p]? = some g ∧
      selectAll kind ord g limit targets dim sizes = .ok s ∧
      l.Nodup ∧ (∀ v ∈ l, v ∈ ins[p].verts) ∧ s.plan.sending.mapM g.globalID = .ok l ∧
      (∀ v ∈ ins[p].verts, ∃ h d, g.findGID v = .ok h ∧ g.planGet s.plan h = .ok d ∧ (v ∈ l ↔ d ≠ -1) ∧
        (d ≠ -1 → targets.has d = true ∧ 0 < targets.get d ∧ ∃ e ∈ H.getD 0 [], v ∈ e.pins ∧ ∃ u ∈ e.pins, own u ≠ p)) ∧
      s.planW ≤ max 0 targets.total + M ∧
      (dim = -1 → s.planW = (l.map (weightOf ins own)).sum) ∧
      (limit ≤ 0 → 0 ≤ targets.total → Eager H own p targets sizes → l ≠ []) := by
  obtain ⟨gs, e1, hb⟩ := buildAll_spec ins hd.wf
  obtain ⟨gs', e2, hw, -⟩ := constructGhosts_spec hb hd.dist (hdist_uniform hd) ho ho1 ho2
  have hg : p < gs'.length := by rw [hw.1]; exact hp
  obtain ⟨ghosts, hr⟩ := hw.2 p hg hp
  have ht : 0 < ins[p].types.length := by rw [hd.types p hp]; exact hH
  obtain ⟨q, B, e3, hq, hB⟩ := queue_kind kind hd hp hr ht hfit
  have hx := selCtx_part hd hnn hp hr hH ht hk hdim hord hM h100 (fun h hh => hB.mem_iff.mp hh)
  obtain ⟨plan, e4, hpl⟩ := newPlan_rep hx.sel.numLocal
  obtain ⟨s0, e5, h0, hcav0⟩ := newSelector_inv hx hM.1 hq hpl
  -- initial state of the selector
  have hinit : (∀ d, s0.sending d = 0) ∧ s0.planW = 0 := by
    unfold newSelector at e5
    rw [bind_ok_iff] at e5
    obtain ⟨x, -, e6⟩ := e5
    have e6 : Outcome.ok (⟨x.1, x.2, fun _ => 0, plan, 0⟩ : Sel) = .ok s0 := e6
    injection e6 with e6
    subst e6
    exact ⟨fun _ => rfl, rfl⟩
  have hall : ∃ (s' : Sel) (C' N' : List Handle) (l' : List Gid) (f' : Gid → Option Part),
      sizes.foldlM (select ord gs'[p] limit targets dim) s0 = .ok s' ∧
      SelInv ins[p].verts (fun v => getVertex ((ins[p].verts ++ ghosts).idxOf v)) (pinsOfE gs'[p] ins[p].types[0].pins)
        (weightOf ins own) targets dim B M C' N' l' f' s' ∧
      (limit ≤ 0 → 0 ≤ targets.total → Eager H own p targets sizes → l' ≠ []) := by
    by_cases hc : limit ≤ 0 ∧ 0 ≤ targets.total ∧ Eager H own p targets sizes
    · obtain ⟨h, hh, hready⟩ := ready_of_eager hd hp hr hH ht hc.2.2
      obtain ⟨s', C', N', l', f', r1, r2, r3⟩ := selects_progress hx hc.1 hc.2.1 hcav0 (hB.mem_iff.mpr hh) sizes _ s0 hsz hready h0 rfl
        hinit.1 hinit.2
      exact ⟨s', C', N', l', f', r1, r2, fun _ _ _ => r3⟩
    · obtain ⟨s', C', N', l', f', r1, r2, -⟩ := selects_inv hx limit sizes _ _ _ _ s0 hsz h0 (le_refl _)
      exact ⟨s', C', N', l', f', r1, r2, fun h1 h2 h3 => absurd ⟨h1, h2, h3⟩ hc⟩
  obtain ⟨s, C, N, l, f, e6, hs, hprog⟩ := hall
  have hlv : ∀ v ∈ l, v ∈ ins[p].verts := fun v hv => ((hs.plan.mem v).mp hv).1
  refine ⟨gs, gs', gs'[p], s, l, e1, e2, List.getElem?_eq_getElem hg, ?_, hs.plan.nodup, hlv, ?_, ?_, hs.total.2,
    hs.exact, hprog⟩
  · unfold selectAll
    rw [e3, Outcome.bind_ok, e4, Outcome.bind_ok, e5, Outcome.bind_ok]
    exact e6
  · rw [hs.plan.sending, List.mapM_map]
    rw [mapM_ok (g := fun v => v)]
    · simp
    · intro v hv
      have hv' := hlv v hv
      have := globalID_eq hr.core.v (v := v) (by simp [hv'])
      rw [List.idxOf_append_of_mem hv'] at this
      exact this
  · intro v hv
    have hu := List.idxOf_lt_length_of_mem hv
    have hfg := findGID_local hr.core.v hu
    rw [List.getElem_idxOf] at hfg
    refine ⟨_, (f v).getD (-1), hfg, planGet_eq hs.plan hx.sel.numLocal hv, ?_, ?_⟩
    · rw [hs.plan.mem]
      have := hs.plan.val v hv
      cases hfv : f v with
      | none => simp
      | some d =>
        rw [hfv] at this
        simp only [Option.getD_some, ne_eq, reduceCtorEq, not_false_eq_true, and_true, hv, true_iff]
        intro h
        exact this (by rw [h])
    · intro hne
      cases hfv : f v with
      | none => rw [hfv] at hne; exact absurd rfl hne
      | some d =>
        obtain ⟨h1, h2, h, hh, hvp⟩ := hs.dest v d hfv
        obtain ⟨-, e, he, hpe, -, hcross⟩ := mem_boundaryOf hd hp hr ht hH (hB.mem_iff.mp hh)
        rw [getD_zero hH]
        exact ⟨h1, h2, e, he, by rw [← hpe]; exact hvp, hcross⟩

/-- the hash tables are iterated in order of insertion -/
def plainOrd : HashOrd := ⟨id, id⟩

theorem plainOrd_ok : plainOrd.Ok := ⟨fun l => List.Perm.refl l, fun l => List.Perm.refl l⟩

/-- the hash tables are iterated backwards -/
def backOrd : HashOrd := ⟨List.reverse, List.reverse⟩

theorem backOrd_ok : backOrd.Ok := ⟨List.reverse_perm, List.reverse_perm⟩

/-- the iteration queue, and the distance queue filled by pushing (the default for hypergraphs) -/
def iterQ : QKind := ⟨false, true⟩
def distQ : QKind := ⟨true, true⟩

/-- the plan of part `p` after the selection: its vertices with their destination (-1: stays), and the planned weight -/
def selection (kind : QKind) (ins : List Input) (own : Gid → Nat) (p : Nat) (ord : HashOrd) (targets : Cont Rat) (dim : Int)
    (sizes : List Nat) : Outcome (List (Gid × Part) × Rat) := do
  let gs ← buildAll ins
  let o := fun _ : Nat => List.range ins.length
  let gs ← constructGhosts gs (ins.map (fun _ => fun v => some (own v : Int))) o o
  let g ← rd gs p
  let i ← rd ins p
  let s ← selectAll kind ord g 0 targets dim sizes
  let l ← i.verts.mapM (fun v => do
    let h ← g.findGID v
    let d ← g.planGet s.plan h
    return (v, d))
  return (l, s.planW)

/-- the hypotheses of C36 are met: part 1 of the sample may send vertex 2 (weight 4), the only one on a boundary edge, to
part 0; it does so when part 0 wants weight, in the sweep with cavities of one vertex -/
example : HDist sampleHG sampleWorld sampleOwn ∧ NonNeg sampleHG sampleWorld sampleOwn ∧
    CavityBound sampleHG sampleWorld sampleOwn 1 (-1) 12 4 ∧ SmallCavities sampleHG sampleOwn 1 ∧
    Eager sampleHG sampleOwn 1 ⟨[(0, 1)], 1⟩ [2, 4] ∧
    selection iterQ sampleWorld sampleOwn 1 plainOrd ⟨[(0, 1)], 1⟩ (-1) [2, 4] = .ok ([(2, 0), (3, -1)], 4) ∧
    selection iterQ sampleWorld sampleOwn 1 plainOrd ⟨[], 0⟩ (-1) [2, 4] = .ok ([(2, -1), (3, -1)], 0) ∧
    selection iterQ sampleWorld sampleOwn 1 plainOrd ⟨[(0, 1)], 1⟩ 0 [2, 4] = .ok ([(2, 0), (3, -1)], 1) ∧
    QueueFits distQ sampleOwn 1 (sampleWorld[1]'(by decide)) ∧
    selection distQ sampleWorld sampleOwn 1 plainOrd ⟨[(0, 1)], 1⟩ (-1) [2, 4] = .ok ([(2, 0), (3, -1)], 4) := by
  refine ⟨sampleWorld_dist, ⟨by decide +kernel, by decide +kernel⟩, ⟨by decide +kernel, ?_⟩,
    by unfold SmallCavities; decide +kernel, by unfold Eager; decide +kernel, by decide +kernel, by decide +kernel,
    by decide +kernel, fun _ => .inl (by unfold Touched; decide +kernel), by decide +kernel⟩
  intro e he hx us hn hus _ q
  unfold bringWeight
  rw [if_pos rfl]
  have hsub : ∀ v ∈ us, v ∈ ([2] : List Gid) := by
    intro v hv
    obtain ⟨h1, h2⟩ := hus v hv
    simp only [sampleHG, List.getD_cons_zero, List.mem_cons, List.not_mem_nil, or_false] at he
    rcases he with rfl | rfl | rfl
    · simp only [List.mem_cons, List.not_mem_nil, or_false] at h1
      rcases h1 with rfl | rfl
      · simp [sampleOwn] at h2
      · simp
    · simp only [List.mem_cons, List.not_mem_nil, or_false] at h1
      subst h1; simp [sampleOwn] at h2
    · obtain ⟨v, hv, hne⟩ := hx
      simp only [List.mem_cons, List.not_mem_nil, or_false] at hv
      rcases hv with rfl | rfl <;> simp [sampleOwn] at hne
  exact le_trans (sum_subset hn hsub (by decide +kernel)) (by decide +kernel)

/-- part 0 with three vertices of weight 1, each joined by two edges to part 1 (vertex 11) and by one to part 2
(vertex 12) -/
def redirectWorld : List Input :=
  [{ hyper := true, verts := [1, 2, 3], wgts := [],
     types := [⟨[0, 1, 2, 3, 4, 5, 6, 7, 8], [[1, 11], [1, 11], [2, 11], [2, 11], [3, 11], [3, 11], [1, 12], [2, 12], [3, 12]], []⟩] },
   { hyper := true, verts := [11], wgts := [], types := [⟨[0, 1, 2, 3, 4, 5], [[1, 11], [1, 11], [2, 11], [2, 11], [3, 11], [3, 11]], []⟩] },
   { hyper := true, verts := [12], wgts := [], types := [⟨[6, 7, 8], [[1, 12], [2, 12], [3, 12]], []⟩] }]
def redirectOwn : Gid → Nat := fun v => if v = 11 then 1 else if v = 12 then 2 else 0
def redirectHG : List (List HEdge) :=
  [[⟨0, [1, 11], 1⟩, ⟨1, [1, 11], 1⟩, ⟨2, [2, 11], 1⟩, ⟨3, [2, 11], 1⟩, ⟨4, [3, 11], 1⟩, ⟨5, [3, 11], 1⟩,
    ⟨6, [1, 12], 1⟩, ⟨7, [2, 12], 1⟩, ⟨8, [3, 12], 1⟩]]

theorem redirectWorld_dist : HDist redirectHG redirectWorld redirectOwn := by
  refine ⟨?_, by decide, ?_, ?_, by decide, ?_, ?_⟩
  · intro i hi
    simp only [redirectWorld, List.mem_cons, List.not_mem_nil, or_false] at hi
    rcases hi with rfl | rfl | rfl
    all_goals
      refine ⟨by decide, by decide, ?_⟩
      intro e he
      simp only [List.mem_cons, List.not_mem_nil, or_false] at he
      subst he; exact ⟨by decide, by decide, by decide⟩
  · decide
  · decide
  · decide
  · intro p hp t ht ht'
    have h1 : p = 0 ∨ p = 1 ∨ p = 2 := by simp [redirectWorld] at hp; omega
    have h2 : t = 0 := by simp [redirectHG] at ht'; exact ht'
    subst h2
    rcases h1 with rfl | rfl | rfl <;> decide +revert

/-- **Defect** (C36): a vertex that another edge sends elsewhere in the same sweep is planned anew for the second part,
but the weight is not charged to it (`Migration::insert` returns false, engpar_selector.cpp:108-109), so the quota of the
second part never fills.  Here part 1 wants 3 and part 2 wants 1; all three vertices, weight 3, are planned for part 2,
for either iteration order of the hash tables. -/
theorem c36_redirected_uncharged : HDist redirectHG redirectWorld redirectOwn ∧
    (∀ v ∈ ([1, 2, 3] : List Gid), weightOf redirectWorld redirectOwn v = 1) ∧
    (∀ e ∈ redirectHG.getD 0 [], (e.pins.filter (fun v => decide (redirectOwn v = 0))).length = 1) ∧
    selection iterQ redirectWorld redirectOwn 0 plainOrd ⟨[(1, 3), (2, 1)], 4⟩ (-1) [2, 4, 6, 8, 10, 12] =
      .ok ([(1, 2), (2, 2), (3, 2)], 3) ∧
    selection iterQ redirectWorld redirectOwn 0 backOrd ⟨[(1, 3), (2, 1)], 4⟩ (-1) [2, 4, 6, 8, 10, 12] =
      .ok ([(1, 2), (2, 2), (3, 2)], 3) :=
  ⟨redirectWorld_dist, by decide +kernel, by decide +kernel, by decide +kernel, by decide +kernel⟩

/-- part 0 with one vertex, joined to parts 1 and 2 by one edge each -/
def tieWorld : List Input :=
  [{ hyper := true, verts := [1], wgts := [], types := [⟨[0, 1], [[1, 11], [1, 12]], []⟩] },
   { hyper := true, verts := [11], wgts := [], types := [⟨[0], [[1, 11]], []⟩] },
   { hyper := true, verts := [12], wgts := [], types := [⟨[1], [[1, 12]], []⟩] }]

/-- **Defect** (C36): the peers of a cavity are sorted in a map keyed by the number of shared edges, which keeps only
one of the parts with the same number (engpar_selector.cpp:86-98).  Part 2 wants weight and the vertex touches it; it is
sent or not according to the iteration order of the hash table. -/
theorem c36_tie_hides_target :
    selection iterQ tieWorld redirectOwn 0 plainOrd ⟨[(2, 1)], 1⟩ (-1) [2, 4, 6, 8, 10, 12] = .ok ([(1, -1)], 0) ∧
    selection iterQ tieWorld redirectOwn 0 backOrd ⟨[(2, 1)], 1⟩ (-1) [2, 4, 6, 8, 10, 12] = .ok ([(1, 2)], 1) := by
  constructor <;> decide +kernel

/-- `selection`, followed by `selectDisconnected` with this minimal connectivity of edges of type 0 -/
def selectionDisc (kind : QKind) (ins : List Input) (own : Gid → Nat) (p : Nat) (ord : HashOrd) (targets : Cont Rat) (dim : Int)
    (sizes : List Nat) (minCon : Int) : Outcome (List (Gid × Part)) := do
  let gs ← buildAll ins
  let o := fun _ : Nat => List.range ins.length
  let gs ← constructGhosts gs (ins.map (fun _ => fun v => some (own v : Int))) o o
  let g ← rd gs p
  let i ← rd ins p
  let s ← selectAll kind ord g 0 targets dim sizes
  let s ← selectDisconnected ord g 0 minCon dim s
  i.verts.mapM (fun v => do
    let h ← g.findGID v
    let d ← g.planGet s.plan h
    return (v, d))

/-- **Defect** (C36): `selectDisconnected` reads the first peer of every cavity left in the queue whose connections are
all inside; a cavity whose vertices have all been sent is empty and has no peers, so it dereferences the begin iterator
of an empty vector (engpar_selector.cpp:236-238). -/
theorem c36_disconnected_empty_ub :
    selection iterQ tieWorld redirectOwn 0 plainOrd ⟨[(1, 1)], 1⟩ (-1) [2, 4, 6, 8, 10, 12] = .ok ([(1, 1)], 1) ∧
    selectionDisc iterQ tieWorld redirectOwn 0 plainOrd ⟨[(1, 1)], 1⟩ (-1) [2, 4, 6, 8, 10, 12] 2 = .ub := by
  constructor <;> decide +kernel

/-- **Defect** (C36): `selectDisconnected` sends to the first peer without asking for targets: part 0 has no target, the
vertex goes to part 1 all the same. -/
theorem c36_disconnected_not_target :
    selection iterQ tieWorld redirectOwn 0 plainOrd ⟨[], 0⟩ (-1) [2, 4, 6, 8, 10, 12] = .ok ([(1, -1)], 0) ∧
    selectionDisc iterQ tieWorld redirectOwn 0 plainOrd ⟨[], 0⟩ (-1) [2, 4, 6, 8, 10, 12] 2 = .ok [(1, 1)] := by
  constructor <;> decide +kernel

/-- the selector cannot be built when a queued edge has too large a cavity -/
theorem newSelector_ub {g : Graph} {vs known : List Gid} {hnd : Gid → Handle} {EH : List Handle}
    {pinsOf : Handle → List Gid} {own : Gid → Part} {inc : Gid → Nat → List Handle}
    (hs : SelFacts g vs known hnd EH pinsOf own inc) {B : List Handle} (hB : ∀ e ∈ B, e ∈ EH) {q : Queue}
    (hq : QRep q B.length [] B) (plan : Plan) {h : Handle} (hh : h ∈ B) {c : List Gid} (hcn : c.Nodup)
    (hc : ∀ v, v ∈ c → v ∈ pinsOf h ∧ v ∈ vs) (hlen : 100 ≤ c.length) : newSelector g q plan = .ub := by
  classical
  have hqs := hq.start
  -- the first edge with a large cavity
  let P : Nat → Prop := fun k => ∃ hk : k < B.length, ∃ d : List Gid, getCavity g B[k] = .ok (d.map hnd) ∧ 100 ≤ d.length
  have hex : ∃ k, P k := by
    obtain ⟨k, hk, rfl⟩ := List.mem_iff_getElem.mp hh
    obtain ⟨d, e1, hd1, hd2⟩ := getCavity_eq hs (hB _ hh)
    refine ⟨k, hk, d, e1, le_trans hlen ?_⟩
    exact length_le_of_subset hcn (fun v hv => (hd2 v).mpr (hc v hv))
  obtain ⟨hk0, d0, ec0, hd0⟩ := Nat.find_spec hex
  set k0 := Nat.find hex with hk0e
  have hmin : ∀ j, j < k0 → ¬ P j := fun j hj => Nat.find_min hex hj
  obtain ⟨x, e1, hx⟩ := rangeM_inv (cavityStep g) (fun k (x : Queue × (Handle → List Handle)) =>
      QRep x.1 B.length B (B.take k)) k0
    (by
      rintro k ⟨q', cv⟩ hk h1
      have hkB : k < B.length := by omega
      unfold cavityStep
      dsimp only at h1 ⊢
      rw [h1.get hkB, Outcome.bind_ok]
      obtain ⟨d, e2, hd1, hd2⟩ := getCavity_eq hs (hB _ (List.getElem_mem hkB))
      have hsmall : d.length < 100 := by
        by_contra hc
        exact hmin k hk ⟨hkB, d, e2, by omega⟩
      obtain ⟨q2, e3, hq2⟩ := h1.add B[k] (by simp; omega)
      rw [e2, Outcome.bind_ok, e3, Outcome.bind_ok, List.length_map, if_pos hsmall]
      refine ⟨_, rfl, ?_⟩
      have : B.take (k + 1) = B.take k ++ [B[k]] := by rw [List.take_add_one, List.getElem?_eq_getElem hkB]; rfl
      rw [this]; exact hq2)
    (q.start, fun _ => []) (by simpa using hqs)
  have hstep : cavityStep g x k0 = .ub := by
    unfold cavityStep
    obtain ⟨q2, e3, hq2⟩ := hx.add B[k0] (by simp; omega)
    rw [hx.get hk0, Outcome.bind_ok, ec0, Outcome.bind_ok, e3, Outcome.bind_ok, List.length_map,
      if_neg (by omega)]
  unfold newSelector
  have hsplit : List.range q.start.size = List.range k0 ++ k0 :: List.range' (k0 + 1) (B.length - k0 - 1) := by
    rw [hqs.size, List.range_eq_range', List.range_eq_range', ← List.range'_succ]
    rw [show B.length = k0 + (B.length - k0 - 1 + 1) by omega]
    rw [← List.range'_append_1]
    congr 2
    · omega
    · omega
  rw [hsplit, List.foldlM_append, e1]
  show ((k0 :: List.range' (k0 + 1) (B.length - k0 - 1)).foldlM (cavityStep g) x >>= _) = _
  rw [List.foldlM_cons, hstep]
  rfl

/-- **Defect** (C36): the constructor of the selector counts the cavities by size in an array of 100 entries, without a
check (engpar_selector.cpp:31-40).  A boundary edge of type 0 with 100 or more vertices on the part is out of bounds,
for every hypergraph and all parameters. -/
theorem c36_big_cavity_ub (H : List (List HEdge)) (ins : List Input) (own : Gid → Nat) (hd : HDist H ins own)
    (owns : List (GMap Part)) (ho : OwnMaps ins own owns) (o1 o2 : Nat → List Nat)
    (ho1 : Orders ins.length o1) (ho2 : Orders ins.length o2) (p : Nat) (hp : p < ins.length)
    (e : HEdge) (he : e ∈ H.getD 0 []) (hx : ∃ v ∈ e.pins, own v ≠ p)
    (hbig : 100 ≤ (e.pins.filter (fun v => decide (own v = p))).dedup.length)
    (targets : Cont Rat) (dim : Int) (ord : HashOrd) (limit : Rat) (sizes : List Nat)
    (kind : QKind) :
    ∃ gs gs' g, buildAll ins = .ok gs ∧ constructGhosts gs owns o1 o2 = .ok gs' ∧ gs'[p]? = some g ∧
      selectAll kind ord g limit targets dim sizes = .ub := by
  have hH : 0 < H.length := by
    cases H with
    | nil => simp at he
    | cons a b => simp
  rw [getD_zero hH] at he
  obtain ⟨gs, e1, hb⟩ := buildAll_spec ins hd.wf
  obtain ⟨gs', e2, hw, -⟩ := constructGhosts_spec hb hd.dist (hdist_uniform hd) ho ho1 ho2
  have hg : p < gs'.length := by rw [hw.1]; exact hp
  obtain ⟨ghosts, hr⟩ := hw.2 p hg hp
  have ht : 0 < ins[p].types.length := by rw [hd.types p hp]; exact hH
  have hs := selFacts_part hd hp hr ht
  obtain ⟨plan, e4, -⟩ := newPlan_rep hs.numLocal
  have h1 : ∃ v ∈ e.pins, own v = p := by
    by_contra hc
    push Not at hc
    have : e.pins.filter (fun v => decide (own v = p)) = [] := by
      rw [List.filter_eq_nil_iff]
      intro v hv
      simpa using hc v hv
    rw [this] at hbig
    simp at hbig
  obtain ⟨h, hh, hpe⟩ := boundaryOf_mem hd hp hr ht hH he h1 hx
  obtain ⟨q, B, e3, hq, hB⟩ := queue_kind kind hd hp hr ht (fun _ => .inl (by
    obtain ⟨v, hv, hne⟩ := hx
    unfold boundaryOf boundaryEdges at hh
    obtain ⟨j, hj, rfl⟩ := List.mem_map.mp hh
    have hj := List.mem_range.mp (List.mem_filter.mp hj).1
    have hn : 0 < gs'[p].numTypes := by rw [hr.core.numTypes]; exact ht
    rw [pinsOfE_getEdge hn hj] at hpe
    exact ⟨_, List.getElem_mem ht, _, List.getElem_mem hj, v, by rw [hpe]; exact hv, hne⟩))
  have hub := newSelector_ub hs (fun x hx => (mem_boundaryOf hd hp hr ht hH (hB.mem_iff.mp hx)).1) hq plan (hB.mem_iff.mpr hh)
    (c := (e.pins.filter (fun v => decide (own v = p))).dedup) (List.nodup_dedup _) (by
      intro v hv
      rw [List.mem_dedup, List.mem_filter] at hv
      have h3 : own v = p := by simpa using hv.2
      exact ⟨by rw [hpe]; exact hv.1, (mem_verts_iff hd hp hH he hv.1).mpr h3⟩) hbig
  refine ⟨gs, gs', gs'[p], e1, e2, List.getElem?_eq_getElem hg, ?_⟩
  unfold selectAll
  rw [e3, Outcome.bind_ok, e4, Outcome.bind_ok, hub]
  rfl

/-- a hyperedge with 100 vertices on part 0 and one on part 1 -/
def hundred : List Gid := (List.range 100).map (fun n => (n : Int))
def bigWorld : List Input :=
  [{ hyper := true, verts := hundred, wgts := [], types := [⟨[0], [hundred ++ [100]], []⟩] },
   { hyper := true, verts := [100], wgts := [], types := [⟨[0], [hundred ++ [100]], []⟩] }]
def bigOwn : Gid → Nat := fun v => if v = 100 then 1 else 0
def bigHG : List (List HEdge) := [[⟨0, hundred ++ [100], 1⟩]]

theorem bigWorld_dist : HDist bigHG bigWorld bigOwn := by
  refine ⟨?_, by decide, ?_, ?_, by decide, ?_, ?_⟩
  · intro i hi
    simp only [bigWorld, List.mem_cons, List.not_mem_nil, or_false] at hi
    rcases hi with rfl | rfl
    all_goals
      refine ⟨by decide +kernel, by decide +kernel, ?_⟩
      intro e he
      simp only [List.mem_cons, List.not_mem_nil, or_false] at he
      subst he; exact ⟨by decide +kernel, by decide +kernel, by decide +kernel⟩
  · decide +kernel
  · decide +kernel
  · decide +kernel
  · intro p hp t ht ht'
    have h1 : p = 0 ∨ p = 1 := by simp [bigWorld] at hp; omega
    have h2 : t = 0 := by simp [bigHG] at ht'; exact ht'
    subst h2
    rcases h1 with rfl | rfl <;> decide +kernel +revert

example : HDist bigHG bigWorld bigOwn ∧ (⟨0, hundred ++ [100], 1⟩ : HEdge) ∈ bigHG.getD 0 [] ∧
    (∃ v ∈ hundred ++ [100], bigOwn v ≠ 0) ∧
    100 ≤ ((hundred ++ [100]).filter (fun v => decide (bigOwn v = 0))).dedup.length :=
  ⟨bigWorld_dist, by decide +kernel, by decide +kernel, by decide +kernel⟩

end Verif.Part
