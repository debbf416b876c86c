import Verif.Part.WSelLemmas
import Verif.Part.SelectProps
/-!
# C45: what a weight plan contains

The specification speaks of the transfers `(v, u, k)`: vertex `v` hands the amount `k` to vertex `u`.
-/
namespace Verif.Part
open Verif.Agi

section
variable {H : List (List HEdge)} {ins : List Input} {own : Gid → Nat}

theorem wCtx_part (hd : HDist H ins own) (hnn : NonNeg H ins own) {g : Graph} {p n : Nat} (hp : p < ins.length)
    {ghosts : List Gid} (hr : PartRep g p n ins[p] own ghosts) (hH : 0 < H.length) (ht : 0 < ins[p].types.length)
    {ord : HashOrd} (hord : ord.Ok) (hsm : ∀ v ∈ ins[p].verts, weightOf ins own v < 2147483648) :
    WCtx ord g ins[p].verts (ins[p].verts ++ ghosts) (fun v => getVertex ((ins[p].verts ++ ghosts).idxOf v))
      ((List.range ins[p].types[0].pins.length).map (fun k => g.getEdge k 0)) (pinsOfE g ins[p].types[0].pins)
      (fun v => (own v : Int)) (incOf g ins[p] ghosts) (weightOf ins own) (boundaryOf g ins[p].types[0].pins own) := by
  have hf := facts_part hd hnn hp hr (dims := [-1]) (by
    intro d hd'
    rw [List.mem_singleton.mp hd']; exact ⟨by omega, by omega⟩)
  have hf' := hf.congr (hnd' := fun v => getVertex ((ins[p].verts ++ ghosts).idxOf v)) (by
    intro v hv
    simp only [List.idxOf_append_of_mem hv])
  refine ⟨hord, selFacts_part hd hp hr ht, hf'.vweight, ?_, hsm, ?_⟩
  · intro v hv
    exact hnn.verts v (List.mem_flatten.mpr ⟨_, List.mem_map.mpr ⟨_, List.getElem_mem hp, rfl⟩, hv⟩)
  · intro h hh
    obtain ⟨h1, e, he, hpe, ⟨v, hv, hvp⟩, -⟩ := mem_boundaryOf hd hp hr ht hH hh
    exact ⟨h1, v, by rw [hpe]; exact hv, (mem_verts_iff hd hp hH he hv).mpr hvp⟩

end

/-- the transfers of a plan, with the global ids of the vertices -/
def transfers (g : Graph) (plan : WPlan) : Outcome (List (Gid × Gid × Rat)) :=
  (planEntries plan).mapM (fun x => do
    let v ← g.globalID x.1
    let u ← g.globalID x.2.1
    return (v, u, x.2.2))

/-- the amounts of the transfers with property `P`, added -/
def moved (l : List (Gid × Gid × Nat)) (P : Gid → Gid → Prop) [∀ v u, Decidable (P v u)] : Rat :=
  ((l.filter (fun x => decide (P x.1 x.2.1))).map (fun x => (x.2.2 : Rat))).sum

theorem moved_eq (l : List (Gid × Gid × Nat)) (P : Gid → Gid → Prop) [∀ v u, Decidable (P v u)] (f : Gid → Handle)
    (φ : Handle → Handle → Rat) (h : ∀ x ∈ l, φ (f x.1) (f x.2.1) = if P x.1 x.2.1 then 1 else 0) :
    (l.map (fun x => φ (f x.1) (f x.2.1) * (x.2.2 : Rat))).sum = moved l P := by
  unfold moved
  induction l with
  | nil => rfl
  | cons x l ih =>
    rw [List.map_cons, List.sum_cons, ih (fun y hy => h y (by simp [hy])), h x (by simp), List.filter_cons]
    by_cases hP : P x.1 x.2.1
    · simp [hP]
    · simp [hP]

/-- what a part's plan contains, from the facts about the graph the selection needs -/
theorem weightPlan_ctx {ord : HashOrd} {g : Graph} {vs known : List Gid} {EH : List Handle} {pinsOf : Handle → List Gid}
    {own : Gid → Nat} {inc : Gid → Nat → List Handle} {wt : Gid → Rat} {B : List Handle}
    (hx : WCtx ord g vs known (fun v => getVertex (known.idxOf v)) EH pinsOf (fun v => (own v : Int)) inc wt B)
    (hqq : ∃ q, iterationQueue g = .ok q ∧ QRep q B.length [] B) (targets : Cont Rat) (m : Nat) :
    ∃ s, ∃ l : List (Gid × Gid × Nat), weightPlan ord g targets m = .ok s ∧ (∀ x ∈ s.plan, x.2 ≠ []) ∧
      planEntries s.plan = l.map (fun y => (getVertex (known.idxOf y.1), getVertex (known.idxOf y.2.1), (y.2.2 : Rat))) ∧
      (∀ x ∈ l, x.1 ∈ vs ∧ x.2.1 ∉ vs ∧ (∃ e ∈ B, x.1 ∈ pinsOf e ∧ x.2.1 ∈ pinsOf e) ∧
        targets.has (own x.2.1 : Int) = true ∧ 0 < targets.get (own x.2.1 : Int) ∧ x.2.1 ∈ known) ∧
      (∀ v ∈ vs, moved l (fun a _ => a = v) ≤ wt v) ∧
      (∀ q : Nat, moved l (fun _ b => own b = q) ≤ max 0 (targets.get (q : Int))) ∧
      moved l (fun _ _ => True) = s.planW := by
  obtain ⟨q, e3, hq⟩ := hqq
  have h0 : WInv g vs (fun v => getVertex (known.idxOf v))
      pinsOf (fun v => (own v : Int)) wt targets
      B [] B
      ⟨q, fun _ => 0, fun _ => 0, [], 0⟩ := by
    refine ⟨hq, by simp, by simp, fun e h => h, by simp [planEntries], ?_, ?_, ?_, ?_, ?_, ?_⟩
    · intro h; simp [esum, planEntries]
    · intro h; simp [esum, planEntries]
    · simp [esum, planEntries]
    · intro v hv; exact hx.vnn v hv
    · intro d; exact ⟨le_refl _, le_max_left _ _⟩
    · simp
  obtain ⟨s, C, N, e4, hs⟩ := wSelects_inv hx m _ _ _ h0 (le_refl _)
  -- the transfers
  have hent : ∀ x ∈ planEntries s.plan, ∃ y : Gid × Gid × Nat, y.1 ∈ vs ∧ y.2.1 ∉ vs ∧
      (∃ e ∈ B, y.1 ∈ pinsOf e ∧ y.2.1 ∈ pinsOf e) ∧ targets.has (own y.2.1 : Int) = true ∧
      0 < targets.get (own y.2.1 : Int) ∧ y.2.1 ∈ known ∧
      x = (getVertex (known.idxOf y.1), getVertex (known.idxOf y.2.1), (y.2.2 : Rat)) := by
    intro x hxx
    obtain ⟨⟨k, hk⟩, v, hvv, u, e, he, h1, h2, h3, h4, h5, h6, h7⟩ := hs.entry x hxx
    exact ⟨(v, u, k), hvv, h5, ⟨e, he, h3, h4⟩, h6, h7, (hx.sel.pins e (hx.edges e he).1).2.2 u h4, by rw [← h1, ← h2, ← hk]⟩
  obtain ⟨l, hl, hle⟩ : ∃ l : List (Gid × Gid × Nat), planEntries s.plan = l.map (fun y =>
        (getVertex (known.idxOf y.1), getVertex (known.idxOf y.2.1), (y.2.2 : Rat))) ∧
      ∀ y ∈ l, y.1 ∈ vs ∧ y.2.1 ∉ vs ∧
      (∃ e ∈ B, y.1 ∈ pinsOf e ∧ y.2.1 ∈ pinsOf e) ∧ targets.has (own y.2.1 : Int) = true ∧
      0 < targets.get (own y.2.1 : Int) ∧ y.2.1 ∈ known := by
    generalize planEntries s.plan = L at hent
    induction L with
    | nil => exact ⟨[], rfl, by simp⟩
    | cons x L ih =>
      obtain ⟨l, h1, h2⟩ := ih (fun y hy => hent y (by simp [hy]))
      obtain ⟨y, q1, q2, q3, q4, q5, q6, q7⟩ := hent x (by simp)
      refine ⟨y :: l, by rw [List.map_cons, ← h1, ← q7], ?_⟩
      intro z hz
      rcases List.mem_cons.mp hz with rfl | hz
      · exact ⟨q1, q2, q3, q4, q5, q6⟩
      · exact h2 z hz
  have hsum : ∀ φ : Handle → Handle → Rat, esum φ s.plan = (l.map (fun x =>
      φ (getVertex (known.idxOf x.1)) (getVertex (known.idxOf x.2.1)) * (x.2.2 : Rat))).sum := by
    intro φ
    unfold esum
    rw [hl, List.map_map]
    rfl
  refine ⟨s, l, ?_, hs.full, hl, hle, ?_, ?_, ?_⟩
  · unfold weightPlan
    rw [e3, Outcome.bind_ok]
    exact e4
  · intro v hvv
    have h1 := hs.fromV (getVertex (known.idxOf v))
    rw [hsum] at h1
    rw [moved_eq l (fun a _ => a = v) (fun v => getVertex (known.idxOf v))
      (fun a _ => if a = getVertex (known.idxOf v) then 1 else 0)] at h1
    · rw [h1]; exact hs.vle v hvv
    · intro x hxx
      by_cases hxv : x.1 = v
      · rw [if_pos hxv, hxv, if_pos rfl]
      · rw [if_neg hxv, if_neg (fun h => hxv (hx.sel.inj (hle x hxx).1 hvv h))]
  · intro d
    have h1 := hs.toP (d : Int)
    rw [hsum] at h1
    rw [moved_eq l (fun _ b => own b = d) (fun v => getVertex (known.idxOf v))
      (fun _ b => if ownH g b = (d : Int) then 1 else 0)] at h1
    · rw [h1]; exact (hs.ple _).2
    · intro x hxx
      have hown : ownH g (getVertex (known.idxOf x.2.1)) = (own x.2.1 : Int) := by
        unfold ownH
        rw [hx.sel.owner x.2.1 (hle x hxx).2.2.2.2.2]
      rw [hown]
      simp
  · have h1 := hs.all
    rw [hsum] at h1
    rw [← h1]
    exact (moved_eq l (fun _ _ => True) (fun v => getVertex (known.idxOf v)) (fun _ _ => 1) (by simp)).symm

/-- what a part's plan contains -/
theorem weightPlan_part {H : List (List HEdge)} {ins : List Input} {own : Gid → Nat} (hd : HDist H ins own)
    (hnn : NonNeg H ins own) {g : Graph} {p n : Nat} (hp : p < ins.length)
    {ghosts : List Gid} (hr : PartRep g p n ins[p] own ghosts) (hH : 0 < H.length) {ord : HashOrd} (hord : ord.Ok)
    (hsm : ∀ v ∈ ins[p].verts, weightOf ins own v < 2147483648) (targets : Cont Rat) (m : Nat) :
    ∃ s, ∃ l : List (Gid × Gid × Nat), weightPlan ord g targets m = .ok s ∧ (∀ x ∈ s.plan, x.2 ≠ []) ∧
      planEntries s.plan = l.map (fun y => (getVertex ((ins[p].verts ++ ghosts).idxOf y.1),
        getVertex ((ins[p].verts ++ ghosts).idxOf y.2.1), (y.2.2 : Rat))) ∧
      (∀ x ∈ l, x.1 ∈ ins[p].verts ∧ own x.2.1 ≠ p ∧ (∃ e ∈ H.getD 0 [], x.1 ∈ e.pins ∧ x.2.1 ∈ e.pins) ∧
        targets.has (own x.2.1 : Int) = true ∧ 0 < targets.get (own x.2.1 : Int) ∧ x.2.1 ∈ ins[p].verts ++ ghosts) ∧
      (∀ v ∈ ins[p].verts, moved l (fun a _ => a = v) ≤ weightOf ins own v) ∧
      (∀ q : Nat, moved l (fun _ b => own b = q) ≤ max 0 (targets.get (q : Int))) ∧
      moved l (fun _ _ => True) = s.planW := by
  have ht : 0 < ins[p].types.length := by rw [hd.types p hp]; exact hH
  obtain ⟨s, l, e1, h1, h2, h3, h4, h5, h6⟩ := weightPlan_ctx (wCtx_part hd hnn hp hr hH ht hord hsm)
    (queue_part hd hp hr ht) targets m
  refine ⟨s, l, e1, h1, h2, ?_, h4, h5, h6⟩
  intro x hxl
  obtain ⟨q1, q2, ⟨e, he, q3, q4⟩, q5⟩ := h3 x hxl
  obtain ⟨-, e', he', hpe, -, -⟩ := mem_boundaryOf hd hp hr ht hH he
  rw [hpe] at q3 q4
  exact ⟨q1, fun h => q2 ((mem_verts_iff hd hp hH he' q4).mpr h), ⟨e', by rw [getD_zero hH]; exact he', q3, q4⟩, q5⟩

/-- **C45** for a part of a distributed hypergraph with non-negative vertex weights below 2³¹: planning the weight
diffusion terminates without undefined behaviour, whatever the targets, the number of sweeps and the iteration order of
the hash tables, and the transfers `(v, u, k)` of the plan satisfy
* `k` is a natural number, `v` is a vertex of the part, `u` one of another part that shares a hyperedge of type 0 with
  `v`, and the owner of `u` is a target that wants a positive amount;
* no vertex hands over more than its weight;
* no part gets more than its target;
* the planned weight reported is the sum of the transfers.

Partial: "only positive amounts" is false, see `c45_zero_amount`. -/
theorem c45_plan_partial (H : List (List HEdge)) (ins : List Input) (own : Gid → Nat) (hd : HDist H ins own)
    (hnn : NonNeg H ins own) (owns : List (GMap Part)) (ho : OwnMaps ins own owns) (o1 o2 : Nat → List Nat)
    (ho1 : Orders ins.length o1) (ho2 : Orders ins.length o2) (hH : 0 < H.length) (p : Nat) (hp : p < ins.length)
    (hsm : ∀ v ∈ ins[p].verts, weightOf ins own v < 2147483648)
    (targets : Cont Rat) (ord : HashOrd) (hord : ord.Ok) (n : Nat) :
    ∃ gs gs' g s, ∃ l : List (Gid × Gid × Nat), buildAll ins = .ok gs ∧ constructGhosts gs owns o1 o2 = .ok gs' ∧
      gs'[p]? = some g ∧ weightPlan ord g targets n = .ok s ∧
      transfers g s.plan = .ok (l.map (fun x => (x.1, x.2.1, (x.2.2 : Rat)))) ∧
      (∀ x ∈ l, x.1 ∈ ins[p].verts ∧ own x.2.1 ≠ p ∧ (∃ e ∈ H.getD 0 [], x.1 ∈ e.pins ∧ x.2.1 ∈ e.pins) ∧
        targets.has (own x.2.1 : Int) = true ∧ 0 < targets.get (own x.2.1 : Int)) ∧
      (∀ v ∈ ins[p].verts, moved l (fun a _ => a = v) ≤ weightOf ins own v) ∧
      (∀ q : Nat, moved l (fun _ b => own b = q) ≤ max 0 (targets.get (q : Int))) ∧
      moved l (fun _ _ => True) = s.planW := by
  obtain ⟨gs, e1, hb⟩ := buildAll_spec ins hd.wf
  obtain ⟨gs', e2, hw, -⟩ := constructGhosts_spec hb hd.dist (hdist_uniform hd) ho ho1 ho2
  have hg : p < gs'.length := by rw [hw.1]; exact hp
  obtain ⟨ghosts, hr⟩ := hw.2 p hg hp
  obtain ⟨s, l, e3, -, hl, hle, h1, h2, h3⟩ := weightPlan_part hd hnn hp hr hH hord hsm targets n
  have hv := hr.core.v
  refine ⟨gs, gs', gs'[p], s, l, e1, e2, List.getElem?_eq_getElem hg, e3, ?_, ?_, h1, h2, h3⟩
  · unfold transfers
    rw [hl, List.mapM_map]
    apply mapM_ok
    intro x hxx
    obtain ⟨q1, -, -, -, -, q6⟩ := hle x hxx
    show (do
      let v ← gs'[p].globalID (getVertex ((ins[p].verts ++ ghosts).idxOf x.1))
      let u ← gs'[p].globalID (getVertex ((ins[p].verts ++ ghosts).idxOf x.2.1))
      return (v, u, (x.2.2 : Rat))) = Outcome.ok _
    rw [globalID_eq hv (List.mem_append_left _ q1), Outcome.bind_ok, globalID_eq hv q6]
    rfl
  · intro x hxx
    obtain ⟨q1, q2, q3, q4, q5, -⟩ := hle x hxx
    exact ⟨q1, q2, q3, q4, q5⟩

/-- `simplifyPlan` keeps exactly the recorded movements with a positive amount, and every row -/
theorem c45_simplify (m : List (Gid × List (Gid × Rat))) :
    (simplifyPlan m).map Prod.fst = m.map Prod.fst ∧
    ∀ (i : Nat) (row : Gid × List (Gid × Rat)), m[i]? = some row → ∃ row', (simplifyPlan m)[i]? = some row' ∧
      ∀ u x, (u, x) ∈ row'.2 ↔ (u, x) ∈ row.2 ∧ 0 < x := by
  have he : ∀ (l : List (Gid × Rat)) u x, (u, x) ∈ eraseLoop l ↔ (u, x) ∈ l ∧ 0 < x := by
    intro l u x
    induction l with
    | nil => simp [eraseLoop]
    | cons y l ih =>
      unfold eraseLoop
      split
      · rename_i hy
        rw [ih, List.mem_cons]
        constructor
        · rintro ⟨h1, h2⟩; exact ⟨.inr h1, h2⟩
        · rintro ⟨rfl | h1, h2⟩
          · exact absurd h2 (not_lt.mpr hy)
          · exact ⟨h1, h2⟩
      · rename_i hy
        rw [List.mem_cons, ih, List.mem_cons]
        constructor
        · rintro (rfl | ⟨h1, h2⟩)
          · exact ⟨.inl rfl, not_le.mp hy⟩
          · exact ⟨.inr h1, h2⟩
        · rintro ⟨h1 | h1, h2⟩
          · exact .inl h1
          · exact .inr ⟨h1, h2⟩
  constructor
  · unfold simplifyPlan; rw [List.map_map]; rfl
  · intro i row hi
    refine ⟨(row.1, eraseLoop row.2), ?_, he row.2⟩
    unfold simplifyPlan
    rw [List.getElem?_map, hi]; rfl

example : simplifyPlan [(1, [(2, 0), (3, 5), (4, -1)]), (7, [(2, 0)])] = [(1, [(3, 5)]), (7, [])] := by decide +kernel

/-- the transfers planned by part `p` and the planned weight -/
def wplan (ins : List Input) (own : Gid → Nat) (p : Nat) (ord : HashOrd) (targets : Cont Rat) (n : Nat) :
    Outcome (List (Gid × Gid × Rat) × Rat) := do
  let gs ← buildAll ins
  let o := fun _ : Nat => List.range ins.length
  let gs ← constructGhosts gs (ins.map (fun _ => fun v => some (own v : Int))) o o
  let g ← rd gs p
  let s ← weightPlan ord g targets n
  let l ← transfers g s.plan
  return (l, s.planW)

/-- the sample graph with weights 30, 40 and 50 -/
def richWorld : List Input :=
  [{ hyper := true, verts := [1], wgts := [30], types := [⟨[100, 101], [[1, 2], [1]], []⟩] },
   { hyper := true, verts := [2, 3], wgts := [40, 50], types := [⟨[102, 100], [[2, 3], [1, 2]], []⟩] }]

theorem richWorld_dist : HDist sampleHG richWorld sampleOwn := by
  refine ⟨?_, by decide, ?_, ?_, by decide, ?_, ?_⟩
  · intro i hi
    simp only [richWorld, List.mem_cons, List.not_mem_nil, or_false] at hi
    rcases hi with rfl | rfl
    · refine ⟨by decide, by decide, ?_⟩
      intro e he
      simp only [List.mem_cons, List.not_mem_nil, or_false] at he
      subst he; exact ⟨by decide, by decide, by decide⟩
    · refine ⟨by decide, by decide, ?_⟩
      intro e he
      simp only [List.mem_cons, List.not_mem_nil, or_false] at he
      subst he; exact ⟨by decide, by decide, by decide⟩
  · decide
  · decide
  · decide
  · intro p hp t ht ht'
    have h1 : p = 0 ∨ p = 1 := by simp [richWorld] at hp; omega
    have h2 : t = 0 := by simp [sampleHG] at ht'; exact ht'
    subst h2
    rcases h1 with rfl | rfl
    · decide +revert
    · decide +revert

/-- the hypotheses of C45 are met: vertex 2 (weight 40) hands 4 to vertex 1, then 3 of the remaining 36, and so on
until the target is exceeded or nothing more moves -/
example : HDist sampleHG richWorld sampleOwn ∧ NonNeg sampleHG richWorld sampleOwn ∧
    (∀ v ∈ [2, 3], weightOf richWorld sampleOwn v < 2147483648) ∧
    wplan richWorld sampleOwn 1 plainOrd ⟨[(0, 6)], 6⟩ 10 = .ok ([(2, 1, 6)], 6) ∧
    wplan richWorld sampleOwn 1 plainOrd ⟨[(0, 60)], 60⟩ 2 = .ok ([(2, 1, 7)], 7) := by
  refine ⟨richWorld_dist, ⟨by decide +kernel, by decide +kernel⟩, by decide +kernel, by decide +kernel, by decide +kernel⟩

/-- "only positive amounts" is false: vertex 2 of the sample has weight 4, a tenth of which rounds to 0, and the plan
records a transfer of 0 -/
theorem c45_zero_amount : HDist sampleHG sampleWorld sampleOwn ∧ NonNeg sampleHG sampleWorld sampleOwn ∧
    wplan sampleWorld sampleOwn 1 plainOrd ⟨[(0, 1)], 1⟩ 10 = .ok ([(2, 1, 0)], 0) := by
  refine ⟨sampleWorld_dist, ⟨by decide +kernel, by decide +kernel⟩, by decide +kernel⟩

/-- a vertex of weight 2³¹·10 or more: a tenth of it does not fit an `int`, the conversion is undefined -/
def hugeWorld : List Input :=
  [{ hyper := true, verts := [1], wgts := [30], types := [⟨[100, 101], [[1, 2], [1]], []⟩] },
   { hyper := true, verts := [2, 3], wgts := [21474836480, 50], types := [⟨[102, 100], [[2, 3], [1, 2]], []⟩] }]

theorem c45_huge_weight_ub : wplan hugeWorld sampleOwn 1 plainOrd ⟨[(0, 6)], 6⟩ 10 = .ub := by decide +kernel

end Verif.Part
