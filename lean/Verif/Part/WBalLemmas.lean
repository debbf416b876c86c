import Verif.Part.WBalModel
import Verif.Part.WSelProps
import Verif.Part.TargetProps
import Verif.Part.BalancerProps
import Verif.Agi.WMigProps
/-!
# Lemmas on the weight balancer: the parts represent the same hypergraph with other vertex weights
-/
namespace Verif.Part
open Verif.Agi

/-! ## other vertex weights -/

/-- the same parts with the vertex weights `f` -/
def reweigh (ins : List Input) (f : Gid → Wgt) : List Input := ins.map (fun i => { i with wgts := i.verts.map f })

section
variable {H : List (List HEdge)} {ins : List Input} {own : Gid → Nat} {f : Gid → Wgt} {gs : List Graph}

@[simp] theorem reweigh_length : (reweigh ins f).length = ins.length := by simp [reweigh]

theorem reweigh_get {p : Nat} (h : p < (reweigh ins f).length) :
    (reweigh ins f)[p] = { ins[p]'(by simpa using h) with wgts := (ins[p]'(by simpa using h)).verts.map f } := by
  simp [reweigh]

theorem reweigh_again (f' : Gid → Wgt) : reweigh (reweigh ins f) f' = reweigh ins f' := by
  simp [reweigh]

theorem allVerts_reweigh : allVerts (reweigh ins f) = allVerts ins := by
  unfold allVerts reweigh
  rw [List.map_map]
  rfl

theorem vertWeights_map (vs : List Gid) (f : Gid → Wgt) : vertWeights vs (vs.map f) = vs.map f := by
  apply List.ext_getElem
  · simp [vertWeights]
  · intro k h1 h2
    simp only [vertWeights, List.length_map] at h1 h2 ⊢
    simp only [List.getElem_map, List.getElem_range]
    rw [dif_pos (by simpa using h2)]

theorem hdist_reweigh (hd : HDist H ins own) : HDist H (reweigh ins f) own := by
  refine ⟨?_, ?_, ?_, ?_, hd.nonempty, ?_, ?_⟩
  · intro i hi
    obtain ⟨j, hj, rfl⟩ := List.mem_map.mp hi
    exact ⟨(hd.wf j hj).nodup, (hd.wf j hj).types_le, (hd.wf j hj).edges⟩
  · intro i hi
    obtain ⟨j, hj, rfl⟩ := List.mem_map.mp hi
    exact hd.hyper j hj
  · intro p hp v hv
    rw [reweigh_get hp] at hv
    exact hd.verts p (by simpa using hp) v hv
  · intro es hes e he v hv
    obtain ⟨h1, h2⟩ := hd.pins es hes e he v hv
    refine ⟨by simpa using h1, ?_⟩
    rw [reweigh_get]
    exact h2
  · intro p hp
    rw [reweigh_get hp]
    exact hd.types p (by simpa using hp)
  · intro p hp t ht ht'
    have hp' : p < ins.length := by simpa using hp
    have h1 : (reweigh ins f)[p].types = ins[p].types := by rw [reweigh_get hp]
    have := hd.edges p hp' t (by rw [← h1]; exact ht) ht'
    simp only [h1]
    exact this

/-- what the argument needs of the distribution: the parts fit together and the pins of the edges `H` are vertices -/
structure WDist (H : List (List HEdge)) (ins : List Input) (own : Gid → Nat) : Prop where
  dist : Dist ins own
  pins : ∀ es ∈ H, ∀ e ∈ es, ∀ v ∈ e.pins, ∃ h : own v < ins.length, v ∈ ins[own v].verts

theorem WDist.wf (hd : WDist H ins own) : ∀ i ∈ ins, i.WF := hd.dist.wf
theorem WDist.verts (hd : WDist H ins own) : ∀ p (h : p < ins.length), ∀ v ∈ ins[p].verts, own v = p := hd.dist.verts
theorem hdist_wdist (hd : HDist H ins own) : WDist H ins own := ⟨hd.dist, hd.pins⟩

theorem dist_reweigh (hd : Dist ins own) : Dist (reweigh ins f) own := by
  refine ⟨?_, ?_, ?_⟩
  · intro i hi
    obtain ⟨j, hj, rfl⟩ := List.mem_map.mp hi
    exact ⟨(hd.wf j hj).nodup, (hd.wf j hj).types_le, (hd.wf j hj).edges⟩
  · intro p hp v hv
    rw [reweigh_get hp] at hv
    exact hd.verts p (by simpa using hp) v hv
  · intro p hp v hv
    have hp' : p < ins.length := by simpa using hp
    have hv' : v ∈ ins[p].allPins := by
      rw [reweigh_get hp] at hv
      exact hv
    obtain ⟨h1, h2⟩ := hd.pins p hp' v hv'
    refine ⟨by simpa using h1, ?_⟩
    rw [reweigh_get]
    exact h2

theorem wdist_reweigh (hd : WDist H ins own) : WDist H (reweigh ins f) own := by
  refine ⟨dist_reweigh hd.dist, ?_⟩
  intro es hes e he v hv
  obtain ⟨h1, h2⟩ := hd.pins es hes e he v hv
  refine ⟨by simpa using h1, ?_⟩
  rw [reweigh_get]
  exact h2

theorem weightOf_reweigh (hd : WDist H ins own) {p : Nat} (hp : p < ins.length) {v : Gid} (hv : v ∈ ins[p].verts) :
    weightOf (reweigh ins f) own v = f v := by
  have hp' : p < (reweigh ins f).length := by simpa using hp
  have hd' : WDist H (reweigh ins f) own := wdist_reweigh hd
  have h1 := weightOf_verts hd'.verts (fun i hi => (hd'.wf i hi).nodup) hp'
  rw [reweigh_get hp'] at h1
  dsimp only at h1
  rw [vertWeights_map] at h1
  exact (List.map_inj_left.mp h1 v hv).symm

theorem world_reweigh (hd : WDist H ins own) (hw : World gs ins own) :
    World gs (reweigh ins (weightOf ins own)) own := by
  refine ⟨by simpa using hw.1, ?_⟩
  intro p h h'
  have hp : p < ins.length := by simpa using h'
  obtain ⟨gh, hr⟩ := hw.2 p h hp
  refine ⟨gh, ?_⟩
  have h1 := weightOf_verts hd.verts (fun i hi => (hd.wf i hi).nodup) hp
  rw [reweigh_get h']
  refine ⟨hr.core, hr.rank, by rw [reweigh_length]; exact hr.peers, hr.owners, ?_, hr.ghosts_eq⟩
  dsimp only
  rw [vertWeights_map, hr.weights, h1]

/-- the weight of a part -/
theorem partWeight_local (hd : WDist H ins own) (hw : World gs ins own) {p : Nat} (hg : p < gs.length)
    (hp : p < ins.length) : getWeight gs[p] (-1) false = .ok ((ins[p].verts.map (weightOf ins own)).sum) := by
  obtain ⟨gh, hr⟩ := hw.2 p hg hp
  have h1 := weightOf_verts hd.verts (fun i hi => (hd.wf i hi).nodup) hp
  rw [h1.symm]
  exact getWeight_verts hr.core.v hr.weights (by simp [vertWeights])

end

/-! ## transfers -/

theorem moved_nonneg (l : List (Gid × Gid × Nat)) (P : Gid → Gid → Prop) [∀ v u, Decidable (P v u)] : 0 ≤ moved l P := by
  unfold moved
  apply List.sum_nonneg
  intro x hx
  obtain ⟨y, -, rfl⟩ := List.mem_map.mp hx
  positivity

theorem moved_append (l l' : List (Gid × Gid × Nat)) (P : Gid → Gid → Prop) [∀ v u, Decidable (P v u)] :
    moved (l ++ l') P = moved l P + moved l' P := by
  unfold moved
  rw [List.filter_append, List.map_append, List.sum_append]

theorem moved_congr {l : List (Gid × Gid × Nat)} {P Q : Gid → Gid → Prop} [∀ v u, Decidable (P v u)]
    [∀ v u, Decidable (Q v u)] (h : ∀ x ∈ l, P x.1 x.2.1 ↔ Q x.1 x.2.1) : moved l P = moved l Q := by
  unfold moved
  congr 2
  apply List.filter_congr
  intro x hx
  exact decide_eq_decide.mpr (h x hx)

theorem moved_none {l : List (Gid × Gid × Nat)} {P : Gid → Gid → Prop} [∀ v u, Decidable (P v u)]
    (h : ∀ x ∈ l, ¬ P x.1 x.2.1) : moved l P = 0 := by
  unfold moved
  rw [List.filter_eq_nil_iff.mpr (by intro x hx; simpa using h x hx)]
  rfl

theorem moved_nat (l : List (Gid × Gid × Nat)) (P : Gid → Gid → Prop) [∀ v u, Decidable (P v u)] :
    ∃ k : Nat, moved l P = (k : Rat) := by
  refine ⟨((l.filter (fun x => decide (P x.1 x.2.1))).map (fun x => x.2.2)).sum, ?_⟩
  unfold moved
  generalize l.filter _ = l'
  induction l' with
  | nil => rfl
  | cons x l ih => simp only [List.map_cons, List.sum_cons, ih]; push_cast; rfl

/-- the transfers sorted by a key -/
theorem moved_split {κ : Type} [DecidableEq κ] (l : List (Gid × Gid × Nat)) (P : Gid → Gid → Prop)
    [∀ v u, Decidable (P v u)] (c : Gid → Gid → κ) (ks : List κ) (hn : ks.Nodup) (h : ∀ x ∈ l, P x.1 x.2.1 → c x.1 x.2.1 ∈ ks) :
    (ks.map (fun k => moved l (fun a b => P a b ∧ c a b = k))).sum = moved l P := by
  induction l with
  | nil => simp [moved]
  | cons x l ih =>
    have hx : ∀ (Q : Gid → Gid → Prop) [∀ v u, Decidable (Q v u)], moved (x :: l) Q =
        (if Q x.1 x.2.1 then (x.2.2 : Rat) else 0) + moved l Q := by
      intro Q _
      unfold moved
      rw [List.filter_cons]
      by_cases hq : Q x.1 x.2.1
      · simp [hq]
      · simp [hq]
    rw [hx P, ← ih (fun y hy => h y (by simp [hy]))]
    simp only [hx]
    rw [List.sum_map_add]
    congr 1
    by_cases hP : P x.1 x.2.1
    · simp only [hP, true_and, if_true]
      have hk := h x (by simp) hP
      clear h ih hx
      induction ks with
      | nil => simp at hk
      | cons k ks ih =>
        rw [List.map_cons, List.sum_cons]
        rw [List.nodup_cons] at hn
        by_cases hck : c x.1 x.2.1 = k
        · rw [if_pos hck]
          have : (ks.map (fun k => if c x.1 x.2.1 = k then (x.2.2 : Rat) else 0)).sum = 0 := by
            apply List.sum_eq_zero
            intro y hy
            obtain ⟨k', hk', rfl⟩ := List.mem_map.mp hy
            rw [if_neg]
            intro h; exact hn.1 (by rw [← hck, h]; exact hk')
          rw [this, add_zero]
        · rw [if_neg hck, zero_add]
          rcases List.mem_cons.mp hk with h | h
          · exact absurd h hck
          · exact ih hn.2 h
    · simp [hP]

/-- amounts of a plan in terms of its transfers -/
theorem amount_moved {l : List (Gid × Gid × Nat)} {h : Gid → Handle} {P : Handle × Handle × Wgt → Bool}
    {Q : Gid → Gid → Prop} [∀ v u, Decidable (Q v u)]
    (hPQ : ∀ x ∈ l, P (h x.1, h x.2.1, (x.2.2 : Rat)) = true ↔ Q x.1 x.2.1) :
    Verif.Agi.amount ((l.map (fun y => (h y.1, h y.2.1, (y.2.2 : Rat)))).filter P) = moved l Q := by
  unfold Verif.Agi.amount moved
  rw [List.filter_map, List.map_map]
  have : l.filter (P ∘ fun y => (h y.1, h y.2.1, (y.2.2 : Rat))) = l.filter (fun x => decide (Q x.1 x.2.1)) := by
    apply List.filter_congr
    intro x hx
    rw [Bool.eq_iff_iff, decide_eq_true_iff]
    exact hPQ x hx
  rw [this]
  rfl

theorem ownerOf_dist {ins : List Input} {own : Gid → Nat} (hd : Dist ins own) {g : Graph} {p n : Nat} (hp : p < ins.length)
    {ghosts : List Gid} (hr : PartRep g p n ins[p] own ghosts) :
    ownerOf g.self ins[p].verts (fun v => (own v : Int)) = fun v => (own v : Int) := by
  funext v
  unfold ownerOf
  split
  · rename_i hv
    rw [hr.rank, hd.verts p hp v hv]
  · rfl

/-! ## one migration of weight -/

/-- the plan of part `p` makes the transfers `l` -/
structure WPlanOf (ins : List Input) (own : Gid → Nat) (g : Graph) (p : Nat) (i : Input) (plan : WPlan)
    (l : List (Gid × Gid × Nat)) : Prop where
  full : ∀ x ∈ plan, x.2 ≠ []
  entries : ∃ ghosts, PartRep g p ins.length i own ghosts ∧ (∀ x ∈ l, x.2.1 ∈ i.verts ++ ghosts) ∧
    planEntries plan = l.map (fun y => (getVertex ((i.verts ++ ghosts).idxOf y.1),
        getVertex ((i.verts ++ ghosts).idxOf y.2.1), (y.2.2 : Rat)))
  mine : ∀ x ∈ l, x.1 ∈ i.verts
  peer : ∀ x ∈ l, ∃ h : own x.2.1 < ins.length, x.2.1 ∈ ins[own x.2.1].verts

/-- what is left of the weight of `v` after the transfers `L`, what arrives at a part being put on its last vertex -/
def wNext (ins : List Input) (own : Gid → Nat) (L : Nat → List (Gid × Gid × Nat)) (v : Gid) : Rat :=
  weightOf ins own v - moved (L (own v)) (fun a _ => a = v) +
    if (ins.getD (own v) ⟨true, [], [], []⟩).verts.getLast? = some v then
      ((List.range ins.length).map (fun q => moved (L q) (fun _ b => own b = own v))).sum else 0

theorem ofList_of_load {m : Mem Wgt} {l : List Wgt} (hl : m.length = l.length)
    (h : ∀ k (hk : k < l.length), m.load k = .ok l[k]) : m = Mem.ofList l := by
  apply List.ext_getElem?
  intro k
  by_cases hk : k < l.length
  · have := h k hk
    unfold Mem.load at this
    simp only [Mem.ofList, List.getElem?_map, List.getElem?_eq_getElem hk, Option.map_some]
    rw [List.getElem?_eq_getElem (by omega)] at this ⊢
    cases hx : m[k]'(by omega) with
    | none => rw [hx] at this; simp at this
    | some y => rw [hx] at this; simpa using this
  · rw [List.getElem?_eq_none (by omega), List.getElem?_eq_none (by simp [Mem.ofList]; omega)]

theorem wMigrate_world {H : List (List HEdge)} {ins : List Input} {own : Gid → Nat} {gs : List Graph}
    (hd : WDist H ins own) (hw : World gs ins own) {env : WStepEnv} (ho : Orders ins.length env.mig) {wp : Nat → WpMap}
    {sd : SDSlope} {S : Nat → WSel} {L : Nat → List (Gid × Gid × Nat)}
    (hL : ∀ p (hg : p < gs.length) (hp : p < ins.length), WPlanOf ins own gs[p] p ins[p] (S p).plan (L p)) :
    ∃ gs' wp', wMigrate env ⟨gs, (List.range ins.length).map wp, sd⟩ ((List.range ins.length).map S) =
        .ok ⟨gs', (List.range ins.length).map wp', sd⟩ ∧
      World gs' (reweigh ins (wNext ins own L)) own ∧
      (∀ p (h : p < gs.length) (h' : p < gs'.length), { gs'[p] with weights := gs[p].weights } = gs[p]) ∧
      (∀ p, p < ins.length → ∀ a b, wp' p a b = wp p a b + moved (L p) (fun x y => x = a ∧ y = b) -
        ((List.range ins.length).map (fun q => moved (L q) (fun x y => own y = p ∧ x = b ∧ y = a))).sum) := by
  have hgl := hw.1
  obtain ⟨n, hn⟩ : ∃ n, ins.length = n := ⟨_, rfl⟩
  let G : Nat → Graph := fun p => gs.getD p (emptyGraph 0 0)
  have hG : ∀ p (h : p < gs.length), gs[p] = G p := by
    intro p h; simp [G, List.getD_eq_getElem?_getD, h]
  have hgs : gs = (List.range ins.length).map G := by rw [← hgl]; exact list_range gs _
  let P : Nat → WPart := fun p => ⟨G p, (S p).plan, wp p⟩
  have hps : (gs.zip (((List.range ins.length).map S).zip ((List.range ins.length).map wp))).map
      (fun x => (⟨x.1, x.2.1.plan, x.2.2⟩ : WPart)) = (List.range ins.length).map P := by
    conv_lhs => rw [hgs]
    rw [zip_range, zip_range, List.map_map]
    rfl
  have hlen : ((List.range ins.length).map P).length = ins.length := by simp
  -- the plans
  have hrep : ∀ p (hp : p < ins.length), ∃ ghosts, PartRep (G p) p ins.length ins[p] own ghosts ∧
      (∀ x ∈ L p, x.1 ∈ ins[p].verts ∧ x.2.1 ∈ ins[p].verts ++ ghosts) ∧
      WPlan.entries (S p).plan = (L p).map (fun y => (getVertex ((ins[p].verts ++ ghosts).idxOf y.1),
        getVertex ((ins[p].verts ++ ghosts).idxOf y.2.1), (y.2.2 : Rat))) := by
    intro p hp
    have h := hL p (by omega) hp
    obtain ⟨ghosts, h1, h2, h3⟩ := h.entries
    rw [hG] at h1
    exact ⟨ghosts, h1, fun x hx => ⟨h.mine x hx, h2 x hx⟩, h3⟩
  have hownp : ∀ p (hp : p < ins.length) ghosts, PartRep (G p) p ins.length ins[p] own ghosts →
      ∀ v ∈ ins[p].verts ++ ghosts, (G p).owner (getVertex ((ins[p].verts ++ ghosts).idxOf v)) = .ok (own v : Int) := by
    intro p hp ghosts hr v hv
    rw [owner_eq hr.core.v hr.owners hv, ownerOf_dist hd.dist hp hr]
  have hok : WOk ((List.range ins.length).map P) := by
    refine ⟨?_, ?_, ?_, ?_⟩
    · intro q hq
      obtain ⟨p, hp, rfl⟩ := List.mem_map.mp hq
      have hp := List.mem_range.mp hp
      exact (hL p (by omega) hp).full
    · intro q hq l hl
      obtain ⟨p, hp, rfl⟩ := List.mem_map.mp hq
      have hp := List.mem_range.mp hp
      obtain ⟨gh, hr, -⟩ := hrep p hp
      have hl' : l < ins[p].verts.length := by rw [← hr.core.v.nl]; exact hl
      exact ⟨_, weight_local hr.core.v hr.weights hl' (by simpa [vertWeights] using hl')⟩
    · intro q hq e he
      obtain ⟨p, hp, rfl⟩ := List.mem_map.mp hq
      have hp := List.mem_range.mp hp
      obtain ⟨gh, hr, hm, hent⟩ := hrep p hp
      simp only [P] at he ⊢
      rw [hent] at he
      obtain ⟨x, hx, rfl⟩ := List.mem_map.mp he
      obtain ⟨h1, -⟩ := hm x hx
      refine ⟨(ins[p].verts ++ gh).idxOf x.1, ?_, rfl, x.1, globalID_eq hr.core.v (List.mem_append_left _ h1)⟩
      rw [hr.core.v.nl, List.idxOf_append_of_mem h1]
      exact List.idxOf_lt_length_of_mem h1
    · intro q hq e he
      obtain ⟨p, hp, rfl⟩ := List.mem_map.mp hq
      have hp := List.mem_range.mp hp
      obtain ⟨gh, hr, hm, hent⟩ := hrep p hp
      simp only [P] at he ⊢
      rw [hent] at he
      obtain ⟨x, hx, rfl⟩ := List.mem_map.mp he
      obtain ⟨-, h2⟩ := hm x hx
      obtain ⟨h3, h4⟩ := (hL p (by omega) hp).peer x hx
      refine ⟨x.2.1, globalID_eq hr.core.v h2, own x.2.1, by simpa using h3, hownp p hp gh hr _ h2, ?_⟩
      obtain ⟨gh', hr', -⟩ := hrep _ h3
      simp only [List.getElem_map, List.getElem_range]
      refine ⟨(ins[own x.2.1].verts ++ gh').idxOf x.2.1, ?_, findGID_eq hr'.core.v (List.mem_append_left _ h4)⟩
      rw [hr'.core.v.nl, List.idxOf_append_of_mem h4]
      exact List.idxOf_lt_length_of_mem h4
  obtain ⟨rs, e1, hrl, hspec⟩ := migrateW_spec _ hok env.mig (by rw [hlen]; exact ho)
  rw [hlen] at hrl
  -- the quantities of the migration
  have hgid : ∀ p (hp : p < ins.length) gh, PartRep (G p) p ins.length ins[p] own gh →
      ∀ v ∈ ins[p].verts ++ gh, ∀ a, (G p).globalID (getVertex ((ins[p].verts ++ gh).idxOf v)) = .ok a ↔ v = a := by
    intro p hp gh hr v hv a
    rw [globalID_eq hr.core.v hv]
    constructor
    · intro h; injection h
    · rintro rfl; rfl
  have hleave : ∀ p (hp : p < ins.length) l (hl : l < ins[p].verts.length),
      (S p).plan.leaving (getVertex l) = moved (L p) (fun a _ => a = ins[p].verts[l]) := by
    intro p hp l hl
    obtain ⟨gh, hr, hm, hent⟩ := hrep p hp
    unfold WPlan.leaving
    rw [hent]
    apply amount_moved (h := fun v => getVertex ((ins[p].verts ++ gh).idxOf v))
    intro x hx
    obtain ⟨h1, -⟩ := hm x hx
    have hnd := (hd.wf _ (List.getElem_mem hp)).nodup
    rw [decide_eq_true_iff, List.idxOf_append_of_mem h1]
    constructor
    · intro h
      have h : ins[p].verts.idxOf x.1 = l := by simp only [getVertex] at h; omega
      subst h
      rw [List.getElem_idxOf]
    · intro h
      rw [h, hnd.idxOf_getElem]
  have hsent : ∀ p, p < ins.length → ∀ q : Nat, (P p).sentTo q = moved (L p) (fun _ b => own b = q) := by
    intro p hp q
    obtain ⟨gh, hr, hm, hent⟩ := hrep p hp
    unfold WPart.sentTo
    simp only [P]
    rw [hent]
    apply amount_moved (h := fun v => getVertex ((ins[p].verts ++ gh).idxOf v))
    intro x hx
    rw [decide_eq_true_iff, hownp p hp gh hr _ (hm x hx).2]
    simp
  have hflow : ∀ p, p < ins.length → ∀ a b, (P p).flow a b = moved (L p) (fun x y => x = a ∧ y = b) := by
    intro p hp a b
    obtain ⟨gh, hr, hm, hent⟩ := hrep p hp
    unfold WPart.flow
    simp only [P]
    rw [hent]
    apply amount_moved (h := fun v => getVertex ((ins[p].verts ++ gh).idxOf v))
    intro x hx
    rw [decide_eq_true_iff, hgid p hp gh hr _ (List.mem_append_left _ (hm x hx).1), hgid p hp gh hr _ (hm x hx).2]
  have hflowTo : ∀ p, p < ins.length → ∀ (q : Nat) a b, (P p).flowTo q a b =
      moved (L p) (fun x y => own y = q ∧ x = a ∧ y = b) := by
    intro p hp q a b
    obtain ⟨gh, hr, hm, hent⟩ := hrep p hp
    unfold WPart.flowTo
    simp only [P]
    rw [hent]
    apply amount_moved (h := fun v => getVertex ((ins[p].verts ++ gh).idxOf v))
    intro x hx
    rw [decide_eq_true_iff, hgid p hp gh hr _ (List.mem_append_left _ (hm x hx).1), hgid p hp gh hr _ (hm x hx).2,
      hownp p hp gh hr _ (hm x hx).2]
    simp
  let R : Nat → Graph × WpMap := fun p => rs.getD p (emptyGraph 0 0, fun _ _ => 0)
  have hR : ∀ p (h : p < rs.length), rs[p] = R p := by
    intro p h; simp [R, List.getD_eq_getElem?_getD, h]
  have hrs : rs = (List.range ins.length).map R := by rw [← hrl]; exact list_range rs _
  refine ⟨rs.map Prod.fst, fun p => (R p).2, ?_, ⟨by simp [hrl], ?_⟩, ?_, ?_⟩
  · unfold wMigrate
    dsimp only
    rw [hps, e1, Outcome.bind_ok]
    have : rs.map Prod.snd = (List.range ins.length).map (fun p => (R p).2) := by
      conv_lhs => rw [hrs]
      rw [List.map_map]; rfl
    rw [this]
    rfl
  · intro p h1 h2
    have hp : p < ins.length := by simpa using h2
    obtain ⟨gh, hr, hm, hent⟩ := hrep p hp
    obtain ⟨s1, s2, -, s4⟩ := hspec p (by simpa using hp) (by omega)
    simp only [List.getElem_map, List.getElem_range, P] at s1 s2 s4
    refine ⟨gh, ?_⟩
    have hgr : rs[p].1 = { G p with weights := rs[p].1.weights } := by rw [← s1]
    have hcv : VRep rs[p].1 ins[p].verts gh := by
      rw [hgr]; exact ⟨hr.core.v.nl, hr.core.v.ng, hr.core.v.nodup, hr.core.v.map, hr.core.v.loc, hr.core.v.gho⟩
    rw [reweigh_get h2]
    simp only [List.getElem_map]
    refine ⟨?_, ?_, ?_, ?_, ?_, hr.ghosts_eq⟩
    · rw [hgr]
      exact ⟨⟨hr.core.v.nl, hr.core.v.ng, hr.core.v.nodup, hr.core.v.map, hr.core.v.loc, hr.core.v.gho⟩, hr.core.hyp,
        hr.core.numTypes, hr.core.typ, hr.core.pins, hr.core.wf⟩
    · rw [hgr]; exact hr.rank
    · rw [hgr, reweigh_length]; exact hr.peers
    · rw [hgr]; exact hr.owners
    · dsimp only
      rw [vertWeights_map]
      apply ofList_of_load
      · rw [s4, hr.core.v.nl, List.length_map]
      · intro k hk
        have hk' : k < ins[p].verts.length := by simpa using hk
        have hwl := weight_local hr.core.v hr.weights hk' (by simpa [vertWeights] using hk')
        have := s2 k _ (by rw [hr.core.v.nl]; exact hk') hwl
        unfold Graph.weight at this
        rw [vidx_getVertex, Outcome.bind_ok, hcv.nl, hcv.ng, if_neg (by omega), if_neg (by omega)] at this
        rw [this]
        congr 1
        simp only [List.getElem_map]
        have hov : own ins[p].verts[k] = p := hd.verts p hp _ (List.getElem_mem hk')
        have hwo := weightOf_verts hd.verts (fun i hi => (hd.wf i hi).nodup) hp
        have hwo' : (vertWeights ins[p].verts ins[p].wgts)[k]'(by simpa [vertWeights] using hk') =
            weightOf ins own ins[p].verts[k] := by
          simp only [hwo, List.getElem_map]
        unfold wNext
        rw [hwo', hleave p hp k hk', hov]
        congr 1
        have hl : (ins.getD p ⟨true, [], [], []⟩).verts.getLast? = some ins[p].verts[k] ↔ k + 1 = ins[p].verts.length := by
          rw [List.getD_eq_getElem?_getD, List.getElem?_eq_getElem hp, Option.getD_some, List.getLast?_eq_getElem?]
          have hnd := (hd.wf _ (List.getElem_mem hp)).nodup
          rw [List.getElem?_eq_getElem (by omega), Option.some.injEq, hnd.getElem_inj_iff]
          omega
        by_cases hlast : k + 1 = ins[p].verts.length
        · rw [if_pos (by rw [hr.core.v.nl]; exact hlast), if_pos (hl.mpr hlast)]
          unfold arriving
          rw [List.map_map]
          congr 1
          apply List.map_congr_left
          intro q hq
          exact hsent q (List.mem_range.mp hq) p
        · rw [if_neg (by rw [hr.core.v.nl]; exact hlast), if_neg (fun h => hlast (hl.mp h))]
  · intro p h h'
    have hp : p < ins.length := by omega
    obtain ⟨s1, -⟩ := hspec p (by simpa using hp) (by omega)
    simp only [List.getElem_map, List.getElem_range, P] at s1 ⊢
    rw [hG p h]
    exact s1
  · intro p hp a b
    obtain ⟨-, -, s3, -⟩ := hspec p (by simpa using hp) (by omega)
    have := s3 a b
    rw [hR p (by omega)] at this
    simp only [List.getElem_map, List.getElem_range] at this
    dsimp only
    rw [this, hflow p hp]
    simp only [P]
    congr 1
    rw [List.map_map]
    congr 1
    apply List.map_congr_left
    intro q hq
    exact hflowTo q (List.mem_range.mp hq) p b a

end Verif.Part
