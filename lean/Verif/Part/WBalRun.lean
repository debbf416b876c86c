import Verif.Part.WBalLemmas
import Verif.Part.WBalSpec
import Verif.Part.DiffusePlan
/-!
# Lemmas on the steps of weight diffusion
-/
namespace Verif.Part
open Verif.Agi

section
variable {H : List (List HEdge)} {ins : List Input} {own : Gid → Nat} {gs : List Graph} {par : WPar}
  {sf : Rat} {W : Nat → Rat}

/-- the sum over all vertices, part by part -/
theorem sum_allVerts (ins : List Input) (f : Gid → Rat) : ((allVerts ins).map f).sum =
    ((List.range ins.length).map (fun p => ((ins.getD p ⟨true, [], [], []⟩).verts.map f).sum)).sum := by
  have h := list_range ins ⟨true, [], [], []⟩
  unfold allVerts
  conv_lhs => rw [h]
  rw [List.map_map, List.map_flatten, List.sum_flatten, List.map_map, List.map_map]
  rfl

/-- the part of a sum -/
theorem part_le (hnn : ∀ v ∈ allVerts ins, 0 ≤ weightOf ins own v) {p : Nat} (hp : p < ins.length) :
    startLoad ins own p ≤ ((allVerts ins).map (weightOf ins own)).sum := by
  rw [sum_allVerts]
  apply List.single_le_sum
  · intro x hx
    obtain ⟨q, hq, rfl⟩ := List.mem_map.mp hx
    have hq := List.mem_range.mp hq
    apply List.sum_nonneg
    intro y hy
    obtain ⟨v, hv, rfl⟩ := List.mem_map.mp hy
    rw [getD_ins hq] at hv
    exact hnn v (List.mem_flatten.mpr ⟨_, List.mem_map.mpr ⟨_, List.getElem_mem hq, rfl⟩, hv⟩)
  · exact List.mem_map.mpr ⟨p, List.mem_range.mpr hp, rfl⟩

theorem vert_le (hnn : ∀ v ∈ allVerts ins, 0 ≤ weightOf ins own v) {v : Gid} (hv : v ∈ allVerts ins) :
    weightOf ins own v ≤ ((allVerts ins).map (weightOf ins own)).sum := by
  apply List.single_le_sum
  · intro x hx
    obtain ⟨u, hu, rfl⟩ := List.mem_map.mp hx
    exact hnn u hu
  · exact List.mem_map.mpr ⟨v, hv, rfl⟩

/-- the plans of a step -/
theorem wPlanAll_world (hd : HDist H ins own) (hnn : NonNeg H ins own) (hw : World gs ins own)
    (ht : par.type < H.length) (hint : ∀ e ∈ H.getD par.type [], ∃ w : Int, e.w = (w : Rat) ∧ 0 < w)
    (hsf : 0 < par.stepFactor) (htot : ((allVerts ins).map (weightOf ins own)).sum < 2147483648)
    {env : WStepEnv} (he : env.Ok ins.length) (st : Int) :
    ∃ (S : Nat → WSel) (L : Transfers), wPlanAll par env st gs = .ok ((List.range ins.length).map S) ∧
      (∀ p (hg : p < gs.length) (hp : p < ins.length), WPlanOf ins own gs[p] p ins[p] (S p).plan (L p)) ∧
      FairStep H ins own par.stepFactor (startLoad ins own) L ∧
      (∀ p (hp : p < ins.length), ∀ v ∈ ins[p].verts, moved (L p) (fun a _ => a = v) ≤ weightOf ins own v) ∧
      ∀ p, p < ins.length → sentBy L p = (S p).planW := by
  have hgl := hw.1
  have hH : 0 < H.length := by omega
  have hHt : H.getD par.type [] = H[par.type] := by
    rw [List.getD_eq_getElem?_getD, List.getElem?_eq_getElem ht]; rfl
  obtain ⟨w, hw1, hw2⟩ : ∃ w : HEdge → Int, (∀ e ∈ H[par.type], e.w = (w e : Rat)) ∧ ∀ e ∈ H[par.type], 0 < w e := by
    have : ∀ e, ∃ w : Int, e ∈ H[par.type] → e.w = (w : Rat) ∧ 0 < w := by
      intro e
      by_cases he : e ∈ H[par.type]
      · obtain ⟨w, hw⟩ := hint e (by rw [hHt]; exact he)
        exact ⟨w, fun _ => hw⟩
      · exact ⟨0, fun h => absurd h he⟩
    choose w hw using this
    exact ⟨w, fun e he => (hw e he).1, fun e he => (hw e he).2⟩
  have hW : ∀ p (_ : p < gs.length), getWeight gs[p] (-1) false = .ok (startLoad ins own p) := by
    intro p hp
    rw [partWeight_local (hdist_wdist hd) hw hp (by omega)]
    unfold startLoad
    rw [getD_ins (by omega)]
  obtain ⟨ss, tws, e1, e2, hsl, htl, htg⟩ := targets_world hd hw he.weights par.type ht w hw1 hw2 (-1) false
    (startLoad ins own) hW
  have hpart : ∀ p, ∃ (s : WSel) (l : List (Gid × Gid × Nat)), ∀ (hg : p < gs.length) (hp : p < ins.length),
      wPartPlan par env st gs ss tws p = .ok s ∧ WPlanOf ins own gs[p] p ins[p] s.plan l ∧
      (∀ x ∈ l, own x.2.1 ≠ p ∧ (∃ e ∈ H.getD 0 [], x.1 ∈ e.pins ∧ x.2.1 ∈ e.pins) ∧
        startLoad ins own (own x.2.1) < startLoad ins own p) ∧
      (∀ q, q < ins.length → q ≠ p → moved l (fun _ b => own b = q) ≤
        max 0 (par.stepFactor * (startLoad ins own p - startLoad ins own q))) ∧
      (∀ v ∈ ins[p].verts, moved l (fun a _ => a = v) ≤ weightOf ins own v) ∧
      moved l (fun _ _ => True) = s.planW := by
    intro p
    by_cases hp : p < ins.length
    swap
    · exact ⟨⟨Queue.new 0, fun _ => 0, fun _ => 0, [], 0⟩, [], fun _ h => absurd h hp⟩
    have hg : p < gs.length := by omega
    have hps : p < ss.length := by omega
    have hpt : p < tws.length := by omega
    obtain ⟨gh, hr⟩ := hw.2 p hg hp
    have hhyp : gs[p].isHyper = true := by rw [hr.core.hyp]; exact hd.hyper _ (List.getElem_mem hp)
    obtain ⟨T, e5, hT, hTb⟩ := htg p hps hpt par.stepFactor hsf st [] (env.sides p ss[p].d) (he.sides p _)
    obtain ⟨s, l, e6, hfull, hent, hl, hv, hq, hall⟩ := weightPlan_part hd hnn hp hr hH (he.hash p)
      (fun v hv => lt_of_le_of_lt (vert_le hnn.verts (List.mem_flatten.mpr ⟨_, List.mem_map.mpr ⟨_, List.getElem_mem hp, rfl⟩, hv⟩)) htot)
      T 10
    refine ⟨s, l, fun _ _ => ⟨?_, ⟨hfull, ⟨gh, hr, fun x hx => (hl x hx).2.2.2.2.2, hent⟩, fun x hx => (hl x hx).1, ?_⟩,
      ?_, ?_, hv, hall⟩⟩
    · unfold wPartPlan
      rw [rd_ok hg, Outcome.bind_ok, rd_ok hps, Outcome.bind_ok, rd_ok hpt, Outcome.bind_ok, hhyp, hgl, e5,
        Outcome.bind_ok, e6]
    · intro x hx
      obtain ⟨-, -, ⟨e, he, -, h2⟩, -⟩ := hl x hx
      rw [getD_zero hH] at he
      exact hd.pins _ (List.getElem_mem hH) e he _ h2
    · intro x hx
      obtain ⟨-, h2, h3, h4, -⟩ := hl x hx
      refine ⟨h2, h3, ?_⟩
      unfold Cont.has at h4
      rw [Option.isSome_iff_exists] at h4
      obtain ⟨y, hy⟩ := h4
      exact (hTb _ y hy).1
    · intro q hq' hqp
      refine le_trans (hq q) ?_
      unfold Cont.get
      cases hf : T.find (q : Int) with
      | none => simp
      | some x =>
        obtain ⟨-, -, h3⟩ := hTb q x hf
        simp only [Option.getD_some]
        exact max_le_max (le_refl _) h3
  choose S L hSL using hpart
  refine ⟨S, L, ?_, fun p hg hp => (hSL p hg hp).2.1, ⟨?_, ?_, ?_⟩, fun p hp => (hSL p (by omega) hp).2.2.2.2.1,
    fun p hp => (hSL p (by omega) hp).2.2.2.2.2⟩
  · unfold wPlanAll
    rw [e1, Outcome.bind_ok, e2, Outcome.bind_ok, hgl]
    exact mapM_ok (fun p hp => (hSL p (by have := List.mem_range.mp hp; omega) (List.mem_range.mp hp)).1)
  · intro p hp x hx
    obtain ⟨-, h1, h2, -⟩ := hSL p (by omega) hp
    exact ⟨h1.mine x hx, (h2 x hx).1, (h2 x hx).2.1⟩
  · intro p hp x hx
    exact ((hSL p (by omega) hp).2.2.1 x hx).2.2
  · intro p q hp hq hqp
    exact (hSL p (by omega) hp).2.2.2.1 q hq hqp

/-! ## the weights after a step -/

theorem sum_neg_list {α : Type} (l : List α) (F : α → Rat) : (l.map (fun x => -F x)).sum = -(l.map F).sum := by
  induction l with
  | nil => simp
  | cons x l ih => simp only [List.map_cons, List.sum_cons, ih]; ring

theorem sum_swap_moved (n : Nat) (own : Gid → Nat) (L : Transfers) (h : ∀ p, p < n → ∀ x ∈ L p, own x.2.1 < n) :
    ((List.range n).map (gotBy own n L)).sum = ((List.range n).map (sentBy L)).sum := by
  have h1 : ∀ q, q < n → ((List.range n).map (fun p => moved (L q) (fun _ b => own b = p))).sum = sentBy L q := by
    intro q hq
    unfold sentBy
    rw [← moved_split (L q) (fun _ _ => True) (fun _ b => own b) (List.range n) List.nodup_range
      (fun x hx _ => List.mem_range.mpr (h q hq x hx))]
    simp only [true_and]
  unfold gotBy
  rw [sum_range_list]
  simp only [sum_range_list]
  rw [Finset.sum_comm]
  apply Finset.sum_congr rfl
  intro q hq
  have := h1 q (Finset.mem_range.mp hq)
  rw [sum_range_list] at this
  exact this

section
variable {L : Transfers}

theorem gotBy_nonneg (own : Gid → Nat) (n : Nat) (L : Transfers) (p : Nat) : 0 ≤ gotBy own n L p := by
  unfold gotBy
  apply List.sum_nonneg
  intro x hx
  obtain ⟨q, -, rfl⟩ := List.mem_map.mp hx
  exact moved_nonneg _ _

theorem wNext_eq (hd : WDist H ins own) {p : Nat} (hp : p < ins.length) {v : Gid} (hv : v ∈ ins[p].verts) :
    wNext ins own L v = weightOf ins own v - moved (L p) (fun a _ => a = v) +
      if ins[p].verts.getLast? = some v then gotBy own ins.length L p else 0 := by
  unfold wNext gotBy
  rw [hd.verts p hp v hv, getD_ins hp]

theorem wNext_nonneg (hd : WDist H ins own)
    (hle : ∀ p (hp : p < ins.length), ∀ v ∈ ins[p].verts, moved (L p) (fun a _ => a = v) ≤ weightOf ins own v) :
    ∀ v ∈ allVerts ins, 0 ≤ wNext ins own L v := by
  intro v hv
  obtain ⟨p, hp, hv⟩ := mem_allVerts.mp hv
  rw [wNext_eq hd hp hv]
  have h1 := hle p hp v hv
  have h2 := gotBy_nonneg own ins.length L p
  split <;> linarith

theorem sum_last_list {l : List Gid} (hn : l.Nodup) (A : Rat) (h0 : l = [] → A = 0) :
    (l.map (fun v => if l.getLast? = some v then A else 0)).sum = A := by
  by_cases hl : l = []
  · subst hl; simp [h0 rfl]
  · obtain ⟨l', x, rfl⟩ : ∃ l' x, l = l' ++ [x] := ⟨l.dropLast, l.getLast hl, (List.dropLast_append_getLast hl).symm⟩
    rw [List.map_append, List.sum_append]
    have : (l'.map (fun v => if (l' ++ [x]).getLast? = some v then A else 0)).sum = 0 := by
      apply List.sum_eq_zero
      intro y hy
      obtain ⟨v, hv, rfl⟩ := List.mem_map.mp hy
      rw [if_neg]
      intro h
      simp only [List.getLast?_append, List.getLast?_singleton, Option.some_or, Option.some.injEq] at h
      subst h
      exact (List.nodup_append.mp hn).2.2 _ hv _ (by simp) rfl
    rw [this]
    simp

theorem load_next (hd : WDist H ins own) (hf : FairStep H ins own sf W L) {p : Nat} (hp : p < ins.length) :
    startLoad (reweigh ins (wNext ins own L)) own p = startLoad ins own p + (gotBy own ins.length L p - sentBy L p) := by
  have hp' : p < (reweigh ins (wNext ins own L)).length := by simpa using hp
  have hnd := (hd.wf _ (List.getElem_mem hp)).nodup
  unfold startLoad
  rw [getD_ins hp', getD_ins hp, reweigh_get hp']
  dsimp only
  have h1 : ins[p].verts.map (weightOf (reweigh ins (wNext ins own L)) own) =
      ins[p].verts.map (fun v => weightOf ins own v + (-moved (L p) (fun a _ => a = v) +
      if ins[p].verts.getLast? = some v then gotBy own ins.length L p else 0)) := by
    apply List.map_congr_left
    intro v hv
    rw [weightOf_reweigh hd hp hv, wNext_eq hd hp hv]
    ring
  rw [h1, List.sum_map_add, List.sum_map_add, sum_last_list hnd]
  · have h2 : (ins[p].verts.map (fun v => -moved (L p) (fun a _ => a = v))).sum = -sentBy L p := by
      unfold sentBy
      rw [← moved_split (L p) (fun _ _ => True) (fun a _ => a) ins[p].verts hnd (fun x hx _ => (hf.between p hp x hx).1)]
      simp only [true_and]
      rw [← sum_neg_list]
    rw [h2]
    ring
  · intro h0
    unfold gotBy
    apply List.sum_eq_zero
    intro x hx
    obtain ⟨q, hq, rfl⟩ := List.mem_map.mp hx
    apply moved_none
    intro y hy hy'
    obtain ⟨-, -, e, he, -, h5⟩ := hf.between q (List.mem_range.mp hq) y hy
    by_cases hH : 0 < H.length
    · rw [getD_zero hH] at he
      obtain ⟨h6, h7⟩ := hd.pins _ (List.getElem_mem hH) e he _ h5
      simp only [hy'] at h7
      rw [h0] at h7
      simp at h7
    · rw [List.getD_eq_getElem?_getD, List.getElem?_eq_none (by omega)] at he
      simp at he

theorem fair_dest (hd : WDist H ins own) (hf : FairStep H ins own sf W L) {p : Nat} (hp : p < ins.length) :
    ∀ x ∈ L p, own x.2.1 < ins.length := by
  intro y hy
  obtain ⟨-, -, e, he, -, h5⟩ := hf.between p hp y hy
  by_cases hH : 0 < H.length
  · rw [getD_zero hH] at he
    exact (hd.pins _ (List.getElem_mem hH) e he _ h5).1
  · rw [List.getD_eq_getElem?_getD, List.getElem?_eq_none (by omega)] at he
    simp at he

theorem total_eq_loads (ins : List Input) (own : Gid → Nat) :
    ((allVerts ins).map (weightOf ins own)).sum = ((List.range ins.length).map (startLoad ins own)).sum := sum_allVerts _ _

theorem total_next (hd : WDist H ins own) (hf : FairStep H ins own sf W L) :
    ((allVerts (reweigh ins (wNext ins own L))).map (weightOf (reweigh ins (wNext ins own L)) own)).sum =
      ((allVerts ins).map (weightOf ins own)).sum := by
  rw [total_eq_loads, total_eq_loads, reweigh_length]
  have h1 : (List.range ins.length).map (startLoad (reweigh ins (wNext ins own L)) own) =
      (List.range ins.length).map (fun p => startLoad ins own p + (gotBy own ins.length L p + -sentBy L p)) := by
    apply List.map_congr_left
    intro p hp
    rw [load_next hd hf (List.mem_range.mp hp)]
    ring
  rw [h1, List.sum_map_add, List.sum_map_add, sum_swap_moved ins.length own L (fun p hp => fair_dest hd hf hp),
    sum_neg_list]
  ring

end

/-! ## one step -/

theorem truncQ_nat (k : Nat) : truncQ (k : Rat) = (k : Int) := by
  unfold truncQ
  rw [if_pos (by positivity)]
  show ⌊((k : Nat) : Rat)⌋ = (k : Int)
  exact Int.floor_natCast k

theorem toInt32_nat {k : Nat} (h : k < 2147483648) : toInt32 (k : Rat) = .ok (k : Int) := by
  rw [toInt32_ok (by positivity) (by exact_mod_cast h), truncQ_nat]

theorem sentBy_le (hd : WDist H ins own) {L : Transfers} (hf : FairStep H ins own sf W L) {p : Nat} (hp : p < ins.length)
    (hle : ∀ v ∈ ins[p].verts, moved (L p) (fun a _ => a = v) ≤ weightOf ins own v) :
    sentBy L p ≤ startLoad ins own p := by
  unfold sentBy startLoad
  have hnd := (hd.wf _ (List.getElem_mem hp)).nodup
  rw [← moved_split (L p) (fun _ _ => True) (fun a _ => a) ins[p].verts hnd (fun x hx _ => (hf.between p hp x hx).1),
    getD_ins hp]
  simp only [true_and]
  exact List.sum_le_sum (fun v hv => hle v hv)

/-- the number that decides whether anything is migrated -/
theorem numMigrate_eq (hd : WDist H ins own)
    (htot : ((allVerts ins).map (weightOf ins own)).sum < 2147483648) {S : Nat → WSel} {L : Transfers}
    (hf : FairStep H ins own sf W L)
    (hle : ∀ p (hp : p < ins.length), ∀ v ∈ ins[p].verts, moved (L p) (fun a _ => a = v) ≤ weightOf ins own v)
    (hS : ∀ p, p < ins.length → sentBy L p = (S p).planW) :
    ∃ k : Nat, numMigrate ((List.range ins.length).map S) = .ok (k : Int) ∧
      (k : Rat) = ((List.range ins.length).map (sentBy L)).sum := by
  have hk : ∀ p, ∃ k : Nat, sentBy L p = (k : Rat) := fun p => moved_nat _ _
  choose K hK using hk
  have hsum : ((List.range ins.length).map (sentBy L)).sum = (((List.range ins.length).map K).sum : Nat) := by
    generalize List.range ins.length = l
    induction l with
    | nil => simp
    | cons p l ih => simp only [List.map_cons, List.sum_cons, ih, hK p]; push_cast; rfl
  have hsumI : (((List.range ins.length).map (fun p => (K p : Int))).sum : Int) = (((List.range ins.length).map K).sum : Nat) := by
    generalize List.range ins.length = l
    induction l with
    | nil => simp
    | cons p l ih => simp only [List.map_cons, List.sum_cons, ih]; push_cast; rfl
  have hle2 : ((List.range ins.length).map (sentBy L)).sum ≤ ((allVerts ins).map (weightOf ins own)).sum := by
    rw [total_eq_loads]
    apply List.sum_le_sum
    intro p hp
    have hp := List.mem_range.mp hp
    exact sentBy_le hd hf hp (hle p hp)
  have hlt : ((List.range ins.length).map K).sum < 2147483648 := by
    have h1 : ((((List.range ins.length).map K).sum : Nat) : Rat) < ((2147483648 : Nat) : Rat) := by
      rw [← hsum]; push_cast; linarith
    exact_mod_cast h1
  refine ⟨((List.range ins.length).map K).sum, ?_, by rw [hsum]⟩
  unfold numMigrate
  rw [List.mapM_map, mapM_ok (g := fun p => (K p : Int))]
  · rw [Outcome.bind_ok, hsumI]
    exact toInt32_nat hlt
  · intro p hp
    show toInt32 (S p).planW = _
    rw [← hS p (List.mem_range.mp hp), hK p]
    apply toInt32_nat
    refine lt_of_le_of_lt ?_ hlt
    exact List.single_le_sum (fun x _ => Nat.zero_le x) _ (List.mem_map.mpr ⟨p, hp, rfl⟩)

/-- whatever the vertex weights, the plans of a step exist and are as they should be -/
def Plans (H : List (List HEdge)) (ins : List Input) (own : Gid → Nat) (par : WPar) : Prop :=
  ∀ ins', (ins' = ins ∨ ∃ f, ins' = reweigh ins f) → ∀ gs, (∀ v ∈ allVerts ins', 0 ≤ weightOf ins' own v) →
    World gs ins' own → ((allVerts ins').map (weightOf ins' own)).sum < 2147483648 →
    ∀ env : WStepEnv, env.Ok ins'.length → ∀ st : Int,
    ∃ (S : Nat → WSel) (L : Transfers), wPlanAll par env st gs = .ok ((List.range ins'.length).map S) ∧
      (∀ p (hg : p < gs.length) (hp : p < ins'.length), WPlanOf ins' own gs[p] p ins'[p] (S p).plan (L p)) ∧
      FairStep H ins' own par.stepFactor (startLoad ins' own) L ∧
      (∀ p (hp : p < ins'.length), ∀ v ∈ ins'[p].verts, moved (L p) (fun a _ => a = v) ≤ weightOf ins' own v) ∧
      ∀ p, p < ins'.length → sentBy L p = (S p).planW

theorem Plans.reweigh (h : Plans H ins own par) (f : Gid → Wgt) : Plans H (reweigh ins f) own par := by
  intro ins' hi
  apply h ins'
  rcases hi with rfl | ⟨f', rfl⟩
  · exact .inr ⟨f, rfl⟩
  · exact .inr ⟨f', by rw [reweigh_again]⟩

theorem plans_hyper (hd : HDist H ins own) (hnn : NonNeg H ins own)
    (ht : par.type < H.length) (hint : ∀ e ∈ H.getD par.type [], ∃ w : Int, e.w = (w : Rat) ∧ 0 < w)
    (hsf : 0 < par.stepFactor) : Plans H ins own par := by
  intro ins' hi gs hv hw htot env he st
  have hd' : HDist H ins' own := by
    rcases hi with rfl | ⟨f, rfl⟩
    · exact hd
    · exact hdist_reweigh hd
  exact wPlanAll_world hd' ⟨hv, hnn.edges⟩ hw ht hint hsf htot he st


/-- the conditions under which a step is taken -/
structure WSpot (H : List (List HEdge)) (ins : List Input) (own : Gid → Nat) (gs : List Graph) (par : WPar) : Prop where
  dist : WDist H ins own
  nn : ∀ v ∈ allVerts ins, 0 ≤ weightOf ins own v
  world : World gs ins own
  plans : Plans H ins own par
  total : ((allVerts ins).map (weightOf ins own)).sum < 2147483648

/-- a step that migrates -/
structure WMoved (H : List (List HEdge)) (ins : List Input) (own : Gid → Nat) (gs gs' : List Graph) (par : WPar)
    (wp wp' : Nat → WpMap) (r : StepRec) (L : Transfers) : Prop where
  spot : WSpot H (reweigh ins (wNext ins own L)) own gs' par
  same : ∀ p (h : p < gs.length) (h' : p < gs'.length), { gs'[p] with weights := gs[p].weights } = gs[p]
  fair : FairStep H ins own par.stepFactor (startLoad ins own) L
  moved : (r.moved : Rat) = ((List.range ins.length).map (sentBy L)).sum
  wp : ∀ p, p < ins.length → ∀ a b, wp' p a b = wp p a b + (Verif.Part.moved (L p) (fun x y => x = a ∧ y = b) -
        ((List.range ins.length).map (fun q => Verif.Part.moved (L q) (fun x y => own y = p ∧ x = b ∧ y = a))).sum)

theorem wRunStep_world (h : WSpot H ins own gs par) {env : WStepEnv} (he : env.Ok ins.length) (st : Int)
    {wp : Nat → WpMap} {sd : SDSlope} {hist : List Dbl} (hsd : SdIs sd hist) :
    ∃ gs' wp' sd' r, wRunStep par env st ⟨gs, (List.range ins.length).map wp, sd⟩ =
        .ok (⟨gs', (List.range ins.length).map wp', sd'⟩, r) ∧ StepMeans par.tol (hist ++ [r.imb]) r ∧
      r.imb = imbalance ((List.range ins.length).map (startLoad ins own)) ∧
      (r.rc ≠ 0 → gs' = gs ∧ wp' = wp) ∧
      (r.rc = 0 → SdIs sd' (hist ++ [r.imb]) ∧ ∃ L, WMoved H ins own gs gs' par wp wp' r L) := by
  have hpw : partWeights gs (-1) false = .ok ((List.range ins.length).map (startLoad ins own)) := by
    unfold partWeights
    have hgs := list_range gs (emptyGraph 0 0)
    rw [h.world.1] at hgs
    rw [hgs]
    apply mapM_range
    intro p hp
    have hg : p < gs.length := by rw [h.world.1]; exact hp
    rw [List.getD_eq_getElem?_getD, List.getElem?_eq_getElem hg, Option.getD_some, partWeight_local h.dist h.world hg hp]
    unfold startLoad
    rw [getD_ins hp]
  unfold wRunStep
  dsimp only
  rw [hpw, Outcome.bind_ok]
  by_cases hlt : Dbl.lt (imbalance ((List.range ins.length).map (startLoad ins own))) (some par.tol) = true
  · rw [if_pos hlt]
    rw [dblLt_iff] at hlt
    exact ⟨gs, wp, sd, _, rfl, ⟨by simpa using hlt, by simp [hlt], by simp [hlt], by simp⟩, rfl, fun _ => ⟨rfl, rfl⟩,
      by simp⟩
  · rw [if_neg hlt]
    rw [dblLt_iff] at hlt
    obtain ⟨sd', e1, hsd'⟩ := hsd.push (imbalance ((List.range ins.length).map (startLoad ins own)))
    obtain ⟨b, e2, hb⟩ := stagnant_iff hsd'
    rw [e1, Outcome.bind_ok, e2, Outcome.bind_ok]
    by_cases hs : b = true
    · rw [if_pos hs]
      rw [hb] at hs
      exact ⟨gs, wp, sd', _, rfl, ⟨by simpa using hlt, by simp [hlt, hs], by simp [hs], by simp⟩, rfl,
        fun _ => ⟨rfl, rfl⟩, by simp⟩
    · rw [if_neg hs]
      rw [hb] at hs
      obtain ⟨S, L, e3, hplan, hfair, hle, hS⟩ := h.plans ins (.inl rfl) gs h.nn h.world h.total env he st
      obtain ⟨k, e4, hk⟩ := numMigrate_eq h.dist h.total hfair hle hS
      unfold wPlanStep
      dsimp only
      rw [e3, Outcome.bind_ok, e4, Outcome.bind_ok]
      by_cases hk0 : 0 < k
      · rw [if_pos (by exact_mod_cast hk0)]
        obtain ⟨gs', wp', e5, hw', hsame, hwp⟩ := wMigrate_world h.dist h.world he.mig (wp := wp) (sd := sd') hplan
        rw [e5, Outcome.bind_ok]
        have hd' : WDist H (reweigh ins (wNext ins own L)) own := wdist_reweigh h.dist
        refine ⟨gs', wp', sd', _, rfl, ⟨by simpa using hlt, by simp [hs], by simp [hlt, hs]; omega, ?_⟩, rfl, by simp,
          fun _ => ⟨hsd', L, ⟨hd', ?_, hw', h.plans.reweigh _, ?_⟩, hsame, hfair, ?_, ?_⟩⟩
        · simp only [Int.toNat_natCast, true_iff]
          exact hk0
        · intro v hv
          rw [allVerts_reweigh] at hv
          have h0 := wNext_nonneg (L := L) h.dist hle v hv
          obtain ⟨p, hp, hv'⟩ := mem_allVerts.mp hv
          rw [weightOf_reweigh h.dist hp hv']
          exact h0
        · rw [total_next h.dist hfair]
          exact h.total
        · simp only [Int.toNat_natCast]
          exact hk
        · intro p hp a b
          rw [hwp p hp a b]
          ring
      · have hk1 : k = 0 := by omega
        subst hk1
        rw [if_neg (by simp), if_pos (by simp)]
        exact ⟨gs, wp, sd', _, rfl, ⟨by simpa using hlt, by simp [hs], by simp [hlt, hs], by simp⟩, rfl,
          fun _ => ⟨rfl, rfl⟩, by simp⟩

/-! ## all steps -/

theorem FairStep.congr (hd : WDist H ins own) {L : Transfers} {W' : Nat → Rat} (hf : FairStep H ins own sf W L)
    (h : ∀ p, p < ins.length → W p = W' p) : FairStep H ins own sf W' L := by
  refine ⟨hf.between, ?_, ?_⟩
  · intro p hp x hx
    rw [← h p hp, ← h _ (fair_dest hd hf hp x hx)]
    exact hf.downhill p hp x hx
  · intro p q hp hq hqp
    rw [← h p hp, ← h q hq]
    exact hf.bounded p q hp hq hqp

theorem FairStep.reweigh {f : Gid → Wgt} {L : Transfers} (hf : FairStep H (reweigh ins f) own sf W L) :
    FairStep H ins own sf W L := by
  refine ⟨?_, ?_, ?_⟩
  · intro p hp x hx
    have := hf.between p (by simpa using hp) x hx
    rw [reweigh_get] at this
    exact this
  · intro p hp
    exact hf.downhill p (by simpa using hp)
  · intro p q hp hq
    exact hf.bounded p q (by simpa using hp) (by simpa using hq)

theorem loadAfter_cons (hd : WDist H ins own) {L : Transfers} (hf : FairStep H ins own sf W L) (ts : List Transfers)
    {p : Nat} (hp : p < ins.length) :
    loadAfter ins own (L :: ts) p = loadAfter (Verif.Part.reweigh ins (wNext ins own L)) own ts p := by
  unfold loadAfter
  rw [load_next hd hf hp, reweigh_length, List.map_cons, List.sum_cons]
  ring

theorem weightAfter_cons (hd : WDist H ins own) {L : Transfers} (ts : List Transfers) {v : Gid} (hv : v ∈ allVerts ins) :
    weightAfter ins own (L :: ts) v = weightAfter (Verif.Part.reweigh ins (wNext ins own L)) own ts v := by
  obtain ⟨p, hp, hv⟩ := mem_allVerts.mp hv
  have hp' : p < (Verif.Part.reweigh ins (wNext ins own L)).length := by simpa using hp
  unfold weightAfter
  rw [weightOf_reweigh hd hp hv, wNext_eq hd hp hv, reweigh_length, hd.verts p hp v hv, getD_ins hp, getD_ins hp',
    reweigh_get hp', List.map_cons, List.sum_cons]
  ring

/-- the whole run -/
structure WRun (H : List (List HEdge)) (ins : List Input) (own : Gid → Nat) (gs gs' : List Graph) (par : WPar)
    (n : Nat) (hist : List Dbl) (rs : List StepRec) (ts : List Transfers) : Prop where
  final : ∃ f : Gid → Wgt, WSpot H (reweigh ins f) own gs' par ∧
    (∀ p, p < ins.length → startLoad (reweigh ins f) own p = loadAfter ins own ts p) ∧
    ∀ v ∈ allVerts ins, f v = weightAfter ins own ts v
  same : ∀ p (h : p < gs.length) (h' : p < gs'.length), { gs'[p] with weights := gs[p].weights } = gs[p]
  steps : ∀ k (h : k < rs.length), StepMeans par.tol (hist ++ (rs.take (k + 1)).map StepRec.imb) rs[k] ∧
    (k + 1 < rs.length → rs[k].rc = 0) ∧
    rs[k].imb = imbalance ((List.range ins.length).map (loadAfter ins own (ts.take k))) ∧
    (rs[k].rc = 0 ↔ k < ts.length)
  count : rs.length ≤ n ∧ ts.length ≤ rs.length
  ends : rs.length = n ∨ ∃ r, rs.getLast? = some r ∧ r.rc ≠ 0
  fair : ∀ k (h : k < ts.length), FairStep H ins own par.stepFactor (loadAfter ins own (ts.take k)) ts[k] ∧
    ∀ r, rs[k]? = some r → (r.moved : Rat) = ((List.range ins.length).map (sentBy ts[k])).sum

theorem wRun_nil (h : WSpot H ins own gs par) (hist : List Dbl) : WRun H ins own gs gs par 0 hist [] [] := by
  refine ⟨⟨weightOf ins own, ?_, ?_, ?_⟩, ?_, by simp, by simp, by simp, by simp⟩
  · have hd := h.dist
    have hwo : ∀ v ∈ allVerts ins, weightOf (reweigh ins (weightOf ins own)) own v = weightOf ins own v := by
      intro v hv
      obtain ⟨p, hp, hv'⟩ := mem_allVerts.mp hv
      exact weightOf_reweigh hd hp hv'
    refine ⟨wdist_reweigh hd, ?_, world_reweigh hd h.world, h.plans.reweigh _, ?_⟩
    · intro v hv
      rw [allVerts_reweigh] at hv
      rw [hwo v hv]
      exact h.nn v hv
    · rw [allVerts_reweigh, List.map_congr_left hwo]
      exact h.total
  · intro p hp
    have hp' : p < (reweigh ins (weightOf ins own)).length := by simpa using hp
    unfold loadAfter startLoad
    rw [getD_ins hp', getD_ins hp, reweigh_get hp']
    simp only [List.map_nil, List.sum_nil, add_zero]
    congr 1
    apply List.map_congr_left
    intro v hv
    exact weightOf_reweigh h.dist hp hv
  · intro v _; unfold weightAfter; simp
  · intro p h1 h2; rfl

theorem wRunSteps_world {env : Nat → WStepEnv} (st : Int) : ∀ (n k : Nat) (ins : List Input) (gs : List Graph)
    (wp : Nat → WpMap) (sd : SDSlope) (hist : List Dbl), WSpot H ins own gs par → (∀ k, (env k).Ok ins.length) →
    SdIs sd hist → ∃ gs' wp' sd' rs ts,
      wRunSteps par env st n k ⟨gs, (List.range ins.length).map wp, sd⟩ =
        .ok (⟨gs', (List.range ins.length).map wp', sd'⟩, rs) ∧ WRun H ins own gs gs' par n hist rs ts ∧
      ∀ p, p < ins.length → ∀ a b, wp' p a b = wp p a b + (ts.map (fun L => moved (L p) (fun x y => x = a ∧ y = b) -
        ((List.range ins.length).map (fun q => moved (L q) (fun x y => own y = p ∧ x = b ∧ y = a))).sum)).sum
  | 0, k, ins, gs, wp, sd, hist, h, he, hsd => by
    exact ⟨gs, wp, sd, [], [], rfl, wRun_nil h hist, by simp⟩
  | n + 1, k, ins, gs, wp, sd, hist, h, he, hsd => by
    obtain ⟨gs1, wp1, sd1, r, e1, hm, himb, hstop, hgo⟩ := wRunStep_world h (he k) st (wp := wp) hsd
    unfold wRunSteps
    rw [e1, Outcome.bind_ok]
    have hload0 : loadAfter ins own [] = startLoad ins own := by
      funext p; unfold loadAfter; simp
    by_cases hrc : r.rc = 0
    · obtain ⟨hsd1, L, hL⟩ := hgo hrc
      obtain ⟨gs', wp', sd', rs, ts, e2, hrun, hwp⟩ := wRunSteps_world st n (k + 1) (reweigh ins (wNext ins own L)) gs1 wp1 sd1
        (hist ++ [r.imb]) hL.spot (by simpa using he) hsd1
      rw [reweigh_length] at e2 hwp
      dsimp only
      rw [if_pos hrc, e2, Outcome.bind_ok]
      have hlc : ∀ us, ∀ p, p < ins.length → loadAfter ins own (L :: us) p =
          loadAfter (reweigh ins (wNext ins own L)) own us p := fun us p hp => loadAfter_cons h.dist hL.fair us hp
      refine ⟨gs', wp', sd', r :: rs, L :: ts, rfl, ⟨?_, ?_, ?_, ?_, ?_, ?_⟩, ?_⟩
      · obtain ⟨f, h1, h2, h3⟩ := hrun.final
        rw [reweigh_again] at h1 h2
        rw [reweigh_length] at h2
        rw [allVerts_reweigh] at h3
        exact ⟨f, h1, fun p hp => by rw [h2 p hp, hlc ts p hp], fun v hv => by rw [h3 v hv, weightAfter_cons h.dist ts hv]⟩
      · intro p h1 h2
        have hl1 : p < gs1.length := by rw [hL.spot.world.1, reweigh_length, ← h.world.1]; exact h1
        have a1 := hL.same p h1 hl1
        have a2 := hrun.same p hl1 h2
        rw [← a1]
        conv_rhs => rw [← a2]
      · intro j hj
        cases j with
        | zero =>
          simp only [List.getElem_cons_zero, List.take_succ_cons, List.take_zero, List.map_cons, List.map_nil]
          exact ⟨hm, fun _ => hrc, by rw [hload0]; exact himb, by simp [hrc]⟩
        | succ j =>
          have hj' : j < rs.length := by simpa using hj
          obtain ⟨q1, q2, q3, q4⟩ := hrun.steps j hj'
          simp only [List.getElem_cons_succ, List.take_succ_cons, List.map_cons]
          refine ⟨by simpa using q1, fun hh => q2 (by simpa using hh), ?_, by rw [q4]; simp⟩
          rw [q3, reweigh_length]
          congr 1
          apply List.map_congr_left
          intro p hp
          rw [hlc _ p (List.mem_range.mp hp)]
      · have := hrun.count
        simp only [List.length_cons]
        omega
      · rcases hrun.ends with hh | ⟨r', hr', hne⟩
        · left; simp [hh]
        · right
          refine ⟨r', ?_, hne⟩
          rw [List.getLast?_cons, hr']
          rfl
      · intro j hj
        cases j with
        | zero =>
          simp only [List.getElem_cons_zero, List.take_zero]
          refine ⟨by rw [hload0]; exact hL.fair, ?_⟩
          intro r' hr'
          simp only [List.getElem?_cons_zero, Option.some.injEq] at hr'
          subst hr'
          exact hL.moved
        | succ j =>
          have hj' : j < ts.length := by simpa using hj
          obtain ⟨q1, q2⟩ := hrun.fair j hj'
          simp only [List.getElem_cons_succ, List.take_succ_cons, List.getElem?_cons_succ]
          refine ⟨(q1.reweigh).congr h.dist (fun p hp => (hlc _ p hp).symm), ?_⟩
          intro r' hr'
          rw [q2 r' hr', reweigh_length]
      · intro p hp a b
        rw [hwp p hp a b, hL.wp p hp a b, List.map_cons, List.sum_cons]
        ring
    · obtain ⟨h1, h2⟩ := hstop hrc
      dsimp only
      rw [if_neg hrc, h1, h2]
      have hrun0 := wRun_nil h hist
      refine ⟨gs, wp, sd1, [r], [], rfl, ⟨hrun0.final, hrun0.same, ?_, by simp, ?_, by simp⟩, by simp⟩
      · intro j hj
        have hj0 : j = 0 := by simpa using hj
        subst hj0
        simp only [List.getElem_cons_zero, List.take_succ_cons, List.take_zero, List.map_cons, List.map_nil]
        exact ⟨hm, by simp, by rw [hload0]; exact himb, by simp [hrc]⟩
      · right; exact ⟨r, rfl, hrc⟩

end
end Verif.Part
