import Verif.Part.AcceptLemmas
import Verif.Part.CancelLemmas
import Verif.Agi.MigList
/-!
# `trim` and `cancel` over all parts
-/
namespace Verif.Part
open Verif.Agi

/-- one part: its graph, its plan, and what the API answers about them -/
structure PartView where
  g : Graph
  plan : Plan
  vs : List Gid
  hnd : Gid → Handle
  wt : Gid → Rat
  inc : Gid → Nat → List Handle
  res : Handle → Part → Bool
  ew : Handle → Rat
  s : List Gid
  f : Gid → Option Part

def PartView.dest (x : PartView) (v : Gid) : Part := (x.f v).getD (-1)

/-- the load that the vertices `us` of the part are for part `d` -/
def PartView.load (x : PartView) (dim : Int) (d : Part) (us : List Gid) : Rat :=
  Part.load x.wt x.inc x.res x.ew dim d (going x.dest d us)

structure PartView.Ok (x : PartView) (dims : List Int) (n : Nat) : Prop where
  facts : Facts x.g x.vs x.hnd dims x.wt x.inc x.res x.ew
  wt0 : ∀ v ∈ x.vs, 0 ≤ x.wt v
  ew0 : ∀ e, 0 ≤ x.ew e
  numLocal : x.g.numLocal = x.vs.length
  nodup : x.vs.Nodup
  handles : ∀ v ∈ x.vs, x.hnd v = getVertex (x.vs.idxOf v)
  plan : PlanRep x.vs x.plan x.s x.f
  range : ∀ v ∈ x.s, 0 ≤ x.dest v ∧ x.dest v < n

theorem keys_fun {β : Type} (d0 : β) : ∀ {l : List (Nat × β)}, (l.map Prod.fst).Nodup →
    ∃ c : Nat → β, l = (l.map Prod.fst).map (fun p => (p, c p)) := by
  intro l h
  refine ⟨fun p => ((l.find? (fun a => decide (a.1 = p))).map Prod.snd).getD d0, ?_⟩
  rw [List.map_map]
  conv_lhs => rw [← List.map_id l]
  apply List.map_congr_left
  intro a ha
  have : l.find? (fun b => decide (b.1 = a.1)) = some a := by
    rw [List.find?_eq_some_iff_append]
    obtain ⟨l1, l2, rfl⟩ := List.append_of_mem ha
    refine ⟨by simp, l1, l2, rfl, ?_⟩
    intro b hb
    rw [List.map_append, List.nodup_append] at h
    have := h.2.2 b.1 (List.mem_map.mpr ⟨b, hb, rfl⟩) a.1 (by simp)
    simpa using this
  simp [this]

theorem inbox_map {M : Type} {n : Nat} {nb : Nat → List Part} {F : Nat → Part → M} (hn : ∀ p, p < n → (nb p).Nodup)
    {ord : Nat → List Nat} (ho : Orders n ord) {q : Nat} (hq : q < n) :
    inbox ((List.range n).map (fun p => (nb p).map (fun d => (d, F p d)))) (ord q) q =
      ((ord q).filter (fun p => decide ((q : Int) ∈ nb p))).map (fun p => (p, F p q)) := by
  unfold inbox
  have hl : ∀ p ∈ ord q, p < n := fun p hp => List.mem_range.mp ((ho q hq).mem_iff.mp hp)
  generalize ord q = l at hl
  induction l with
  | nil => rfl
  | cons a l ih =>
    have ha := hl a (by simp)
    rw [List.flatMap_cons, ih (fun p hp => hl p (by simp [hp])), getD_range _ ha, List.filter_map, List.map_map]
    have hf : ((nb a).filter ((fun m : Part × M => decide (m.1 = (q : Int))) ∘ fun d => (d, F a d))) =
        if (q : Int) ∈ nb a then [(q : Int)] else [] := by
      have h1 : ((fun m : Part × M => decide (m.1 = (q : Int))) ∘ fun d => (d, F a d)) = fun d => d == (q : Int) := by
        funext d; simp [Function.comp]; rfl
      rw [h1, List.filter_beq]
      have := List.nodup_iff_count.mp (hn a ha) (q : Int)
      split
      · rename_i hm
        have h2 := List.count_pos_iff.mpr hm
        have : List.count (q : Int) (nb a) = 1 := by omega
        rw [this]; rfl
      · rename_i hm
        rw [List.count_eq_zero_of_not_mem hm]; rfl
    rw [hf, List.filter_cons]
    by_cases hm : (q : Int) ∈ nb a
    · simp [hm]
    · simp [hm]

theorem total_map (i : Nat) (l : List Nat) (c : Nat → List Rat) :
    total i (l.map (fun p => (p, c p))) = (l.map (fun p => (c p).getD i 0)).sum := by
  unfold total; rw [List.map_map]; rfl

theorem total_perm {i : Nat} {a b : List (Nat × List Rat)} (h : a.Perm b) : total i a = total i b :=
  (h.map _).sum_eq

theorem availability_eq {g : Graph} {dims : List Int} {limits : List Rat} {cg : Bool} {W : Nat → Rat}
    (hlim : dims.length ≤ limits.length)
    (hW : ∀ i, i < dims.length → getWeight g (dims.getD i 0) cg = .ok (W i)) :
    ∃ av : List Rat, av = (List.range dims.length).map (fun i => limits.getD i 0 - W i) ∧
      availability g dims limits cg = .ok (av, av.all (fun a => decide (0 ≤ a))) := by
  refine ⟨_, rfl, ?_⟩
  unfold availability
  rw [mapM_ok (g := fun i => limits.getD i 0 - W i)]
  · rfl
  · intro i hi
    have hi := List.mem_range.mp hi
    have h1 : rd dims i = .ok (dims.getD i 0) := by
      rw [rd_ok hi, List.getD_eq_getElem?_getD, List.getElem?_eq_getElem hi]; rfl
    have h2 : rd limits i = .ok (limits.getD i 0) := by
      rw [rd_ok (show i < limits.length by omega), List.getD_eq_getElem?_getD, List.getElem?_eq_getElem (by omega)]; rfl
    rw [h1, Outcome.bind_ok, h2, Outcome.bind_ok, hW i hi, Outcome.bind_ok]
    rfl

section
variable {n : Nat} {X : Nat → PartView} {dims : List Int} {limits : List Rat} {cg : Bool}

/-- what part `p` offers to part `q` -/
def offerOf (X : Nat → PartView) (dims : List Int) (p : Nat) (q : Part) : List Rat :=
  offer dims (X p).wt (X p).inc (X p).res (X p).ew q (going (X p).dest q (X p).s)

/-- part `p` plans to send vertices to part `q` -/
def Sends (X : Nat → PartView) (p : Nat) (q : Part) : Prop := ∃ v ∈ (X p).s, (X p).dest v = q

theorem offerOf_length (p : Nat) (q : Part) : (offerOf X dims p q).length = dims.length := by simp [offerOf, offer]

theorem offerOf_nonneg (hX : ∀ p, p < n → (X p).Ok dims n) {p : Nat} (hp : p < n) (q : Part) (i : Nat) :
    0 ≤ (offerOf X dims p q).getD i 0 := by
  have h := hX p hp
  by_cases hi : i < dims.length
  · unfold offerOf
    rw [offer_getD hi]
    apply mul_nonneg
    · split <;> simp
    · apply load_nonneg h.wt0 h.ew0
      intro v hv
      exact ((h.plan.mem v).mp (List.mem_filter.mp hv).1).1
  · rw [List.getD_eq_getElem?_getD, List.getElem?_eq_none (by rw [offerOf_length]; omega)]; simp

/-- the whole negotiation: what `kept` is, per part -/
theorem trimCancel_spec (hX : ∀ p, p < n → (X p).Ok dims n) (hd : 0 < dims.length) (hd5 : dims.length ≤ 5)
    (hlim : dims.length ≤ limits.length) {W : Nat → Nat → Rat}
    (hW : ∀ p, p < n → ∀ i, i < dims.length → getWeight (X p).g (dims.getD i 0) cg = .ok (W p i))
    {o1 o2 : Nat → List Nat} (ho1 : Orders n o1) (ho2 : Orders n o2) :
    ∃ (plans' : Nat → Plan) (kept : Nat → List Gid),
      trimCancel ((List.range n).map (fun p => (X p).g)) ((List.range n).map (fun p => (X p).plan)) dims limits cg o1 o2 =
        .ok ((List.range n).map plans') ∧
      (∀ p, p < n → (kept p).Sublist (X p).s ∧
        PlanRep (X p).vs (plans' p) (kept p) (fun v => if v ∈ kept p then (X p).f v else none)) ∧
      (∀ q, q < n → ∀ i, i < dims.length →
        ((List.range n).map (fun p => (X p).load (dims.getD i 0) q (kept p))).sum ≤ max 0 (limits.getD i 0 - W q i)) ∧
      (∀ q, q < n → (∀ i, i < dims.length →
          ((List.range n).map (fun p => (offerOf X dims p q).getD i 0)).sum ≤ limits.getD i 0 - W q i) →
        ((List.range n).map (fun p => (offerOf X dims p q).getD (dims.length - 1) 0)).sum <
          limits.getD (dims.length - 1) 0 - W q (dims.length - 1) →
        ∀ p, p < n → going (X p).dest q (kept p) = going (X p).dest q (X p).s) := by
  -- the offers
  have hoff : ∀ p, ∃ nbrs : List Part, p < n → nbrs.Nodup ∧ (∀ d, d ∈ nbrs ↔ Sends X p d) ∧
      offers (X p).g dims (X p).plan = .ok (nbrs.map (fun d => (d, offerOf X dims p d))) := by
    intro p
    by_cases hp : p < n
    · have h := hX p hp
      have hs : ∀ v ∈ (X p).s, v ∈ (X p).vs := fun v hv => ((h.plan.mem v).mp hv).1
      obtain ⟨nb, h1, h2, h3⟩ := offers_spec h.facts (f := (X p).dest) (plan := (X p).plan) (s := (X p).s) hs
        (by
          rw [h.plan.sending]
          apply List.map_congr_left
          intro v hv
          rw [h.handles v (hs v hv)])
        (by
          intro v hv
          rw [h.handles v (hs v hv)]
          exact planGet_eq h.plan h.numLocal (hs v hv))
      exact ⟨nb, fun _ => ⟨h1, h2, h3⟩⟩
    · exact ⟨[], fun h => absurd h hp⟩
  choose nb hnb using hoff
  -- the answers
  have hans : ∀ q, ∃ acc : List (Nat × List Rat), q < n →
      answers (X q).g dims limits cg (inbox ((List.range n).map (fun p => (nb p).map (fun d => (d, offerOf X dims p d)))) (o1 q) q) =
        .ok (acc.map (fun a => ((a.1 : Int), a.2))) ∧
      (acc.map Prod.fst).Perm ((List.range n).filter (fun p => decide ((q : Int) ∈ nb p))) ∧
      (∀ a ∈ acc, a.2.length = dims.length ∧ ∀ i, 0 ≤ a.2.getD i 0) ∧
      (∀ i, i < dims.length → total i acc ≤ max 0 (limits.getD i 0 - W q i)) ∧
      ((∀ i, i < dims.length →
          ((List.range n).map (fun p => (offerOf X dims p q).getD i 0)).sum ≤ limits.getD i 0 - W q i) →
        ((List.range n).map (fun p => (offerOf X dims p q).getD (dims.length - 1) 0)).sum <
          limits.getD (dims.length - 1) 0 - W q (dims.length - 1) → ∀ a ∈ acc, a.2 = offerOf X dims a.1 q) := by
    intro q
    by_cases hq : q < n
    swap
    · exact ⟨[], fun h => absurd h hq⟩
    have hin := inbox_map (F := offerOf X dims) (fun p hp => (hnb p hp).1) ho1 hq
    have hperm : ((o1 q).filter (fun p => decide ((q : Int) ∈ nb p))).Perm
        ((List.range n).filter (fun p => decide ((q : Int) ∈ nb p))) := (ho1 q hq).filter _
    generalize hsd : (o1 q).filter (fun p => decide ((q : Int) ∈ nb p)) = sd at hin hperm
    rw [hin]
    have hsn : ∀ p ∈ sd, p < n := by
      intro p hp
      exact List.mem_range.mp (List.mem_filter.mp (hperm.mem_iff.mp hp)).1
    have hnd : sd.Nodup := hperm.nodup_iff.mpr (List.nodup_range.filter _)
    have hfst : (sd.map (fun p => (p, offerOf X dims p q))).map Prod.fst = sd := by
      rw [List.map_map]; simp [Function.comp_def]
    obtain ⟨inc', e1, hp1⟩ := receive_perm hd hd5 (sd.map (fun p => (p, offerOf X dims p q))) [] [] (List.Perm.refl _)
      (by
        intro m hm
        simp only [List.nil_append] at hm
        obtain ⟨p, -, rfl⟩ := List.mem_map.mp hm
        exact offerOf_length p q)
      (by rw [List.nil_append, hfst]; exact hnd)
    rw [List.nil_append] at hp1
    obtain ⟨av, hav, e2⟩ := availability_eq (cg := cg) hlim (hW q hq)
    have havl : av.length = dims.length := by rw [hav]; simp
    have havg : ∀ i, i < dims.length → av.getD i 0 = limits.getD i 0 - W q i := by
      intro i hi; rw [hav, getD_range _ hi]
    have hms : ∀ m ∈ inc', m.2.length = av.length ∧ ∀ i, 0 ≤ m.2.getD i 0 := by
      intro m hm
      obtain ⟨p, hp, rfl⟩ := List.mem_map.mp (hp1.mem_iff.mp hm)
      exact ⟨by rw [offerOf_length, havl], fun i => offerOf_nonneg hX (hsn p hp) _ i⟩
    obtain ⟨h1, h2, h3⟩ := accept_spec av inc' hms
    refine ⟨acceptWeight inc' (av.all (fun a => decide (0 ≤ a))) av, fun _ => ⟨?_, ?_, ?_, ?_, ?_⟩⟩
    · unfold answers
      rw [e1, Outcome.bind_ok, e2]
      rfl
    · rw [h1]
      exact ((hp1.map Prod.fst).trans (by rw [hfst])).trans hperm
    · intro a ha; rw [← havl]; exact h2 a ha
    · intro i hi; rw [← havg i hi]; exact h3 i
    · intro hfit hslack
      have hsub : ∀ i, total i inc' ≤ ((List.range n).map (fun p => (offerOf X dims p q).getD i 0)).sum := by
        intro i
        rw [total_perm hp1, total_map]
        refine (sum_subset (F := fun p => (offerOf X dims p q).getD i 0) hnd (fun p hp => List.mem_range.mpr (hsn p hp))
          ?_ ).trans (le_of_eq rfl)
        intro p hp
        exact offerOf_nonneg hX (List.mem_range.mp hp) _ i
      have := accept_all av (by intro hc; rw [hc] at havl; simp at havl; omega) inc' hms
        (by
          intro i
          by_cases hi : i < dims.length
          · rw [havg i hi]; exact (hsub i).trans (hfit i hi)
          · rw [List.getD_eq_getElem?_getD, List.getElem?_eq_none (by omega)]
            refine (hsub i).trans (le_of_eq ?_)
            apply List.sum_eq_zero
            intro x hx
            obtain ⟨p, -, rfl⟩ := List.mem_map.mp hx
            rw [List.getD_eq_getElem?_getD, List.getElem?_eq_none (by rw [offerOf_length]; omega)]; rfl)
        (by rw [havl, havg _ (by omega)]; exact lt_of_le_of_lt (hsub _) hslack)
      rw [this]
      intro a ha
      obtain ⟨p, -, rfl⟩ := List.mem_map.mp (hp1.mem_iff.mp ha)
      rfl
  choose acc hacc using hans
  have hkey : ∀ q, ∃ c : Nat → List Rat, q < n → acc q = ((acc q).map Prod.fst).map (fun p => (p, c p)) := by
    intro q
    by_cases hq : q < n
    · obtain ⟨c, hc⟩ := keys_fun ([] : List Rat) (l := acc q)
        ((hacc q hq).2.1.nodup_iff.mpr (List.nodup_range.filter _))
      exact ⟨c, fun _ => hc⟩
    · exact ⟨fun _ => [], fun h => absurd h hq⟩
  choose c hc using hkey
  have hcm : ∀ q, q < n → ∀ p ws, (p, ws) ∈ acc q ↔ p < n ∧ Sends X p q ∧ ws = c q p := by
    intro q hq p ws
    rw [hc q hq, List.mem_map]
    constructor
    · rintro ⟨p', hp', e⟩
      cases e
      have := List.mem_filter.mp ((hacc q hq).2.1.mem_iff.mp hp')
      have hpn := List.mem_range.mp this.1
      exact ⟨hpn, ((hnb p hpn).2.1 _).mp (by simpa using this.2), rfl⟩
    · rintro ⟨h1, h2, rfl⟩
      refine ⟨p, (hacc q hq).2.1.mem_iff.mpr (List.mem_filter.mpr ⟨List.mem_range.mpr h1, ?_⟩), rfl⟩
      simpa using ((hnb p h1).2.1 _).mpr h2
  -- the capacities
  have hcap : ∀ p, p < n → ∀ q : Nat, q < n → Sends X p q →
      capOf (inbox ((List.range n).map (fun q => (acc q).map (fun a => ((a.1 : Int), a.2)))) (o2 p) p) q = .ok (c q p) := by
    intro p hp q hq hs
    unfold capOf
    have hmem : ∀ x : Nat × List Rat, x ∈ inbox ((List.range n).map (fun q => (acc q).map (fun a => ((a.1 : Int), a.2)))) (o2 p) p ↔
        x.1 < n ∧ (p, x.2) ∈ acc x.1 := by
      intro x
      rw [mem_inbox_range ho2 hp]
      constructor
      · rintro ⟨h1, h2⟩
        obtain ⟨a, ha, e⟩ := List.mem_map.mp h2
        cases e' : a with
        | mk a1 a2 =>
          rw [e'] at e ha
          simp only [Prod.mk.injEq] at e
          have : a1 = p := by exact_mod_cast e.1
          exact ⟨h1, by rw [← this, ← e.2]; exact ha⟩
      · rintro ⟨h1, h2⟩
        exact ⟨h1, List.mem_map.mpr ⟨_, h2, rfl⟩⟩
    have hin := (hmem (q, c q p)).mpr ⟨hq, (hcm q hq p _).mpr ⟨hp, hs, rfl⟩⟩
    cases hfd : (inbox ((List.range n).map (fun q => (acc q).map (fun a => ((a.1 : Int), a.2)))) (o2 p) p).find?
        (fun x => decide ((x.1 : Int) = (q : Int))) with
    | none =>
      rw [List.find?_eq_none] at hfd
      exact absurd (by simp) (hfd _ hin)
    | some x =>
      have h1 := List.mem_of_find?_eq_some hfd
      have h2 := List.find?_some hfd
      have h3 : x.1 = q := by simpa using h2
      have h4 := (hmem x).mp h1
      rw [h3] at h4
      have := ((hcm q hq p _).mp h4.2).2.2
      rw [Option.map_some, this]; rfl
  -- what is kept
  have hdest : ∀ p, p < n → ∀ v ∈ (X p).s, ∀ d, (X p).f v = some d → ∃ q : Nat, d = q ∧ q < n ∧ Sends X p q := by
    intro p hp v hv d hd
    have h := (hX p hp).range v hv
    have hde : (X p).dest v = d := by unfold PartView.dest; rw [hd]; rfl
    rw [hde] at h
    refine ⟨d.toNat, by omega, by omega, v, hv, ?_⟩
    rw [hde]; omega
  have hcan : ∀ p, ∃ (plan' : Plan) (kept : List Gid), p < n →
      cancel (X p).g dims (X p).plan (inbox ((List.range n).map (fun q => (acc q).map (fun a => ((a.1 : Int), a.2)))) (o2 p) p) = .ok plan' ∧
      PlanRep (X p).vs plan' kept (fun v => if v ∈ kept then (X p).f v else none) ∧
      KeptOf dims (X p).wt (X p).inc (X p).res (X p).ew (X p).dest (fun d => c d.toNat p) (X p).s (X p).s kept := by
    intro p
    by_cases hp : p < n
    swap
    · exact ⟨(X p).plan, [], fun h => absurd h hp⟩
    have h := hX p hp
    obtain ⟨pl, k, h1, h2, h3⟩ := cancel_spec h.facts h.wt0 h.ew0 h.numLocal h.nodup h.handles h.plan
      (cap := inbox ((List.range n).map (fun q => (acc q).map (fun a => ((a.1 : Int), a.2)))) (o2 p) p)
      (capv := fun d => c d.toNat p) (by
        intro v hv d hd
        obtain ⟨q, rfl, hq, hs⟩ := hdest p hp v hv d hd
        refine ⟨by rw [Int.toNat_natCast]; exact hcap p hp q hq hs, ?_⟩
        rw [Int.toNat_natCast]
        exact ((hacc q hq).2.2.1 _ ((hcm q hq p _).mpr ⟨hp, hs, rfl⟩)).1)
    exact ⟨pl, k, fun _ => ⟨h1, h2, h3⟩⟩
  choose plans' kept hkept using hcan
  have hex1 : exchange ((List.range n).map (fun p => (nb p).map (fun d => (d, offerOf X dims p d)))) o1 =
      .ok ((List.range n).map (fun q => inbox ((List.range n).map (fun p => (nb p).map (fun d => (d, offerOf X dims p d)))) (o1 q) q)) := by
    apply exchange_range
    intro p hp m hm
    obtain ⟨d, hdd, rfl⟩ := List.mem_map.mp hm
    obtain ⟨v, hv, rfl⟩ := ((hnb p hp).2.1 d).mp hdd
    exact (hX p hp).range v hv
  have hex2 : exchange ((List.range n).map (fun q => (acc q).map (fun a => ((a.1 : Int), a.2)))) o2 =
      .ok ((List.range n).map (fun p => inbox ((List.range n).map (fun q => (acc q).map (fun a => ((a.1 : Int), a.2)))) (o2 p) p)) := by
    apply exchange_range
    intro q hq m hm
    obtain ⟨a, ha, rfl⟩ := List.mem_map.mp hm
    have : a.1 < n := ((hcm q hq a.1 a.2).mp ha).1
    simp only
    omega
  refine ⟨plans', kept, ?_, ?_, ?_, ?_⟩
  · unfold trimCancel trim
    rw [zip_range, mapM_range (G := fun p => (nb p).map (fun d => (d, offerOf X dims p d))) (fun p hp => (hnb p hp).2.2),
      Outcome.bind_ok, hex1, Outcome.bind_ok, zip_range,
      mapM_range (G := fun q => (acc q).map (fun a => ((a.1 : Int), a.2))) (fun q hq => (hacc q hq).1),
      Outcome.bind_ok, hex2, Outcome.bind_ok, zip_range, mapM_range (fun p hp => (hkept p hp).1)]
  · intro p hp
    exact ⟨(hkept p hp).2.2.sub, (hkept p hp).2.1⟩
  · intro q hq i hi
    have hA := hacc q hq
    refine le_trans ?_ (hA.2.2.2.1 i hi)
    rw [hc q hq, total_map, ((hA.2.1).map _).sum_eq]
    have hz : ∀ p, p < n → ¬ Sends X p q → (X p).load (dims.getD i 0) q (kept p) = 0 := by
      intro p hp hs
      have : going (X p).dest (q : Int) (kept p) = [] := by
        unfold going
        rw [List.filter_eq_nil_iff]
        intro v hv hcc
        exact hs ⟨v, (hkept p hp).2.2.sub.subset hv, by simpa using hcc⟩
      unfold PartView.load
      rw [this]
      unfold Part.load brought
      split <;> simp
    have hle : ∀ p, p < n → Sends X p q → (X p).load (dims.getD i 0) q (kept p) ≤ (c q p).getD i 0 := by
      intro p hp hs
      by_cases hg : going (X p).dest (q : Int) (kept p) = []
      · have h0 : (X p).load (dims.getD i 0) q (kept p) = 0 := by
          unfold PartView.load
          rw [hg]
          unfold Part.load brought
          split <;> simp
        rw [h0]
        exact (hA.2.2.1 _ ((hcm q hq p _).mpr ⟨hp, hs, rfl⟩)).2 i
      · have := (hkept p hp).2.2.fits q hg i hi
        rwa [Int.toNat_natCast] at this
    have : ∀ l : List Nat, (∀ p ∈ l, p < n) → (l.map (fun p => (X p).load (dims.getD i 0) q (kept p))).sum ≤
        ((l.filter (fun p => decide ((q : Int) ∈ nb p))).map (fun p => (c q p).getD i 0)).sum := by
      intro l
      induction l with
      | nil => intro _; simp
      | cons a l ih =>
        intro h
        have ih := ih (fun p hp => h p (by simp [hp]))
        have ha := h a (by simp)
        by_cases hm : (q : Int) ∈ nb a
        · have := hle a ha (((hnb a ha).2.1 _).mp hm)
          simp only [List.filter_cons, hm, decide_true, if_true, List.map_cons, List.sum_cons]
          linarith
        · have := hz a ha (fun hs => hm (((hnb a ha).2.1 _).mpr hs))
          simp only [List.filter_cons, hm, decide_false, Bool.false_eq_true, if_false, List.map_cons, List.sum_cons]
          linarith
    exact this _ (fun p hp => List.mem_range.mp hp)
  · intro q hq hfit hslack p hp
    have hall := (hacc q hq).2.2.2.2 hfit hslack
    by_cases hs : Sends X p q
    · apply (hkept p hp).2.2.all
      intro i _
      have := hall _ ((hcm q hq p _).mpr ⟨hp, hs, rfl⟩)
      simp only at this
      show _ ≤ (c (Int.toNat (q : Int)) p).getD i 0
      rw [Int.toNat_natCast, this]
      exact le_refl _
    · have h0 : going (X p).dest (q : Int) (X p).s = [] := by
        unfold going
        rw [List.filter_eq_nil_iff]
        intro v hv hcc
        exact hs ⟨v, hv, by simpa using hcc⟩
      rw [h0]
      unfold going at h0 ⊢
      have := ((hkept p hp).2.2.sub.filter (fun v => decide ((X p).dest v = (q : Int))))
      rw [h0] at this
      exact List.sublist_nil.mp this

end
end Verif.Part
