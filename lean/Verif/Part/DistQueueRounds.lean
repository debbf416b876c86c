import Verif.Part.DistQueueRound
import Verif.Part.DistQueueSpec
/-!
# The distance queue: distances, and the rounds of the second search
-/
namespace Verif.Part
open Verif.Agi

section
variable {nb : Nat → Nat → Prop}

theorem Within.mono {S : Nat → Prop} {n m e : Nat} (h : Within nb S n e) (hm : n ≤ m) : Within nb S m e := by
  induction hm with
  | refl => exact h
  | step _ ih => exact Or.inl ih

theorem IsDist.unique {S : Nat → Prop} {e n m : Nat} (h1 : IsDist nb S e n) (h2 : IsDist nb S e m) : n = m := by
  rcases Nat.lt_trichotomy n m with h | h | h
  · exact absurd h1.1 (h2.2 n h)
  · exact h
  · exact absurd h2.1 (h1.2 m h)

theorem SameComp.refl (e : Nat) : SameComp nb e e := ⟨0, rfl⟩

theorem SameComp.step {e f g : Nat} (h : SameComp nb e f) (hn : nb f g) : SameComp nb e g := by
  obtain ⟨n, h⟩ := h
  exact ⟨n + 1, Or.inr ⟨f, h, hn⟩⟩

theorem Within.trans {e f : Nat} {n : Nat} (h : SameComp nb e f) : ∀ {g}, Within nb (fun x => x = f) n g → SameComp nb e g := by
  induction n with
  | zero => intro g hg; have : g = f := hg; subst this; exact h
  | succ n ih =>
    rintro g (hg | ⟨x, hx, hn⟩)
    · exact ih hg
    · exact (ih hx).step hn

theorem SameComp.trans {e f g : Nat} (h1 : SameComp nb e f) (h2 : SameComp nb f g) : SameComp nb e g := by
  obtain ⟨n, h2⟩ := h2
  exact Within.trans h1 h2

theorem SameComp.symm (hs : ∀ a b, nb a b → nb b a) {e f : Nat} (h : SameComp nb e f) : SameComp nb f e := by
  obtain ⟨n, h⟩ := h
  induction n generalizing f with
  | zero => have : f = e := h; subst this; exact SameComp.refl _
  | succ n ih =>
    rcases h with h | ⟨x, hx, hn⟩
    · exact ih h
    · exact ((SameComp.refl f).step (hs _ _ hn)).trans (ih hx)

/-- distances within a component depend on the part of the set in that component only -/
theorem within_congr (hs : ∀ a b, nb a b → nb b a) {S S' : Nat → Prop} {c : Nat}
    (h : ∀ x, SameComp nb c x → (S x ↔ S' x)) : ∀ (n e : Nat), SameComp nb c e → (Within nb S n e ↔ Within nb S' n e) := by
  intro n
  induction n with
  | zero => intro e he; exact h e he
  | succ n ih =>
    intro e he
    constructor
    · rintro (h1 | ⟨f, h1, h2⟩)
      · exact Or.inl ((ih e he).mp h1)
      · exact Or.inr ⟨f, (ih f (he.step (hs _ _ h2))).mp h1, h2⟩
    · rintro (h1 | ⟨f, h1, h2⟩)
      · exact Or.inl ((ih e he).mpr h1)
      · exact Or.inr ⟨f, (ih f (he.step (hs _ _ h2))).mpr h1, h2⟩

theorem isDist_congr (hs : ∀ a b, nb a b → nb b a) {S S' : Nat → Prop} {c : Nat}
    (h : ∀ x, SameComp nb c x → (S x ↔ S' x)) {e n : Nat} (he : SameComp nb c e) :
    IsDist nb S e n ↔ IsDist nb S' e n := by
  unfold IsDist
  rw [within_congr hs h n e he]
  constructor
  · rintro ⟨h1, h2⟩
    exact ⟨h1, fun m hm hw => h2 m hm ((within_congr hs h m e he).mpr hw)⟩
  · rintro ⟨h1, h2⟩
    exact ⟨h1, fun m hm hw => h2 m hm ((within_congr hs h m e he).mp hw)⟩

end

section
variable {nl N : Nat} {adj : Nat → List Nat}

theorem nbr_symm (nl : Nat) (adj : Nat → List Nat) : ∀ a b, Nbr nl adj a b → Nbr nl adj b a := fun _ _ h => h.symm

theorem closed_comp {C : Nat → Prop} (h : ClosedSet nl adj C) {e f : Nat} (he : C e) (hc : SameComp (Nbr nl adj) e f) : C f := by
  obtain ⟨n, hc⟩ := hc
  induction n generalizing f with
  | zero => have : f = e := hc; subst this; exact he
  | succ n ih =>
    rcases hc with hc | ⟨x, hx, hn⟩
    · exact ih hc
    · exact h _ _ (ih hx) hn

/-- the depths of a finished search are distances -/
theorem Found.ge {New0 : List Nat} {depth : Int} {vis0 : Nat → Int} {New : List Nat} {vis : Nat → Int}
    {E : List (Nat × Nat)} (h : Found nl adj New0 depth vis0 New vis E) (hne : New0 ≠ []) : ∀ e ∈ New, depth ≤ vis e := by
  intro e he
  have hp : 0 < New0.length := List.length_pos_iff.mpr hne
  obtain ⟨h0, e0⟩ := prefix_get h.pre hp
  have hs := h.seed _ (List.getElem_mem hp)
  obtain ⟨i, hi, rfl⟩ := List.mem_iff_getElem.mp he
  rcases Nat.eq_zero_or_pos i with h1 | h1
  · subst h1; rw [e0, hs]
  · have := List.pairwise_iff_getElem.mp h.sorted 0 i h0 hi h1
    rw [e0, hs] at this
    exact this

theorem Found.dist {New0 : List Nat} {depth : Int} {vis0 : Nat → Int} {New : List Nat} {vis : Nat → Int}
    {E : List (Nat × Nat)} (h : Found nl adj New0 depth vis0 New vis E) (hne : New0 ≠ []) {e : Nat} (he : e ∈ New) :
    IsDist (Nbr nl adj) (· ∈ New0) e (vis e - depth).toNat := by
  have hge := h.ge hne
  have h1 : ∀ (n e : Nat), Within (Nbr nl adj) (· ∈ New0) n e → e ∈ New ∧ vis e ≤ depth + n := by
    intro n
    induction n with
    | zero => intro e he; exact ⟨h.pre.subset he, by rw [h.seed e he]; omega⟩
    | succ n ih =>
      rintro e (he | ⟨f, hf, hn⟩)
      · obtain ⟨a, b⟩ := ih e he
        exact ⟨a, by push_cast; omega⟩
      · obtain ⟨a, b⟩ := ih f hf
        obtain ⟨c, d⟩ := h.closed f e a hn
        exact ⟨c, by push_cast; omega⟩
  have h2 : ∀ (n e : Nat), e ∈ New → (vis e - depth).toNat = n → Within (Nbr nl adj) (· ∈ New0) n e := by
    intro n
    induction n with
    | zero =>
      intro e he hn
      rcases h.pred e he with h0 | ⟨f, hf, -, hv⟩
      · exact h0
      · have := hge f hf; omega
    | succ n ih =>
      intro e he hn
      rcases h.pred e he with h0 | ⟨f, hf, hfe, hv⟩
      · exact Within.mono (show Within (Nbr nl adj) (· ∈ New0) 0 e from h0) (by omega)
      · exact Or.inr ⟨f, ih f hf (by have := hge f hf; omega), hfe⟩
  refine ⟨h2 _ e he rfl, ?_⟩
  intro m hm hw
  have := (h1 m e hw).2
  have := hge e he
  omega

/-- a finished search is no deeper than a class of edges that contains all neighbours is large -/
theorem Found.deep_le {New0 : List Nat} {depth : Int} {vis0 : Nat → Int} {New : List Nat} {vis : Nat → Int}
    {E : List (Nat × Nat)} (h : Found nl adj New0 depth vis0 New vis E) (hne : New0 ≠ []) {cls : Nat → Nat}
    (hc : ∀ e f, e ∈ New → Nbr nl adj e f → cls e = cls f) {e : Nat} (he : e ∈ New) :
    vis e + 1 ≤ depth + (New.countP (fun y => decide (cls y = cls e)) : Nat) := by
  have hge := h.ge hne
  have key : ∀ (n e : Nat), e ∈ New → (vis e - depth).toNat = n →
      ∃ l : List Nat, l.Nodup ∧ l.length = n + 1 ∧ ∀ x ∈ l, x ∈ New ∧ cls x = cls e ∧ vis x ≤ vis e := by
    intro n
    induction n with
    | zero => intro e he _; exact ⟨[e], by simp, rfl, by simp [he]⟩
    | succ n ih =>
      intro e he hn
      rcases h.pred e he with h0 | ⟨f, hf, hfe, hv⟩
      · have := h.seed e h0; omega
      · obtain ⟨l, h1, h2, h3⟩ := ih f hf (by have := hge f hf; omega)
        refine ⟨e :: l, List.nodup_cons.mpr ⟨fun hm => ?_, h1⟩, by simp [h2], ?_⟩
        · have := (h3 e hm).2.2; omega
        · intro x hx
          rcases List.mem_cons.mp hx with rfl | hx
          · exact ⟨he, rfl, le_refl _⟩
          · obtain ⟨a, b, c⟩ := h3 x hx
            exact ⟨a, by rw [b, hc f e hf hfe], by omega⟩
  obtain ⟨l, h1, h2, h3⟩ := key _ e he rfl
  have := (List.Nodup.subperm h1 (l₂ := New.filter (fun y => decide (cls y = cls e))) (fun x hx => by
    obtain ⟨a, b, -⟩ := h3 x hx
    exact List.mem_filter.mpr ⟨a, by simpa using b⟩)).length_le
  rw [← List.countP_eq_length_filter] at this
  have := hge e he
  omega

theorem linked_comp {E : List (Nat × Nat)} (hE : ∀ p ∈ E, Nbr nl adj p.1 p.2) {a b : Nat} (h : Linked E a b) :
    SameComp (Nbr nl adj) a b := by
  induction h with
  | refl => exact SameComp.refl _
  | fwd _ h ih => exact ih.step (hE _ h)
  | bwd _ h ih => exact ih.step (hE _ h).symm

theorem CompDepth.unique {nb : Nat → Nat → Prop} {S : Nat → Prop} {a n m : Nat} (h1 : CompDepth nb S a n)
    (h2 : CompDepth nb S a m) : n = m := by
  obtain ⟨⟨x, x1, x2⟩, h1⟩ := h1
  obtain ⟨⟨y, y1, y2⟩, h2⟩ := h2
  exact Nat.le_antisymm (h2 x n x1 x2) (h1 y m y1 y2)

theorem CompSize.unique {nb : Nat → Nat → Prop} {a n m : Nat} (h1 : CompSize nb a n) (h2 : CompSize nb a m) : n = m := by
  obtain ⟨l, l1, l2, rfl⟩ := h1
  obtain ⟨k, k1, k2, rfl⟩ := h2
  exact ((List.perm_ext_iff_of_nodup l1 k1).mpr (fun x => by rw [l2, k2])).length_eq

/-! ## the rounds -/

/-- skipping the edges already visited -/
theorem skipVisited_spec {in1 : Inputs} {L1 : List Nat} (h1 : Seeds in1 N L1) {s : Inputs} {L2 : List Nat} {vis : Nat → Int}
    (h2 : St s N L2 vis) : ∀ (fuel : Nat) (ind : Int), -1 ≤ ind → ind < L1.length → ind + 1 < fuel →
      ∃ ind', skipVisited in1.seeds s.visited fuel ind = .ok ind' ∧ -1 ≤ ind' ∧ ind' ≤ ind ∧
        (∀ j (hj : j < L1.length), ind' < j → (j : Int) ≤ ind → L1[j] ∈ L2) ∧
        ∀ k (hk : k < L1.length), ind' = (k : Int) → L1[k] ∉ L2
  | 0, ind, h0, h1, hf => by omega
  | fuel + 1, ind, h0, hl, hf => by
    unfold skipVisited
    by_cases hi : ind < 0
    · rw [if_pos hi]
      exact ⟨ind, rfl, h0, le_refl _, fun j hj a b => by omega, fun k hk a => by omega⟩
    · rw [if_neg hi]
      have hk : ind.toNat < L1.length := by omega
      have hld : loadI in1.seeds ind = .ok L1[ind.toNat] := by
        unfold loadI; rw [if_neg hi, h1.load hk]
      have hlt := h1.lt _ (List.getElem_mem hk)
      rw [hld, Outcome.bind_ok, h2.arr.load hlt, Outcome.bind_ok]
      by_cases hm : L1[ind.toNat] ∈ L2
      · rw [if_pos (h2.ne hm)]
        obtain ⟨ind', e, a, b, c, d⟩ := skipVisited_spec h1 h2 fuel (ind - 1) (by omega) (by omega) (by omega)
        refine ⟨ind', e, a, by omega, ?_, d⟩
        intro j hj hj1 hj2
        by_cases hjj : (j : Int) = ind
        · have : j = ind.toNat := by omega
          subst this; exact hm
        · exact c j hj hj1 (by omega)
      · rw [if_neg (by rw [h2.un _ hlt hm]; decide)]
        refine ⟨ind, rfl, h0, le_refl _, fun j hj a b => by omega, ?_⟩
        intro k hk' hki
        have : k = ind.toNat := by omega
        subst this; exact hm

/-- collecting the deepest layer -/
theorem deepest_spec {in1 : Inputs} {L1 : List Nat} {vis1 : Nat → Int} (h1 : St in1 N L1 vis1) {md : Int}
    {L2 : List Nat} {vis : Nat → Int} (hge : ∀ e ∈ L2, 0 ≤ vis e) (hun : ∀ e, e < N → e ∉ L2 → vis e = -1) :
    ∀ (fuel : Nat) (ind : Int) (s : Inputs) (A : List Nat), -1 ≤ ind → ind < L1.length → ind + 1 < fuel →
      Seeds s N (L2 ++ A) → Arr s.visited N vis → (∀ x ∈ A, ∃ j, ∃ hj : j < L1.length, ind < (j : Int) ∧ L1[j] = x) →
      ∃ s' ind' B, deepest in1 md fuel ind s = .ok (s', ind') ∧ -1 ≤ ind' ∧ ind' ≤ ind ∧ Seeds s' N (L2 ++ (A ++ B)) ∧
        s'.visited = s.visited ∧ s'.labels = s.labels ∧
        (∀ x, x ∈ B ↔ x ∉ L2 ∧ ∃ j, ∃ hj : j < L1.length, ind' < (j : Int) ∧ (j : Int) ≤ ind ∧ L1[j] = x) ∧
        (∀ j (hj : j < L1.length), ind' < (j : Int) → (j : Int) ≤ ind → vis1 L1[j] = md) ∧
        ∀ k (hk : k < L1.length), ind' = (k : Int) → vis1 L1[k] ≠ md
  | 0, ind, s, A, h0, hl, hf, _, _, _ => by omega
  | fuel + 1, ind, s, A, h0, hl, hf, hS, hA, hx => by
    unfold deepest
    by_cases hi : ind < 0
    · rw [if_pos hi]
      refine ⟨s, ind, [], rfl, h0, le_refl _, by simpa using hS, rfl, rfl, ?_, fun j hj a b => by omega, fun k hk a => by omega⟩
      intro x
      simp only [List.not_mem_nil, false_iff, not_and]
      rintro - ⟨j, hj, a, b, -⟩
      omega
    · rw [if_neg hi]
      have hk : ind.toNat < L1.length := by omega
      have hld : loadI in1.seeds ind = .ok L1[ind.toNat] := by
        unfold loadI; rw [if_neg hi, h1.seeds.load hk]
      have hlt := h1.seeds.lt _ (List.getElem_mem hk)
      rw [hld, Outcome.bind_ok, h1.arr.load hlt, Outcome.bind_ok]
      by_cases hd : vis1 L1[ind.toNat] = md
      · rw [if_pos hd]
        have hj0 : ∀ j : Nat, (j : Int) = ind → j = ind.toNat := fun j hj => by omega
        by_cases hm : L1[ind.toNat] ∈ L2
        · have et : takeEdge s L1[ind.toNat] = .ok s := by
            unfold takeEdge
            rw [hA.load hlt, Outcome.bind_ok, if_neg (by have := hge _ hm; omega)]
            rfl
          rw [et, Outcome.bind_ok]
          obtain ⟨s', ind', B, e, a, b, c, d1, d2, m, f, l⟩ := deepest_spec h1 hge hun fuel (ind - 1) s A (by omega) (by omega)
            (by omega) hS hA (fun x hx' => by
              obtain ⟨j, hj, q1, q2⟩ := hx x hx'
              exact ⟨j, hj, by omega, q2⟩)
          refine ⟨s', ind', B, e, a, by omega, c, d1, d2, ?_, ?_, l⟩
          · intro x
            rw [m]
            constructor
            · rintro ⟨q1, j, hj, q2, q3, q4⟩
              exact ⟨q1, j, hj, q2, by omega, q4⟩
            · rintro ⟨q1, j, hj, q2, q3, q4⟩
              refine ⟨q1, j, hj, q2, ?_, q4⟩
              by_contra hc
              have := hj0 j (by omega)
              subst this
              exact q1 (q4 ▸ hm)
          · intro j hj q1 q2
            by_cases hjj : (j : Int) = ind
            · have := hj0 j hjj; subst this; exact hd
            · exact f j hj q1 (by omega)
        · have hnA : L1[ind.toNat] ∉ A := by
            intro hc
            obtain ⟨j, hj, q1, q2⟩ := hx _ hc
            have := (h1.seeds.nodup.getElem_inj_iff (hi := hj) (hj := hk)).mp q2
            omega
          obtain ⟨mm, e1, hmm⟩ := hS.store hlt (by rw [List.mem_append, not_or]; exact ⟨hm, hnA⟩)
          have hS' := hmm { s with seeds := mm, numSeeds := s.numSeeds + 1 } rfl rfl
          have et : takeEdge s L1[ind.toNat] = .ok { s with seeds := mm, numSeeds := s.numSeeds + 1 } := by
            unfold takeEdge
            rw [hA.load hlt, Outcome.bind_ok, if_pos (hun _ hlt hm)]
            unfold addSeed
            rw [e1, Outcome.bind_ok]
            rfl
          rw [et, Outcome.bind_ok]
          rw [List.append_assoc] at hS'
          obtain ⟨s', ind', B, e, a, b, c, d1, d2, m, f, l⟩ := deepest_spec h1 hge hun fuel (ind - 1) _
            (A ++ [L1[ind.toNat]]) (by omega) (by omega) (by omega) hS' hA (fun x hx' => by
              rcases List.mem_append.mp hx' with hx' | hx'
              · obtain ⟨j, hj, q1, q2⟩ := hx x hx'
                exact ⟨j, hj, by omega, q2⟩
              · rw [List.mem_singleton] at hx'
                exact ⟨ind.toNat, hk, by omega, hx'.symm⟩)
          refine ⟨s', ind', L1[ind.toNat] :: B, e, a, by omega, by simpa using c, d1, d2, ?_, ?_, l⟩
          · intro x
            rw [List.mem_cons, m]
            constructor
            · rintro (rfl | ⟨q1, j, hj, q2, q3, q4⟩)
              · exact ⟨hm, ind.toNat, hk, by omega, by omega, rfl⟩
              · exact ⟨q1, j, hj, q2, by omega, q4⟩
            · rintro ⟨q1, j, hj, q2, q3, q4⟩
              by_cases hjj : (j : Int) = ind
              · left
                have := hj0 j hjj
                subst this
                exact q4.symm
              · exact Or.inr ⟨q1, j, hj, q2, by omega, q4⟩
          · intro j hj q1 q2
            by_cases hjj : (j : Int) = ind
            · have := hj0 j hjj; subst this; exact hd
            · exact f j hj q1 (by omega)
      · rw [if_neg hd]
        refine ⟨s, ind, [], rfl, h0, le_refl _, by simpa using hS, rfl, rfl, ?_, fun j hj a b => by omega, ?_⟩
        · intro x
          simp only [List.not_mem_nil, false_iff, not_and]
          rintro - ⟨j, hj, a, b, -⟩
          omega
        · intro k hk' hki
          have : k = ind.toNat := by omega
          subst this; exact hd

/-- the state between rounds; `B` are the seeds of the first search, which found `L1` -/
structure RInv (nl : Nat) (adj : Nat → List Nat) (N : Nat) (push : Bool) (B L1 : List Nat) (vis1 : Nat → Int) (ind : Int)
    (depth : Int) (s : Inputs) (L2 : List Nat) (vis : Nat → Int) : Prop where
  mid : Mid s N L2 vis
  closed : ClosedSet nl adj (· ∈ L2)
  sub : ∀ e ∈ L2, e ∈ L1
  depth0 : 0 ≤ depth
  old : push = false → ∀ e ∈ L2, vis e < depth
  lo : -1 ≤ ind
  hi : ind < L1.length
  after : ∀ j (hj : j < L1.length), ind < (j : Int) → L1[j] ∈ L2
  order : L2.Pairwise (NoFarther (Nbr nl adj) (· ∈ B))
  dist : ∀ a ∈ L2, ∃ d, IsDist (Nbr nl adj) (Core (Nbr nl adj) (· ∈ B) a) a d
  split : Grouped (Nbr nl adj) L2
  ranks : L2.Pairwise (fun a b => Shallower (Nbr nl adj) (· ∈ B) b a)
  deep : ∀ a ∈ L2, ∀ x ∈ L1, x ∉ L2 → ∀ d, CompDepth (Nbr nl adj) (· ∈ B) a d → vis1 x < d
  comp : ∀ a ∈ L2, ∃ d n, CompDepth (Nbr nl adj) (· ∈ B) a d ∧ CompSize (Nbr nl adj) a n

theorem closed_append {A C : List Nat} (h1 : ClosedSet nl adj (· ∈ A)) (h2 : ClosedSet nl adj (· ∈ C)) :
    ClosedSet nl adj (· ∈ A ++ C) := by
  intro e f he hn
  rcases List.mem_append.mp he with he | he
  · exact List.mem_append_left _ (h1 e f he hn)
  · exact List.mem_append_right _ (h2 e f he hn)

theorem rounds_spec {g : Graph} {pin : Nat → List Nat} (push : Bool) (hF : GFacts g N nl adj pin) {in1 : Inputs}
    {B L1 : List Nat} {vis1 : Nat → Int} {v0 : Nat → Int} {E1 : List (Nat × Nat)} (hB : B ≠ []) (h1 : St in1 N L1 vis1)
    (hf1 : Found nl adj B 0 v0 L1 vis1 E1) :
    ∀ (fuel : Nat) (ind depth : Int) (s : Inputs) (L2 : List Nat) (vis : Nat → Int),
      RInv nl adj N push B L1 vis1 ind depth s L2 vis → ind + 1 < fuel →
      ∃ s' L2', rounds push g in1 fuel ind depth s = .ok s' ∧ Seeds s' N L2' ∧ L2'.Perm L1 ∧
        L2'.Pairwise (NoFarther (Nbr nl adj) (· ∈ B)) ∧
        (∀ a ∈ L2', ∃ d, IsDist (Nbr nl adj) (Core (Nbr nl adj) (· ∈ B) a) a d) ∧
        Grouped (Nbr nl adj) L2' ∧ L2'.Pairwise (fun a b => Shallower (Nbr nl adj) (· ∈ B) b a) ∧
        ∀ a ∈ L2', ∃ d n, CompDepth (Nbr nl adj) (· ∈ B) a d ∧ CompSize (Nbr nl adj) a n
  | 0, ind, depth, s, L2, vis, h, hf => by have := h.lo; omega
  | fuel + 1, ind, depth, s, L2, vis, h, hf => by
    have hL1c : ClosedSet nl adj (· ∈ L1) := fun e f he hn => (hf1.closed e f he hn).1
    have hsubp : L2.Subperm L1 := List.Nodup.subperm h.mid.st.seeds.nodup h.sub
    unfold rounds
    by_cases hend : in1.numSeeds ≤ s.numSeeds
    · rw [if_pos hend]
      rw [h1.seeds.num, h.mid.st.seeds.num] at hend
      exact ⟨s, L2, rfl, h.mid.st.seeds, hsubp.perm_of_length_le hend, h.order, h.dist, h.split, h.ranks, h.comp⟩
    · rw [if_neg hend]
      obtain ⟨i1, e1, a1, b1, c1, d1⟩ := skipVisited_spec h1.seeds h.mid.st (in1.seeds.length + 2) ind h.lo h.hi (by
        have := h1.seeds.le; have := h1.seeds.len; have := h.hi; omega)
      rw [e1, Outcome.bind_ok]
      have hafter : ∀ j (hj : j < L1.length), i1 < (j : Int) → L1[j] ∈ L2 := by
        intro j hj hj1
        rcases le_or_gt (j : Int) ind with hh | hh
        · exact c1 j hj hj1 hh
        · exact h.after j hj hh
      by_cases hi : i1 < 0
      · rw [if_pos hi]
        refine ⟨s, L2, rfl, h.mid.st.seeds, ?_, h.order, h.dist, h.split, h.ranks, h.comp⟩
        rw [List.perm_ext_iff_of_nodup h.mid.st.seeds.nodup h1.seeds.nodup]
        intro e
        refine ⟨h.sub e, fun he => ?_⟩
        obtain ⟨j, hj, rfl⟩ := List.mem_iff_getElem.mp he
        exact hafter j hj (by omega)
      · rw [if_neg hi]
        have hhi := h.hi
        have hk : i1.toNat < L1.length := by omega
        have hld : loadI in1.seeds i1 = .ok L1[i1.toNat] := by
          unfold loadI; rw [if_neg hi, h1.seeds.load hk]
        have hlt := h1.seeds.lt _ (List.getElem_mem hk)
        rw [hld, Outcome.bind_ok, h1.arr.load hlt, Outcome.bind_ok]
        have hknew : L1[i1.toNat] ∉ L2 := d1 _ hk (by omega)
        obtain ⟨s1, i2, New0, e2, a2, b2, hS, hvis, hlab, hmem, hmd, hstop⟩ := deepest_spec h1 (md := vis1 L1[i1.toNat])
          h.mid.st.ge h.mid.st.un (in1.seeds.length + 2) i1 s [] a1 (by omega) (by
            have := h1.seeds.le; have := h1.seeds.len; omega) (by simpa using h.mid.st.seeds) h.mid.st.arr (by simp)
        rw [List.nil_append] at hS
        rw [e2, Outcome.bind_ok]
        simp only
        have hi2 : i2 < i1 := by
          rcases Int.lt_or_eq_of_le b2 with hh | hh
          · exact hh
          · exact absurd rfl (hstop i1.toNat hk (by omega))
        have hk0 : L1[i1.toNat] ∈ New0 := (hmem _).mpr ⟨hknew, i1.toNat, hk, by omega, by omega, rfl⟩
        have hne : New0 ≠ [] := List.ne_nil_of_mem hk0
        have hpos : 0 < New0.length := List.length_pos_iff.mpr hne
        rw [if_neg (by rw [hS.num, h.mid.st.seeds.num, List.length_append]; omega)]
        obtain ⟨s2, d2, New', vis2, e3, hmid, hout, hsort, hdd, hov, F, w1, E, sh, hfd, hperm, hsh, cls, hcn, hcl, hcs, hca⟩ :=
          roundBody_spec push hF h.closed hne hS (by rw [hvis]; exact h.mid.st.arr) h.mid.st.ge h.mid.st.un
            (by rw [hlab]; exact h.mid.lab) h.depth0 h.old
        rw [← h.mid.st.seeds.num] at e3
        rw [e3, Outcome.bind_ok]
        simp only
        have hFm : ∀ e, e ∈ New' ↔ e ∈ F := fun e => hperm.mem_iff
        have hFc : ClosedSet nl adj (· ∈ New') := fun e f he hn =>
          (hFm f).mpr (hfd.closed e f ((hFm e).mp he) hn).1
        have hN0L1 : ∀ e ∈ New0, e ∈ L1 := by
          intro e he
          obtain ⟨-, j, hj, -, -, rfl⟩ := (hmem e).mp he
          exact List.getElem_mem hj
        have hFL1 : ∀ e ∈ F, e ∈ L1 := hfd.min _ hL1c hN0L1
        have hdisj : ∀ e ∈ New', e ∉ L2 := fun e he ho =>
          (List.nodup_append.mp hmid.st.seeds.nodup).2.2 e ho e he rfl
        -- the layer is the set of the unvisited edges of greatest depth
        have hmaxd : ∀ x ∈ L1, x ∉ L2 → vis1 x ≤ vis1 L1[i1.toNat] := by
          intro x hx hn
          obtain ⟨j, hj, rfl⟩ := List.mem_iff_getElem.mp hx
          have hji : ¬ i1 < (j : Int) := fun hc => hn (hafter j hj hc)
          rcases Nat.lt_or_ge j i1.toNat with hh | hh
          · exact List.pairwise_iff_getElem.mp hf1.sorted j i1.toNat hj hk hh
          · have : j = i1.toNat := by omega
            subst this; exact le_refl _
        have hlayer : ∀ x ∈ L1, x ∉ L2 → (x ∈ New0 ↔ vis1 x = vis1 L1[i1.toNat]) := by
          intro x hx hn
          constructor
          · intro h0
            obtain ⟨-, j, hj, q1, q2, rfl⟩ := (hmem x).mp h0
            exact hmd j hj q1 q2
          · intro hv
            obtain ⟨j, hj, rfl⟩ := List.mem_iff_getElem.mp hx
            have hji : ¬ i1 < (j : Int) := fun hc => hn (hafter j hj hc)
            refine (hmem _).mpr ⟨hn, j, hj, ?_, by omega, rfl⟩
            by_contra hc
            have hk2 : i2.toNat < L1.length := by omega
            have hs2 := hstop i2.toNat hk2 (by omega)
            have hle : vis1 L1[j] ≤ vis1 L1[i2.toNat] := by
              rcases Nat.lt_or_ge j i2.toNat with hh | hh
              · exact List.pairwise_iff_getElem.mp hf1.sorted j i2.toNat hj hk2 hh
              · have : j = i2.toNat := by omega
                subst this; exact le_refl _
            have hle2 := List.pairwise_iff_getElem.mp hf1.sorted i2.toNat i1.toNat hk2 hk (by omega)
            omega
        -- so, in a component of this round, it is the core
        have hcore : ∀ c, c ∈ F → ∀ x, SameComp (Nbr nl adj) c x → (x ∈ New0 ↔ Core (Nbr nl adj) (· ∈ B) c x) := by
          intro c hc x hx
          have hcF : ∀ y, SameComp (Nbr nl adj) c y → y ∈ New' := fun y hy => closed_comp hFc ((hFm c).mpr hc) hy
          have hcL : ∀ y, SameComp (Nbr nl adj) c y → y ∈ L1 ∧ y ∉ L2 := fun y hy =>
            ⟨hFL1 y ((hFm y).mp (hcF y hy)), hdisj y (hcF y hy)⟩
          have hdistB : ∀ y, SameComp (Nbr nl adj) c y → ∀ d, IsDist (Nbr nl adj) (· ∈ B) y d → (d : Int) = vis1 y := by
            intro y hy d hd
            have h2 := hf1.dist hB (hcL y hy).1
            have h3 := hd.unique h2
            have h4 := hf1.ge hB y (hcL y hy).1
            omega
          obtain ⟨y, hy0, hyc⟩ : ∃ y ∈ New0, SameComp (Nbr nl adj) c y := by
            obtain ⟨y, hy, hyc⟩ := hfd.min (fun z => ∃ y ∈ New0, SameComp (Nbr nl adj) z y)
              (fun e f he hn => by
                obtain ⟨y, hy, hh⟩ := he
                exact ⟨y, hy, ((SameComp.refl f).step hn.symm).trans hh⟩)
              (fun e he => ⟨e, he, SameComp.refl e⟩) c hc
            exact ⟨y, hy, hyc⟩
          rw [hlayer x (hcL x hx).1 (hcL x hx).2]
          have hymd := (hlayer y (hcL y hyc).1 (hcL y hyc).2).mp hy0
          constructor
          · intro hv
            refine ⟨hx, ?_⟩
            intro z hz dx dz hdx hdz
            have q1 := hdistB x hx dx hdx
            have q2 := hdistB z hz dz hdz
            have q3 := hmaxd z (hcL z hz).1 (hcL z hz).2
            omega
          · rintro ⟨-, hm⟩
            have hdx := hf1.dist hB (hcL x hx).1
            have hdy := hf1.dist hB (hcL y hyc).1
            have q := hm y hyc _ _ hdx hdy
            have q1 := hdistB x hx _ hdx
            have q2 := hdistB y hyc _ hdy
            have q3 := hmaxd x (hcL x hx).1 (hcL x hx).2
            omega
        have hdistF : ∀ c a, c ∈ F → SameComp (Nbr nl adj) c a →
            IsDist (Nbr nl adj) (Core (Nbr nl adj) (· ∈ B) c) a (w1 a - depth).toNat := by
          intro c a hc hca
          have haF : a ∈ F := (hFm a).mp (closed_comp hFc ((hFm c).mpr hc) hca)
          exact (isDist_congr (nbr_symm nl adj) (hcore c hc) hca).mp (hfd.dist hne haF)
        have hgeF := hfd.ge hne
        have hcomp : ∀ a ∈ F, ∀ x, SameComp (Nbr nl adj) a x → x ∈ F ∧ cls a = cls x := by
          intro a ha x hx
          have hC : ClosedSet nl adj (fun x => x ∈ F ∧ cls a = cls x) := by
            rintro e f ⟨he1, he2⟩ hn
            exact ⟨(hfd.closed e f he1 hn).1, by rw [he2]; exact hcn e f he1 hn⟩
          exact closed_comp hC ⟨ha, rfl⟩ hx
        have hclass : ∀ a ∈ F, ∀ x ∈ F, cls a = cls x → SameComp (Nbr nl adj) a x := fun a ha x hx he =>
          linked_comp hfd.joins (hcl a ha x hx he)
        have hFnd : F.Nodup := hperm.nodup_iff.mp (List.nodup_append.mp hmid.st.seeds.nodup).2.1
        have hsize : ∀ a ∈ F, CompSize (Nbr nl adj) a (F.countP (fun y => decide (cls y = cls a))) := by
          intro a ha
          refine ⟨F.filter (fun y => decide (cls y = cls a)), hFnd.filter _, ?_, List.countP_eq_length_filter.symm⟩
          intro x
          rw [List.mem_filter, decide_eq_true_iff]
          constructor
          · rintro ⟨hx, he⟩; exact hclass a ha x hx he.symm
          · intro hx
            obtain ⟨q1, q2⟩ := hcomp a ha x hx
            exact ⟨q1, q2.symm⟩
        have hless : ∀ a ∈ F, ∀ b ∈ F, cls a ≠ cls b →
            (F.countP (fun y => decide (cls y = cls b)) ≤ F.countP (fun y => decide (cls y = cls a)) ∧ vis2 a < vis2 b) ∨
            (F.countP (fun y => decide (cls y = cls a)) ≤ F.countP (fun y => decide (cls y = cls b)) ∧ vis2 b < vis2 a) := by
          intro a ha b hb hne'
          have d1 := hfd.deep_le hne hcn ha
          have d2 := hfd.deep_le hne hcn hb
          have g1 := hgeF a ha
          have g2 := hgeF b hb
          rw [hsh a ha, hsh b hb]
          rcases hca a ha b hb hne' with ⟨q1, q2⟩ | ⟨q1, q2⟩
          · simp only at q1 q2; left; exact ⟨by exact_mod_cast q1, by omega⟩
          · simp only at q1 q2; right; exact ⟨by exact_mod_cast q1, by omega⟩
        have hmd0 : (0 : Int) ≤ vis1 L1[i1.toNat] := hf1.ge hB _ (List.getElem_mem hk)
        have hdepth : ∀ a ∈ F, CompDepth (Nbr nl adj) (· ∈ B) a (vis1 L1[i1.toNat]).toNat := by
          intro a ha
          have hcL : ∀ y, SameComp (Nbr nl adj) a y → y ∈ L1 ∧ y ∉ L2 := fun y hy =>
            ⟨hFL1 y (hcomp a ha y hy).1, hdisj y ((hFm y).mpr (hcomp a ha y hy).1)⟩
          obtain ⟨y, hy0, hyc⟩ : ∃ y ∈ New0, SameComp (Nbr nl adj) a y := by
            obtain ⟨y, hy, hyc⟩ := hfd.min (fun z => ∃ y ∈ New0, SameComp (Nbr nl adj) z y)
              (fun e f he hn => by
                obtain ⟨y, hy, hh⟩ := he
                exact ⟨y, hy, ((SameComp.refl f).step hn.symm).trans hh⟩)
              (fun e he => ⟨e, he, SameComp.refl e⟩) a ha
            exact ⟨y, hy, hyc⟩
          refine ⟨⟨y, hyc, ?_⟩, ?_⟩
          · have := hf1.dist hB (hcL y hyc).1
            rw [(hlayer y (hcL y hyc).1 (hcL y hyc).2).mp hy0] at this
            simpa using this
          · intro x m hx hm
            have q1 := hm.unique (hf1.dist hB (hcL x hx).1)
            have q2 := hmaxd x (hcL x hx).1 (hcL x hx).2
            omega
        apply rounds_spec push hF hB h1 hf1 fuel i2 d2 s2 (L2 ++ New') vis2 ?_ (by omega)
        refine ⟨hmid, closed_append h.closed hFc, ?_, by have := h.depth0; omega, ?_, a2, by omega, ?_, ?_, ?_, ?_, ?_, ?_, ?_⟩
        · intro e he
          rcases List.mem_append.mp he with he | he
          · exact h.sub e he
          · exact hFL1 e ((hFm e).mp he)
        · intro hp e he
          rcases List.mem_append.mp he with he | he
          · have := h.old hp e he
            rw [hout e (fun hc => hdisj e hc he)]
            omega
          · exact hov hp e he
        · intro j hj hj2
          rcases lt_or_ge i1 (j : Int) with hh | hh
          · exact List.mem_append_left _ (hafter j hj hh)
          · by_cases hm : L1[j] ∈ L2
            · exact List.mem_append_left _ hm
            · apply List.mem_append_right
              rw [hFm]
              exact hfd.pre.subset ((hmem _).mpr ⟨hm, j, hj, hj2, hh, rfl⟩)
        · rw [List.pairwise_append]
          refine ⟨h.order, ?_, ?_⟩
          · refine hsort.imp_of_mem ?_
            intro a b ha hb hab c hca' hcb da db hda hdb
            rw [hFm] at ha hb
            have hcF : c ∈ F := (hFm c).mp (closed_comp hFc ((hFm a).mpr ha) (hca'.symm (nbr_symm nl adj)))
            have q1 := hda.unique (hdistF c a hcF hca')
            have q2 := hdb.unique (hdistF c b hcF hcb)
            have hshab : sh a = sh b :=
              hcs a b (hcomp a ha b ((hca'.symm (nbr_symm nl adj)).trans hcb)).2
            rw [hsh a ha, hsh b hb] at hab
            have := hgeF a ha
            have := hgeF b hb
            omega
          · intro a ha b hb c hca' hcb
            exfalso
            have hcL : c ∈ L2 := closed_comp h.closed ha (hca'.symm (nbr_symm nl adj))
            exact hdisj b hb (closed_comp h.closed hcL hcb)
        · intro a ha
          rcases List.mem_append.mp ha with ha | ha
          · exact h.dist a ha
          · exact ⟨_, hdistF a a ((hFm a).mp ha) (SameComp.refl a)⟩
        · intro a b c hs hac
          obtain ⟨l1, l2, e, s1, s2⟩ := List.sublist_append_iff.mp hs
          have hin : ∀ l : List Nat, l ≠ [] → (∃ k, k ++ l = [a, b, c]) → c ∈ l := by
            rintro l hl ⟨k, hk⟩
            obtain ⟨l', x, rfl⟩ : ∃ l' x, l = l' ++ [x] := ⟨_, _, (List.dropLast_append_getLast hl).symm⟩
            rw [← List.append_assoc, show [a, b, c] = [a, b] ++ [c] from rfl] at hk
            have := (List.append_inj_right' hk rfl)
            simp at this
            simp [this]
          by_cases h2 : l2 = []
          · subst h2
            rw [List.append_nil] at e
            subst e
            exact h.split a b c s1 hac
          · have hcn' : c ∈ New' := s2.subset (hin l2 h2 ⟨l1, e.symm⟩)
            match l1, e, s1 with
            | [], e, _ =>
              rw [List.nil_append] at e
              subst e
              have hp : [a, b, c].Pairwise (fun a b => vis2 a ≤ vis2 b) := hsort.sublist s2
              simp only [List.pairwise_cons, List.mem_cons, List.not_mem_nil, or_false, forall_eq_or_imp, forall_eq] at hp
              obtain ⟨⟨p1, p2⟩, p3, -⟩ := hp
              have ha : a ∈ F := (hFm a).mp (s2.subset (by simp))
              have hb : b ∈ F := (hFm b).mp (s2.subset (by simp))
              have hc : c ∈ F := (hFm c).mp (s2.subset (by simp))
              have hac' := (hcomp a ha c hac).2
              by_contra hnb
              have hne1 : cls a ≠ cls b := fun he => hnb (hclass a ha b hb he)
              have hne2 : cls c ≠ cls b := by rw [← hac']; exact hne1
              have d1 := hfd.deep_le hne hcn hc
              have d2 := hfd.deep_le hne hcn ha
              have g1 := hgeF a ha
              have g2 := hgeF b hb
              have g3 := hgeF c hc
              rw [hsh a ha, hsh b hb] at p1
              rw [hsh b hb, hsh c hc] at p3
              have hsc := hcs a c hac'
              rcases hca c hc b hb hne2 with ⟨q1, q2⟩ | ⟨q1, q2⟩
              · simp only at q2; omega
              · have d3 := hfd.deep_le hne hcn hb
                simp only at q2; omega
            | x :: l, e, s1 =>
              exfalso
              rw [List.cons_append, List.cons.injEq] at e
              have ha : a ∈ L2 := e.1 ▸ s1.subset (by simp)
              exact hdisj c hcn' (closed_comp h.closed ha hac)
        · rw [List.pairwise_append]
          refine ⟨h.ranks, ?_, ?_⟩
          · refine hsort.imp_of_mem ?_
            intro a b ha hb hab
            rw [hFm] at ha hb
            by_cases hcc : cls b = cls a
            · exact Or.inl (hclass b hb a ha hcc)
            · right
              intro db da hdb hda
              right
              refine ⟨by rw [hdb.unique (hdepth b hb), hda.unique (hdepth a ha)], ?_⟩
              intro nb na hnb hna
              rw [hnb.unique (hsize b hb), hna.unique (hsize a ha)]
              rcases hless b hb a ha hcc with ⟨-, q⟩ | ⟨q, -⟩
              · omega
              · exact q
          · intro a ha b hb
            right
            intro db da hdb hda
            left
            rw [hFm] at hb
            rw [hdb.unique (hdepth b hb)]
            have := h.deep a ha L1[i1.toNat] (List.getElem_mem hk) hknew da hda
            omega
        · intro a ha x hx hxn d hd
          rw [List.mem_append, not_or] at hxn
          rcases List.mem_append.mp ha with ha | ha
          · exact h.deep a ha x hx hxn.1 d hd
          · rw [hFm] at ha
            rw [hd.unique (hdepth a ha)]
            have q1 := hmaxd x hx hxn.1
            have q2 : vis1 x ≠ vis1 L1[i1.toNat] := fun he =>
              hxn.2 ((hFm x).mpr (hfd.pre.subset ((hlayer x hx hxn.1).mpr he)))
            omega
        · intro a ha
          rcases List.mem_append.mp ha with ha | ha
          · exact h.comp a ha
          · rw [hFm] at ha
            exact ⟨_, _, hdepth a ha, hsize a ha⟩

end
end Verif.Part
