import Verif.Part.SidesProps
import Verif.Agi.MigList
import Mathlib.Algebra.Order.Field.Basic
import Mathlib.Tactic.FieldSimp
import Mathlib.Tactic.Positivity
/-!
# Lemmas: neighbour weights and targets
-/
namespace Verif.Part
open Verif.Agi

theorem putA_sum {k : Int} {v : Rat} : ∀ (l : List (Int × Rat)), (l.map Prod.fst).Nodup →
    ((putA k v l).map Prod.snd).sum = (l.map Prod.snd).sum - (l.lookup k).getD 0 + v
  | [], _ => by simp [putA]
  | (a, b) :: l, h => by
    rw [List.map_cons, List.nodup_cons] at h
    rw [putA]
    by_cases hak : a = k
    · subst hak
      simp [List.lookup_cons]; ring
    · have : (k == a) = false := by simpa using fun h => hak h.symm
      rw [if_neg hak, List.map_cons, List.sum_cons, putA_sum l h.2, List.lookup_cons, this]
      simp only [List.map_cons, List.sum_cons]
      ring

/-- a container whose total is the sum of its entries -/
structure Sound (c : Cont Rat) : Prop where
  keys : (c.d.map Prod.fst).Nodup
  total : c.total = (c.d.map Prod.snd).sum

theorem sound_new : Sound (Cont.new : Cont Rat) := ⟨by simp [Cont.new], rfl⟩

theorem Sound.set {c : Cont Rat} (h : Sound c) (k : Int) (v : Rat) : Sound (c.set k v) := by
  refine ⟨nodup_putA _ _ _ h.keys, ?_⟩
  show c.total - c.get k + v = ((putA k v c.d).map Prod.snd).sum
  rw [putA_sum _ h.keys, h.total]
  rfl

/-- receiving the neighbours' weights -/
theorem recv_find (W : Nat → Rat) : ∀ (ms : List (Nat × Rat)), (∀ m ∈ ms, m.2 = W m.1) → ∀ (c : Cont Rat) (k : Nat),
    (ms.foldl recvWeight c).find (k : Int) = if k ∈ ms.map Prod.fst then some (W k) else c.find (k : Int)
  | [], _, c, k => by simp
  | m :: ms, h, c, k => by
    rw [List.foldl_cons, recv_find W ms (fun x hx => h x (by simp [hx])), List.map_cons]
    unfold recvWeight
    rw [find_set]
    by_cases h1 : k ∈ ms.map Prod.fst
    · simp [h1]
    · by_cases h2 : k = m.1
      · subst h2
        rw [if_neg h1, if_pos rfl, if_pos (by simp), h m (by simp)]
      · rw [if_neg h1, if_neg (by simpa using h2), if_neg (by simp only [List.mem_cons, not_or]; exact ⟨h2, h1⟩)]

/-- `Weights` on all parts -/
theorem makeWeights_spec {gs : List Graph} {ss : List (Cont Int)} {dim : Int} {cg : Bool} {ord : Nat → List Nat}
    (hl : ss.length = gs.length) (ho : Orders gs.length ord) {W : Nat → Rat}
    (hW : ∀ p (h : p < gs.length), getWeight gs[p] dim cg = .ok (W p))
    (hk : ∀ p (h : p < ss.length), ∀ e ∈ ss[p].d, 0 ≤ e.1 ∧ e.1 < (gs.length : Int)) :
    ∃ ws, makeWeights gs ss dim cg ord = .ok ws ∧ ws.length = gs.length ∧ ∀ p (h : p < ws.length),
      ws[p].mine = W p ∧ ∀ q (h' : q < ss.length), ws[p].c.find (q : Int) =
        if (p : Int) ∈ ss[q].d.map Prod.fst then some (W q) else none := by
  unfold makeWeights
  obtain ⟨ws, e1, h1, h2⟩ := mapM_idx (f := fun g => getWeight g dim cg) (fun p w => w = W p) gs
    (fun k h => ⟨W k, hW k h, rfl⟩)
  rw [e1, Outcome.bind_ok]
  set n := gs.length with hn
  have hws : ws = (List.range n).map W := by
    apply List.ext_getElem
    · simp [h1]
    · intro k h3 h4; simp [h2 k h3]
  have hss : ss = (List.range n).map (fun p => ss.getD p Cont.new) := by
    rw [← hl]; exact list_range ss Cont.new
  have hO : (ss.zip ws).map (fun x => x.1.d.map (fun e => (e.1, x.2))) =
      (List.range n).map (fun p => (ss.getD p Cont.new).d.map (fun e => (e.1, W p))) := by
    rw [hws]
    conv_lhs => rw [hss]
    rw [zip_range, List.map_map]
    rfl
  dsimp only
  rw [hO, exchange_range]
  · rw [Outcome.bind_ok]
    refine ⟨_, rfl, ?_, ?_⟩
    · simp [hws]
    · intro p hp
      have hpn : p < n := by simp [hws] at hp; exact hp
      simp only [List.getElem_map, List.getElem_zip, List.getElem_range]
      refine ⟨h2 p (by omega), ?_⟩
      intro q hq
      have hqn : q < n := by omega
      rw [recv_find W]
      · rw [find_new]
        have hmem : q ∈ (inbox ((List.range n).map (fun p => (ss.getD p Cont.new).d.map (fun e => (e.1, W p)))) (ord p) p).map Prod.fst ↔
            (p : Int) ∈ ss[q].d.map Prod.fst := by
          have hgd : ss.getD q Cont.new = ss[q] := by
            rw [List.getD_eq_getElem?_getD, List.getElem?_eq_getElem hq]; rfl
          constructor
          · intro h
            obtain ⟨x, hx, rfl⟩ := List.mem_map.mp h
            have := ((mem_inbox_range ho hpn).mp hx).2
            obtain ⟨e, he, hee⟩ := List.mem_map.mp this
            rw [hgd] at he
            injection hee with h3 h4
            exact List.mem_map.mpr ⟨e, he, h3⟩
          · intro h
            obtain ⟨e, he, hee⟩ := List.mem_map.mp h
            refine List.mem_map.mpr ⟨(q, W q), (mem_inbox_range ho hpn).mpr ⟨hqn, ?_⟩, rfl⟩
            exact List.mem_map.mpr ⟨e, by rw [hgd]; exact he, by rw [hee]⟩
        simp only [hmem]
      · intro m hm
        obtain ⟨-, h3⟩ := (mem_inbox_range ho hpn).mp hm
        obtain ⟨e, he, hee⟩ := List.mem_map.mp h3
        injection hee with h4 h5
        exact h5.symm
  · intro p hp m hm
    obtain ⟨e, he, rfl⟩ := List.mem_map.mp hm
    have hps : p < ss.length := by omega
    have hgd : ss.getD p Cont.new = ss[p] := by
      rw [List.getD_eq_getElem?_getD, List.getElem?_eq_getElem hps]; rfl
    rw [hgd] at he
    exact hk p hps e he

/-- what one entry of the targets is -/
def IsTarget (isHyper : Bool) (peers : Nat) (sf : Rat) (s : Cont Int) (tw : Weights) (sideTol : Int)
    (done : List (Cont Rat × Rat)) (q : Int) (v : Int) (x : Rat) : Prop :=
  canSend isHyper peers s sideTol done q = true ∧ tw.c.get q < tw.mine ∧
    x = (tw.mine - tw.c.get q) * ((v : Rat) / (s.total : Rat)) * sf

theorem targets_spec (isHyper : Bool) (peers : Nat) (sf : Rat) (s : Cont Int) (tw : Weights) (sideTol : Int)
    (done : List (Cont Rat × Rat)) (ht : s.total ≠ 0) : ∀ (order : List (Int × Int)) (T : Cont Rat), Sound T →
    (order.map Prod.fst).Nodup → (∀ e ∈ order, T.find e.1 = none) →
    ∃ T', order.foldlM (targetStep isHyper peers sf s tw sideTol done) T = .ok T' ∧ Sound T' ∧
      ∀ q x, T'.find q = some x ↔
        T.find q = some x ∨ ∃ v, (q, v) ∈ order ∧ IsTarget isHyper peers sf s tw sideTol done q v x
  | [], T, hT, _, _ => ⟨T, rfl, hT, by simp⟩
  | (a, b) :: order, T, hT, hnd, hn => by
    rw [List.map_cons, List.nodup_cons] at hnd
    have hna := hn (a, b) (by simp)
    dsimp only at hna
    have hne : ∀ e ∈ order, e.1 ≠ a := by
      rintro e he rfl
      exact hnd.1 (List.mem_map.mpr ⟨e, he, rfl⟩)
    -- no target for this side
    have skip : (¬ ∃ x, IsTarget isHyper peers sf s tw sideTol done a b x) →
        targetStep isHyper peers sf s tw sideTol done T (a, b) = .ok T →
        ∃ T', ((a, b) :: order).foldlM (targetStep isHyper peers sf s tw sideTol done) T = .ok T' ∧ Sound T' ∧
        ∀ q x, T'.find q = some x ↔ T.find q = some x ∨
          ∃ v, (q, v) ∈ (a, b) :: order ∧ IsTarget isHyper peers sf s tw sideTol done q v x := by
      intro hno he
      obtain ⟨T', e1, h1, h2⟩ := targets_spec isHyper peers sf s tw sideTol done ht order T hT hnd.2
        (fun e he => hn e (by simp [he]))
      refine ⟨T', ?_, h1, ?_⟩
      · rw [List.foldlM_cons, he, Outcome.bind_ok, e1]
      · intro q x
        rw [h2 q x]
        constructor
        · rintro (h | ⟨v, hv, h⟩)
          · exact .inl h
          · exact .inr ⟨v, by simp [hv], h⟩
        · rintro (h | ⟨v, hv, h⟩)
          · exact .inl h
          · rcases List.mem_cons.mp hv with hv | hv
            · injection hv with h3 h4
              subst h3; subst h4
              exact absurd ⟨x, h⟩ hno
            · exact .inr ⟨v, hv, h⟩
    by_cases hc : canSend isHyper peers s sideTol done a = true
    · by_cases hw : tw.c.get a < tw.mine
      · obtain ⟨T', e1, h1, h2⟩ := targets_spec isHyper peers sf s tw sideTol done ht order
          (T.set a ((tw.mine - tw.c.get a) * ((b : Rat) / (s.total : Rat)) * sf)) (hT.set _ _) hnd.2 (by
            intro e he
            rw [find_set, if_neg (hne e he)]
            exact hn e (by simp [he]))
        refine ⟨T', ?_, h1, ?_⟩
        · rw [List.foldlM_cons]
          have : targetStep isHyper peers sf s tw sideTol done T (a, b) =
              .ok (T.set a ((tw.mine - tw.c.get a) * ((b : Rat) / (s.total : Rat)) * sf)) := by
            unfold targetStep
            rw [if_pos hc]
            dsimp only
            rw [if_pos hw, if_neg ht]
          rw [this, Outcome.bind_ok, e1]
        · intro q x
          rw [h2 q x, find_set]
          by_cases hq : q = a
          · subst hq
            rw [if_pos rfl, hna]
            constructor
            · rintro (h | ⟨v, hv, h⟩)
              · injection h with h
                exact .inr ⟨b, by simp, hc, hw, h.symm⟩
              · exact absurd rfl (hne _ hv)
            · rintro (h | ⟨v, hv, h⟩)
              · cases h
              · rcases List.mem_cons.mp hv with hv | hv
                · injection hv with h3 h4
                  subst h4
                  exact .inl (by rw [h.2.2])
                · exact absurd rfl (hne _ hv)
          · rw [if_neg hq]
            simp only [List.mem_cons, Prod.mk.injEq, hq, false_and, false_or]
      · refine skip ?_ ?_
        · rintro ⟨x, h⟩; exact hw h.2.1
        · unfold targetStep
          rw [if_pos hc]
          dsimp only
          rw [if_neg hw]
    · refine skip ?_ ?_
      · rintro ⟨x, h⟩; exact hc h.1
      · unfold targetStep
        rw [if_neg hc]

end Verif.Part
