import Verif.Part.SortModel
import Mathlib.Tactic.Ring
import Mathlib.Tactic.Linarith
/-!
# C41: the queue sort sorts and loses nothing
-/
namespace Verif.Part

theorem loadI_nat {α : Type} (m : Mem α) (k : Nat) : loadI m (k : Int) = m.load k := by
  unfold loadI; rw [if_neg (by omega)]; simp

theorem loadI_congr {α : Type} {m m' : Mem α} {i i' : Int} (hi : 0 ≤ i) (hi' : 0 ≤ i')
    (h : m[i.toNat]? = m'[i'.toNat]?) : loadI m i = loadI m' i' := by
  unfold loadI Mem.load
  rw [if_neg (by omega), if_neg (by omega), h]

theorem valAt_congr {vals : Mem Int} {m m' : Mem Nat} {i i' : Int} (hi : 0 ≤ i) (hi' : 0 ≤ i')
    (h : m[i.toNat]? = m'[i'.toNat]?) : valAt vals m i = valAt vals m' i' := by
  unfold valAt; rw [loadI_congr hi hi' h]

theorem loadI_ok {α : Type} {m : Mem α} {i : Int} {a : α} (h : loadI m i = .ok a) :
    0 ≤ i ∧ i.toNat < m.length ∧ m[i.toNat]? = some (some a) := by
  unfold loadI at h
  split at h
  · cases h
  · rename_i hi
    unfold Mem.load at h
    split at h
    · rename_i b hb
      cases h
      exact ⟨by omega, (List.getElem?_eq_some_iff.mp hb).1, hb⟩
    · cases h

theorem valAt_ok {vals : Mem Int} {m : Mem Nat} {i : Int} {x : Int} (h : valAt vals m i = .ok x) :
    0 ≤ i ∧ i.toNat < m.length ∧ ∃ e, m[i.toNat]? = some (some e) ∧ vals.load e = .ok x := by
  unfold valAt at h
  rw [bind_ok_iff] at h
  obtain ⟨e, h1, h2⟩ := h
  obtain ⟨a, b, c⟩ := loadI_ok h1
  exact ⟨a, b, e, c, h2⟩

theorem scanUp_spec {vals : Mem Int} {arr : Mem Nat} {p : Int} : ∀ (fuel : Nat) (i k : Int), i ≤ k →
    k - i < fuel → (∀ m, i ≤ m → m ≤ k → ∃ x, valAt vals arr m = .ok x) →
    (∃ x, valAt vals arr k = .ok x ∧ p ≤ x) →
    ∃ i', scanUp vals arr p fuel i = .ok i' ∧ i ≤ i' ∧ i' ≤ k ∧
      (∀ m, i ≤ m → m < i' → ∃ x, valAt vals arr m = .ok x ∧ x ≤ p) ∧ ∃ x, valAt vals arr i' = .ok x ∧ p ≤ x
  | 0, i, k, h1, h2, _, _ => by omega
  | fuel + 1, i, k, h1, h2, h3, h4 => by
    unfold scanUp
    obtain ⟨x, hx⟩ := h3 i (by omega) h1
    rw [hx, Outcome.bind_ok]
    by_cases hp : x < p
    · rw [if_pos hp]
      have hne : i ≠ k := by
        rintro rfl
        obtain ⟨y, hy, hpy⟩ := h4
        rw [hx] at hy; cases hy; omega
      obtain ⟨i', e, a, b, c, d⟩ := scanUp_spec fuel (i + 1) k (by omega) (by omega)
        (fun m hm hm' => h3 m (by omega) hm') h4
      refine ⟨i', e, by omega, b, ?_, d⟩
      intro m hm hm'
      by_cases hmi : m = i
      · subst hmi; exact ⟨x, hx, by omega⟩
      · exact c m (by omega) hm'
    · rw [if_neg hp]
      exact ⟨i, rfl, by omega, h1, fun m hm hm' => by omega, x, hx, by omega⟩

theorem scanDown_spec {vals : Mem Int} {arr : Mem Nat} {p : Int} : ∀ (fuel : Nat) (j k : Int), k ≤ j →
    j - k < fuel → (∀ m, k ≤ m → m ≤ j → ∃ x, valAt vals arr m = .ok x) →
    (∃ x, valAt vals arr k = .ok x ∧ x ≤ p) →
    ∃ j', scanDown vals arr p fuel j = .ok j' ∧ j' ≤ j ∧ k ≤ j' ∧
      (∀ m, j' < m → m ≤ j → ∃ x, valAt vals arr m = .ok x ∧ p ≤ x) ∧ ∃ x, valAt vals arr j' = .ok x ∧ x ≤ p
  | 0, j, k, h1, h2, _, _ => by omega
  | fuel + 1, j, k, h1, h2, h3, h4 => by
    unfold scanDown
    obtain ⟨x, hx⟩ := h3 j h1 (by omega)
    rw [hx, Outcome.bind_ok]
    by_cases hp : p < x
    · rw [if_pos hp]
      have hne : j ≠ k := by
        rintro rfl
        obtain ⟨y, hy, hpy⟩ := h4
        rw [hx] at hy; cases hy; omega
      obtain ⟨j', e, a, b, c, d⟩ := scanDown_spec fuel (j - 1) k (by omega) (by omega)
        (fun m hm hm' => h3 m hm (by omega)) h4
      refine ⟨j', e, by omega, b, ?_, d⟩
      intro m hm hm'
      by_cases hmi : m = j
      · subst hmi; exact ⟨x, hx, by omega⟩
      · exact c m hm (by omega)
    · rw [if_neg hp]
      exact ⟨j, rfl, by omega, h1, fun m hm hm' => by omega, x, hx, by omega⟩

/-- `b` is `a` with the positions `l … r` rearranged -/
structure Rearr (l r : Int) (a b : Mem Nat) : Prop where
  len : b.length = a.length
  perm : b.Perm a
  out : ∀ k : Nat, ((k : Int) < l ∨ r < (k : Int)) → b[k]? = a[k]?
  img : ∀ k : Nat, l ≤ k → (k : Int) ≤ r → ∃ k' : Nat, l ≤ k' ∧ (k' : Int) ≤ r ∧ b[k]? = a[k']?

theorem Rearr.refl (l r : Int) (a : Mem Nat) : Rearr l r a a :=
  ⟨rfl, List.Perm.refl _, fun _ _ => rfl, fun k h h' => ⟨k, h, h', rfl⟩⟩

theorem Rearr.trans {l r : Int} {a b c : Mem Nat} (h1 : Rearr l r a b) (h2 : Rearr l r b c) : Rearr l r a c := by
  refine ⟨h2.len.trans h1.len, h2.perm.trans h1.perm, fun k hk => (h2.out k hk).trans (h1.out k hk), ?_⟩
  intro k hk hk'
  obtain ⟨k1, a1, b1, e1⟩ := h2.img k hk hk'
  obtain ⟨k2, a2, b2, e2⟩ := h1.img k1 a1 b1
  exact ⟨k2, a2, b2, e1.trans e2⟩

theorem Rearr.mono {l r l' r' : Int} {a b : Mem Nat} (h : Rearr l r a b) (hl : l' ≤ l) (hr : r ≤ r') :
    Rearr l' r' a b := by
  refine ⟨h.len, h.perm, fun k hk => h.out k (by omega), ?_⟩
  intro k hk hk'
  by_cases hin : l ≤ k ∧ (k : Int) ≤ r
  · obtain ⟨k', a1, b1, e⟩ := h.img k hin.1 hin.2
    exact ⟨k', by omega, by omega, e⟩
  · exact ⟨k, hk, hk', h.out k (by omega)⟩

/-- a property of all values in the segment survives -/
theorem Rearr.all {l r : Int} {a b : Mem Nat} (h : Rearr l r a b) (hl : 0 ≤ l) (vals : Mem Int) (P : Int → Prop)
    (hp : ∀ m, l ≤ m → m ≤ r → ∃ x, valAt vals a m = .ok x ∧ P x) :
    ∀ m, l ≤ m → m ≤ r → ∃ x, valAt vals b m = .ok x ∧ P x := by
  intro m hm hm'
  obtain ⟨k', h1, h2, e⟩ := h.img m.toNat (by omega) (by omega)
  obtain ⟨x, hx, hpx⟩ := hp k' h1 h2
  refine ⟨x, ?_, hpx⟩
  rw [← hx]
  exact valAt_congr (by omega) (by omega) (by simpa using e)

theorem swapAt_spec {arr : Mem Nat} {i j l r : Int} {x y : Nat} (hij : i ≤ j) (hl : l ≤ i) (hr : j ≤ r)
    (hx : loadI arr i = .ok x) (hy : loadI arr j = .ok y) :
    ∃ arr', swapAt arr i j = .ok arr' ∧ Rearr l r arr arr' ∧ arr'[i.toNat]? = some (some y) ∧
      arr'[j.toNat]? = some (some x) ∧ ∀ k : Nat, (k : Int) ≠ i → (k : Int) ≠ j → arr'[k]? = arr[k]? := by
  obtain ⟨a1, a2, a3⟩ := loadI_ok hx
  obtain ⟨b1, b2, b3⟩ := loadI_ok hy
  unfold swapAt
  rw [hx, Outcome.bind_ok, hy, Outcome.bind_ok]
  unfold storeI
  rw [if_neg (by omega), Mem.store_ok _ a2, Outcome.bind_ok, if_neg (by omega), Mem.store_ok _ (by simpa using b2)]
  have hget : ∀ k : Nat, ((arr.set i.toNat (some y)).set j.toNat (some x))[k]? =
      if k = j.toNat then some (some x) else if k = i.toNat then some (some y) else arr[k]? := by
    intro k
    rw [List.getElem?_set, List.getElem?_set]
    by_cases h1 : k = j.toNat
    · subst h1; simp [b2]
    · rw [if_neg (fun h => h1 h.symm), if_neg h1]
      by_cases h2 : k = i.toNat
      · subst h2; simp [a2]
      · rw [if_neg (fun h => h2 h.symm), if_neg h2]
  refine ⟨_, rfl, ?_, ?_, ?_, ?_⟩
  · refine ⟨by simp, ?_, ?_, ?_⟩
    · have e1 : arr[i.toNat] = some x := by
        have := List.getElem?_eq_getElem a2; rw [a3] at this; exact (Option.some.inj this).symm
      have e2 : arr[j.toNat] = some y := by
        have := List.getElem?_eq_getElem b2; rw [b3] at this; exact (Option.some.inj this).symm
      rw [← e1, ← e2]
      exact List.set_set_perm a2 b2
    · intro k hk
      rw [hget, if_neg (by omega), if_neg (by omega)]
    · intro k hk hk'
      rw [hget]
      by_cases h1 : k = j.toNat
      · rw [if_pos h1]; exact ⟨i.toNat, by omega, by omega, a3.symm⟩
      · rw [if_neg h1]
        by_cases h2 : k = i.toNat
        · rw [if_pos h2]; exact ⟨j.toNat, by omega, by omega, b3.symm⟩
        · rw [if_neg h2]; exact ⟨k, hk, hk', rfl⟩
  · rw [hget]
    by_cases h : i.toNat = j.toNat
    · rw [if_pos h]
      rw [h] at a3; rw [a3] at b3; exact b3
    · rw [if_neg h, if_pos rfl]
  · rw [hget, if_pos rfl]
  · intro k h1 h2
    rw [hget, if_neg (by omega), if_neg (by omega)]

/-- the `while (i <= j)` loop: what it needs and what it leaves -/
theorem splitLoop_spec {vals : Mem Int} {p l r : Int} (hl : 0 ≤ l) : ∀ (fuel : Nat) (arr : Mem Nat) (i j : Int),
    l ≤ i → j ≤ r → i ≤ r + 1 → l - 1 ≤ j → r < arr.length →
    (i ≤ j → j - i + 1 < fuel) → 0 < fuel →
    (∀ m, l ≤ m → m ≤ r → ∃ x, valAt vals arr m = .ok x) →
    (∀ m, l ≤ m → m < i → ∃ x, valAt vals arr m = .ok x ∧ x ≤ p) →
    (∀ m, j < m → m ≤ r → ∃ x, valAt vals arr m = .ok x ∧ p ≤ x) →
    (i ≤ j → ∃ k, i ≤ k ∧ k ≤ r ∧ ∃ x, valAt vals arr k = .ok x ∧ p ≤ x) →
    (i ≤ j → ∃ k, l ≤ k ∧ k ≤ j ∧ ∃ x, valAt vals arr k = .ok x ∧ x ≤ p) →
    (l < i ∧ j < r ∨ i = l ∧ j = r ∧ ∃ k, l ≤ k ∧ k ≤ r ∧ valAt vals arr k = .ok p) →
    ∃ arr' i' j', splitLoop vals p fuel arr i j = .ok (arr', i', j') ∧ Rearr l r arr arr' ∧
      j' < i' ∧ l < i' ∧ j' < r ∧ i' ≤ r + 1 ∧ l - 1 ≤ j' ∧
      (∀ m, l ≤ m → m < i' → ∃ x, valAt vals arr' m = .ok x ∧ x ≤ p) ∧
      (∀ m, j' < m → m ≤ r → ∃ x, valAt vals arr' m = .ok x ∧ p ≤ x)
  | 0, _, _, _, _, _, _, _, _, _, h, _, _, _, _, _, _ => by omega
  | fuel + 1, arr, i, j, hli, hjr, hir, hlj, hra, hf, _, hall, hlo, hhi, hup, hdn, hfirst => by
    unfold splitLoop
    by_cases hij : i ≤ j
    · rw [if_pos hij]
      obtain ⟨k1, a1, a2, a3⟩ := hup hij
      obtain ⟨k2, b1, b2, b3⟩ := hdn hij
      obtain ⟨i', e1, c1, c2, c3, x, c4, c5⟩ := scanUp_spec (vals := vals) (arr := arr) (p := p) (arr.length + 1) i k1 a1
        (by omega) (fun m hm hm' => hall m (by omega) (by omega)) a3
      obtain ⟨j', e2, d1, d2, d3, y, d4, d5⟩ := scanDown_spec (vals := vals) (arr := arr) (p := p) (arr.length + 1) j k2 b2
        (by omega) (fun m hm hm' => hall m (by omega) (by omega)) b3
      rw [e1, Outcome.bind_ok, e2, Outcome.bind_ok]
      have hlo' : ∀ m, l ≤ m → m < i' → ∃ x, valAt vals arr m = .ok x ∧ x ≤ p := by
        intro m hm hm'
        by_cases h : m < i
        · exact hlo m hm h
        · exact c3 m (by omega) hm'
      have hhi' : ∀ m, j' < m → m ≤ r → ∃ x, valAt vals arr m = .ok x ∧ p ≤ x := by
        intro m hm hm'
        by_cases h : j < m
        · exact hhi m h hm'
        · exact d3 m hm (by omega)
      by_cases hij' : i' ≤ j'
      · rw [if_pos hij']
        have hf' := hf hij
        have q1 : l ≤ i' + 1 := by clear * - hli c1; omega
        have q2 : j' - 1 ≤ r := by clear * - hjr d1; omega
        have q3 : i' + 1 ≤ r + 1 := by clear * - hij' hjr d1; omega
        have q4 : l - 1 ≤ j' - 1 := by clear * - hij' hli c1; omega
        have q5 : i' + 1 ≤ j' - 1 → j' - 1 - (i' + 1) + 1 < (fuel : Int) := by clear * - hf' c1 d1; omega
        have q6 : 0 < fuel := by clear * - hf' hij; omega
        obtain ⟨-, -, e, f1, f2⟩ := valAt_ok c4
        obtain ⟨-, -, e', g1, g2⟩ := valAt_ok d4
        have hx : loadI arr i' = .ok e := by
          unfold loadI; rw [if_neg (by omega)]; exact Mem.load_ok f1
        have hy : loadI arr j' = .ok e' := by
          unfold loadI; rw [if_neg (by omega)]; exact Mem.load_ok g1
        obtain ⟨arr', e3, hR, hgi, hgj, hgo⟩ := swapAt_spec (l := l) (r := r) hij' (by omega) (by omega) hx hy
        rw [e3, Outcome.bind_ok]
        have vi : valAt vals arr' i' = .ok y := by
          rw [← d4]; exact valAt_congr (by omega) (by omega) (by rw [hgi, g1])
        have vj : valAt vals arr' j' = .ok x := by
          rw [← c4]; exact valAt_congr (by omega) (by omega) (by rw [hgj, f1])
        have vo : ∀ m, l ≤ m → m ≠ i' → m ≠ j' → valAt vals arr' m = valAt vals arr m := by
          intro m h0 h1 h2
          exact valAt_congr (by omega) (by omega) (hgo m.toNat (by omega) (by omega))
        have hall' : ∀ m, l ≤ m → m ≤ r → ∃ x, valAt vals arr' m = .ok x := by
          intro m hm hm'
          by_cases h1 : m = i'
          · rw [h1]; exact ⟨_, vi⟩
          · by_cases h2 : m = j'
            · rw [h2]; exact ⟨_, vj⟩
            · rw [vo m hm h1 h2]; exact hall m hm hm'
        have H := splitLoop_spec hl (vals := vals) (p := p) (l := l) (r := r) fuel arr' (i' + 1) (j' - 1)
          q1 q2 q3 q4 (by rw [hR.len]; exact hra) q5 q6 hall'
          (by
            intro m hm hm'
            by_cases h1 : m = i'
            · rw [h1]; exact ⟨_, vi, d5⟩
            · rw [vo m hm h1 (by omega)]; exact hlo' m hm (by omega))
          (by
            intro m hm hm'
            by_cases h1 : m = j'
            · rw [h1]; exact ⟨_, vj, c5⟩
            · rw [vo m (by omega) (by omega) h1]; exact hhi' m (by omega) hm')
          (fun h => ⟨j', by omega, by omega, _, vj, c5⟩)
          (fun h => ⟨i', by omega, by omega, _, vi, d5⟩)
          (Or.inl ⟨by omega, by omega⟩)
        obtain ⟨arr'', i'', j'', e4, hR', rest⟩ := H
        exact ⟨arr'', i'', j'', e4, hR.trans hR', rest⟩
      · rw [if_neg hij']
        rcases hfirst with hfirst | ⟨h1, h2, k, h3, h4, h5⟩
        · have hnij : ¬ i' ≤ j' := hij'
          cases fuel with
          | zero => omega
          | succ fuel =>
            unfold splitLoop
            rw [if_neg hnij]
            exact ⟨arr, i', j', rfl, Rearr.refl _ _ _, by omega, by omega, by omega, by omega, by omega, hlo', hhi'⟩
        · exfalso
          -- in the first round the scans stop at the pivot at the latest
          have hi'k : i' ≤ k := by
            by_contra hc
            obtain ⟨z, hz, hzp⟩ := hlo' k h3 (by omega)
            rcases Int.lt_or_le k i' with hk | hk
            · -- strictly below: scanUp only passes values < p
              have : ∀ (fuel : Nat) (i k i' : Int), scanUp vals arr p fuel i = .ok i' → i ≤ k → k < i' →
                  ∃ x, valAt vals arr k = .ok x ∧ x < p := by
                intro fuel
                induction fuel with
                | zero => intro i k i' h; cases h
                | succ fuel ih =>
                  intro i k i' h h1 h2
                  unfold scanUp at h
                  rw [bind_ok_iff] at h
                  obtain ⟨x, hx, h⟩ := h
                  by_cases hxp : x < p
                  · rw [if_pos hxp] at h
                    by_cases hk : k = i
                    · subst hk; exact ⟨x, hx, hxp⟩
                    · exact ih (i + 1) k i' h (by omega) h2
                  · rw [if_neg hxp] at h
                    cases h; omega
              obtain ⟨w, hw, hwp⟩ := this _ _ k _ e1 (by omega) hk
              rw [h5] at hw; cases hw; omega
            · omega
          have hkj' : k ≤ j' := by
            by_contra hc
            have : ∀ (fuel : Nat) (j k j' : Int), scanDown vals arr p fuel j = .ok j' → k ≤ j → j' < k →
                ∃ x, valAt vals arr k = .ok x ∧ p < x := by
              intro fuel
              induction fuel with
              | zero => intro i k i' h; cases h
              | succ fuel ih =>
                intro j k j' h h1 h2
                unfold scanDown at h
                rw [bind_ok_iff] at h
                obtain ⟨x, hx, h⟩ := h
                by_cases hxp : p < x
                · rw [if_pos hxp] at h
                  by_cases hk : k = j
                  · subst hk; exact ⟨x, hx, hxp⟩
                  · exact ih (j - 1) k j' h (by omega) h2
                · rw [if_neg hxp] at h
                  cases h; omega
            obtain ⟨w, hw, hwp⟩ := this _ _ k _ e2 (by omega) (by omega)
            rw [h5] at hw; cases hw; omega
          omega
    · rw [if_neg hij]
      rcases hfirst with ⟨h1, h2⟩ | ⟨h1, h2, k, h3, h4, h5⟩
      · exact ⟨arr, i, j, rfl, Rearr.refl _ _ _, by omega, h1, h2, hir, hlj, hlo, hhi⟩
      · omega

/-- the values at the positions `l … r` are in increasing order -/
def SortedSeg (vals : Mem Int) (l r : Int) (arr : Mem Nat) : Prop :=
  ∀ a b, l ≤ a → a ≤ b → b ≤ r → ∃ x y, valAt vals arr a = .ok x ∧ valAt vals arr b = .ok y ∧ x ≤ y

theorem bfsSortF_spec {vals : Mem Int} : ∀ (fuel : Nat) (arr : Mem Nat) (l r : Int), 0 ≤ l → l ≤ r →
    r < arr.length → r - l + 1 < fuel → (∀ m, l ≤ m → m ≤ r → ∃ x, valAt vals arr m = .ok x) →
    ∃ arr', bfsSortF vals fuel arr l r = .ok arr' ∧ Rearr l r arr arr' ∧ SortedSeg vals l r arr'
  | 0, _, _, _, _, _, _, h, _ => by omega
  | fuel + 1, arr, l, r, hl, hlr, hr, hf, hall => by
    unfold bfsSortF
    obtain ⟨p, hp⟩ := hall ((l + r) / 2) (by omega) (by omega)
    rw [hp, Outcome.bind_ok]
    obtain ⟨arr1, i, j, e1, hR, h1, h2, h3, h4, h5, hlo, hhi⟩ := splitLoop_spec (vals := vals) (p := p) (l := l) (r := r) hl
      (arr.length + 2) arr l r (by omega) (by omega) (by omega) (by omega) hr (by omega) (by omega) hall
      (fun m hm hm' => by omega) (fun m hm hm' => by omega)
      (fun _ => ⟨(l + r) / 2, by omega, by omega, p, hp, by omega⟩)
      (fun _ => ⟨(l + r) / 2, by omega, by omega, p, hp, by omega⟩)
      (Or.inr ⟨rfl, rfl, (l + r) / 2, by omega, by omega, hp⟩)
    rw [e1, Outcome.bind_ok]
    have hall1 : ∀ m, l ≤ m → m ≤ r → ∃ x, valAt vals arr1 m = .ok x := fun m hm hm' => by
      obtain ⟨x, hx, -⟩ := hR.all hl vals (fun _ => True) (fun m hm hm' => by
        obtain ⟨x, hx⟩ := hall m hm hm'; exact ⟨x, hx, trivial⟩) m hm hm'
      exact ⟨x, hx⟩
    -- the left half
    have hL : ∃ arr2, (if l < j then bfsSortF vals fuel arr1 l j else Outcome.ok arr1) = .ok arr2 ∧
        Rearr l j arr1 arr2 ∧ SortedSeg vals l j arr2 := by
      by_cases hlj : l < j
      · rw [if_pos hlj]
        exact bfsSortF_spec fuel arr1 l j hl (by omega) (by rw [hR.len]; omega) (by omega)
          (fun m hm hm' => hall1 m hm (by omega))
      · rw [if_neg hlj]
        refine ⟨arr1, rfl, Rearr.refl _ _ _, ?_⟩
        intro a b ha hab hb
        obtain ⟨x, hx⟩ := hall1 a ha (by omega)
        have : b = a := by omega
        subst this
        exact ⟨x, x, hx, hx, le_refl _⟩
    obtain ⟨arr2, e2, hR2, hS2⟩ := hL
    show ∃ arr', ((if l < j then bfsSortF vals fuel arr1 l j else Outcome.ok arr1) >>= fun arr =>
      if i < r then bfsSortF vals fuel arr i r else Outcome.ok arr) = Outcome.ok arr' ∧ _
    rw [e2, Outcome.bind_ok]
    have hR2' : Rearr l r arr1 arr2 := hR2.mono (by omega) (by omega)
    have hout2 : ∀ m, j < m → 0 ≤ m → valAt vals arr2 m = valAt vals arr1 m := fun m hm h0 =>
      valAt_congr h0 h0 (hR2.out m.toNat (by omega))
    have hlo2 : ∀ m, l ≤ m → m < i → ∃ x, valAt vals arr2 m = .ok x ∧ x ≤ p := by
      intro m hm hm'
      by_cases h : m ≤ j
      · exact hR2.all hl vals (fun x => x ≤ p) (fun m hm hm' => hlo m hm (by omega)) m hm h
      · rw [hout2 m (by omega) (by omega)]; exact hlo m hm hm'
    have hhi2 : ∀ m, j < m → m ≤ r → ∃ x, valAt vals arr2 m = .ok x ∧ p ≤ x := by
      intro m hm hm'
      rw [hout2 m hm (by omega)]; exact hhi m hm hm'
    have hall2 : ∀ m, l ≤ m → m ≤ r → ∃ x, valAt vals arr2 m = .ok x := by
      intro m hm hm'
      by_cases h : m < i
      · obtain ⟨x, hx, -⟩ := hlo2 m hm h; exact ⟨x, hx⟩
      · obtain ⟨x, hx, -⟩ := hhi2 m (by omega) hm'; exact ⟨x, hx⟩
    -- the right half
    have hRt : ∃ arr3, (if i < r then bfsSortF vals fuel arr2 i r else Outcome.ok arr2) = .ok arr3 ∧
        Rearr i r arr2 arr3 ∧ SortedSeg vals i r arr3 := by
      by_cases hir : i < r
      · rw [if_pos hir]
        exact bfsSortF_spec fuel arr2 i r (by omega) (by omega) (by rw [hR2.len, hR.len]; omega) (by omega)
          (fun m hm hm' => hall2 m (by omega) hm')
      · rw [if_neg hir]
        refine ⟨arr2, rfl, Rearr.refl _ _ _, ?_⟩
        intro a b ha hab hb
        obtain ⟨x, hx⟩ := hall2 a (by omega) (by omega)
        have : b = a := by omega
        subst this
        exact ⟨x, x, hx, hx, le_refl _⟩
    obtain ⟨arr3, e3, hR3, hS3⟩ := hRt
    refine ⟨arr3, e3, hR.trans (hR2'.trans (hR3.mono (by omega) (le_refl _))), ?_⟩
    have hout3 : ∀ m, m < i → 0 ≤ m → valAt vals arr3 m = valAt vals arr2 m := fun m hm h0 =>
      valAt_congr h0 h0 (hR3.out m.toNat (by omega))
    have hhi3 : ∀ m, j < m → m ≤ r → ∃ x, valAt vals arr3 m = .ok x ∧ p ≤ x := by
      intro m hm hm'
      by_cases h : i ≤ m
      · exact hR3.all (by omega) vals (fun x => p ≤ x) (fun m hm hm' => hhi2 m (by omega) hm') m h hm'
      · rw [hout3 m (by omega) (by omega)]; exact hhi2 m hm hm'
    have hlo3 : ∀ m, l ≤ m → m < i → ∃ x, valAt vals arr3 m = .ok x ∧ x ≤ p := by
      intro m hm hm'
      rw [hout3 m hm' (by omega)]; exact hlo2 m hm hm'
    intro a b ha hab hb
    by_cases hbj : b ≤ j
    · obtain ⟨x, y, hx, hy, hxy⟩ := hS2 a b ha hab hbj
      exact ⟨x, y, by rw [hout3 a (by omega) (by omega)]; exact hx,
        by rw [hout3 b (by omega) (by omega)]; exact hy, hxy⟩
    · by_cases hai : i ≤ a
      · exact hS3 a b hai hab hb
      · obtain ⟨x, hx, hxp⟩ := hlo3 a ha (by omega)
        obtain ⟨y, hy, hyp⟩ := hhi3 b (by omega) hb
        exact ⟨x, y, hx, hy, by omega⟩

/-- C41: sorting the positions of `seg` in an array leaves everything around them alone and returns the same edge ids
in the order of their distance.  `dist e` is the distance of edge `e`, stored in `vals`.  There is no undefined
behaviour: no scan leaves the array. -/
theorem c41_sort (pre post : Mem Nat) (seg : List Nat) (hne : seg ≠ []) (vals : Mem Int) (dist : Nat → Int)
    (hv : ∀ e ∈ seg, vals[e]? = some (some (dist e))) :
    ∃ seg' : List Nat,
      bfsSort (pre ++ Mem.ofList seg ++ post) pre.length (pre.length + seg.length - 1) vals
        = .ok (pre ++ Mem.ofList seg' ++ post) ∧
      seg'.Perm seg ∧ seg'.Pairwise (fun a b => dist a ≤ dist b) := by
  have hpos : 0 < seg.length := List.length_pos_iff.mpr hne
  have hlen : (pre ++ Mem.ofList seg ++ post).length = pre.length + seg.length + post.length := by simp [Mem.ofList]; omega
  have hget : ∀ k, (h : k < seg.length) → (pre ++ Mem.ofList seg ++ post)[pre.length + k]? = some (some seg[k]) := by
    intro k hk
    rw [List.append_assoc, List.getElem?_append_right (by omega), List.getElem?_append_left (by simp [Mem.ofList]; omega)]
    simp [Mem.ofList, hk]
  have hall : ∀ m : Int, (pre.length : Int) ≤ m → m ≤ pre.length + seg.length - 1 →
      ∃ x, valAt vals (pre ++ Mem.ofList seg ++ post) m = .ok x := by
    intro m h1 h2
    have hk : m.toNat - pre.length < seg.length := by omega
    have hg := hget (m.toNat - pre.length) hk
    rw [show pre.length + (m.toNat - pre.length) = m.toNat by omega] at hg
    refine ⟨dist seg[m.toNat - pre.length], ?_⟩
    unfold valAt loadI
    rw [if_neg (by omega), Mem.load_ok hg, Outcome.bind_ok, Mem.load_ok (hv _ (by simp))]
  obtain ⟨arr', e, hR, hS⟩ := bfsSortF_spec (vals := vals) ((pre ++ Mem.ofList seg ++ post).length + 1)
    (pre ++ Mem.ofList seg ++ post) pre.length (pre.length + seg.length - 1) (by omega) (by omega)
    (by rw [hlen]; push_cast; omega) (by rw [hlen]; push_cast; omega) hall
  -- the shape of the result
  have hsplit : arr' = pre ++ (arr'.drop pre.length).take seg.length ++ post := by
    apply List.ext_getElem?
    intro k
    by_cases h1 : k < pre.length
    · rw [hR.out k (by omega), List.append_assoc, List.append_assoc, List.getElem?_append_left h1,
        List.getElem?_append_left h1]
    · by_cases h2 : k < pre.length + seg.length
      · have hl' : arr'.length = pre.length + seg.length + post.length := by rw [hR.len, hlen]
        rw [List.append_assoc, List.getElem?_append_right (by omega), List.getElem?_append_left (by simp; omega),
          List.getElem?_take_of_lt (by omega), List.getElem?_drop]
        congr 1; omega
      · have hl' : arr'.length = pre.length + seg.length + post.length := by rw [hR.len, hlen]
        rw [hR.out k (by omega), List.getElem?_append_right (by simp [Mem.ofList]; omega),
          List.getElem?_append_right (by simp; omega)]
        congr 1
        simp [Mem.ofList]; omega
  have hcell : ∀ c ∈ (arr'.drop pre.length).take seg.length, ∃ e ∈ seg, c = some e := by
    intro c hc
    obtain ⟨k, hk, rfl⟩ := List.mem_iff_getElem.mp hc
    have hk' : k < seg.length := by simp at hk; omega
    obtain ⟨k', h1, h2, he⟩ := hR.img (pre.length + k) (by omega) (by push_cast; omega)
    have hg := hget (k' - pre.length) (by omega)
    rw [show pre.length + (k' - pre.length) = k' by omega] at hg
    refine ⟨seg[k' - pre.length], by simp, ?_⟩
    rw [hg] at he
    rw [List.getElem_take, List.getElem_drop]
    have hlt : pre.length + k < arr'.length := by rw [hR.len, hlen]; omega
    rw [List.getElem?_eq_getElem hlt] at he
    exact Option.some.inj he
  have hmap : ∃ seg' : List Nat, (arr'.drop pre.length).take seg.length = Mem.ofList seg' ∧ ∀ e ∈ seg', e ∈ seg := by
    generalize (arr'.drop pre.length).take seg.length = L at hcell
    clear hS hR hall e hsplit
    induction L with
    | nil => exact ⟨[], rfl, by simp⟩
    | cons c L ih =>
      obtain ⟨s, hs, hs'⟩ := ih (fun c hc => hcell c (by simp [hc]))
      obtain ⟨e, he, rfl⟩ := hcell c (by simp)
      exact ⟨e :: s, by simp [Mem.ofList, hs], by simpa [he] using hs'⟩
  obtain ⟨seg', hs1, hs2⟩ := hmap
  rw [hs1] at hsplit
  have hlen' : seg'.length = seg.length := by
    have := congrArg List.length hsplit
    rw [hR.len, hlen] at this
    simp [Mem.ofList] at this
    omega
  refine ⟨seg', by unfold bfsSort; rw [e, ← hsplit], ?_, ?_⟩
  · have hp := hR.perm
    rw [hsplit] at hp
    rw [List.perm_append_right_iff, List.perm_append_left_iff] at hp
    unfold Mem.ofList at hp
    have := hp.filterMap id
    simpa [List.filterMap_map] using this
  · rw [List.pairwise_iff_getElem]
    intro a b ha hb hab
    obtain ⟨x, y, hx, hy, hxy⟩ := hS (pre.length + a) (pre.length + b) (by omega) (by omega) (by omega)
    have hval : ∀ k : Nat, (h : k < seg'.length) → valAt vals arr' (pre.length + k) = .ok (dist seg'[k]) := by
      intro k hk
      rw [hsplit]
      unfold valAt loadI
      rw [if_neg (by omega), show ((pre.length : Int) + k).toNat = pre.length + k by omega]
      rw [Mem.load_ok (a := seg'[k]) (by
        rw [List.append_assoc, List.getElem?_append_right (by omega), List.getElem?_append_left (by simp [Mem.ofList]; omega)]
        simp [Mem.ofList, hk]), Outcome.bind_ok, Mem.load_ok (hv _ (hs2 _ (by simp)))]
    rw [hval a ha] at hx; rw [hval b hb] at hy
    cases hx; cases hy; exact hxy

/-- C41's hypotheses are met: five edges with repeated distances, between cells never written -/
example : ∃ seg' : List Nat,
    bfsSort ([none] ++ Mem.ofList [4, 0, 3, 1, 2] ++ [none, none]) 1 5 (Mem.ofList [7, 3, 7, 0, 5])
      = .ok ([none] ++ Mem.ofList seg' ++ [none, none]) ∧ seg'.Perm [4, 0, 3, 1, 2] ∧
    seg'.Pairwise (fun a b => ([7, 3, 7, 0, 5] : List Int).getD a 0 ≤ ([7, 3, 7, 0, 5] : List Int).getD b 0) := by
  have := c41_sort [none] [none, none] [4, 0, 3, 1, 2] (by simp) (Mem.ofList [7, 3, 7, 0, 5])
    (fun a => ([7, 3, 7, 0, 5] : List Int).getD a 0) (by decide)
  simpa using this

end Verif.Part
