import Verif.Part.SlopeModel
import Mathlib.Algebra.Order.Ring.Rat
import Mathlib.Tactic.Ring
import Mathlib.Tactic.NormNum
import Mathlib.Tactic.Linarith
/-!
# C38: the stagnation detector
-/
namespace Verif.Part

theorem uintMod_lt (k : Nat) (h : k < 4294967296) : k % uintMod = k := by
  have : uintMod = 4294967296 := by decide
  rw [this]; exact Nat.mod_eq_of_lt h

/-- the shape of the ring after any history -/
theorem pushAll_shape (l : List Dbl) : ∃ y, SDSlope.new.pushAll l = .ok y ∧ y.maxLen = 3 ∧
    y.curLen = min l.length 3 ∧ y.pos = l.length % 3 ∧ y.vals.length = 3 := by
  obtain ⟨y, h, h1, h2, h3, h4⟩ := foldlM_inv SDSlope.push
    (fun pre y => y.maxLen = 3 ∧ y.curLen = min pre.length 3 ∧ y.pos = pre.length % 3 ∧
      y.vals.length = 3) l (by
      rintro pre v ⟨m, cl, q, vs⟩ - ⟨h1, h2, h3, h4⟩
      dsimp only at h1 h2 h3 h4
      subst h1
      unfold SDSlope.push
      have hq : q < vs.length := by omega
      dsimp only
      rw [Mem.store_ok v hq]
      refine ⟨_, rfl, rfl, ?_, ?_, by simpa using h4⟩
      · dsimp only
        unfold SDSlope.isFull
        dsimp only
        simp only [List.length_append, List.length_singleton]
        by_cases hc : cl = 3
        · subst hc; simp; omega
        · rw [if_neg (by simpa using hc), uintMod_lt _ (by omega)]; omega
      · dsimp only
        rw [uintMod_lt _ (by omega)]
        simp only [List.length_append, List.length_singleton]; omega)
    SDSlope.new ⟨rfl, rfl, rfl, rfl⟩
  exact ⟨y, h, h1, h2, h3, h4⟩

theorem pushAll_append (x : SDSlope) (l m : List Dbl) :
    x.pushAll (l ++ m) = (x.pushAll l >>= fun y => y.pushAll m) := by
  unfold SDSlope.pushAll; rw [List.foldlM_append]

/-- the index `get(i)` reads in a full ring -/
def ringIndex : Nat → Nat → Nat
  | 0, 0 => 0 | 0, 1 => 2 | 0, 2 => 1
  | 1, 0 => 1 | 1, 1 => 0 | 1, 2 => 2
  | 2, 0 => 2 | 2, 1 => 1 | 2, 2 => 0
  | _, _ => 0

theorem get_full (m p i : Nat) (vs : Mem Dbl) (hp : p < 3) (hi : i < 3) :
    (SDSlope.mk m 3 p vs).get i = vs.load (ringIndex p i) := by
  unfold SDSlope.get
  dsimp only
  rw [if_neg (by omega)]
  congr 1
  have : uintMod = 4294967296 := by decide
  rw [this]
  rcases (show p = 0 ∨ p = 1 ∨ p = 2 by omega) with rfl | rfl | rfl <;>
    rcases (show i = 0 ∨ i = 1 ∨ i = 2 by omega) with rfl | rfl | rfl <;> simp [ringIndex]

/-- three pushes from a not yet full ring -/
theorem pushAll_last (l : List Dbl) (a b c : Dbl) :
    ∃ y, SDSlope.new.pushAll (l ++ [a, b, c]) = .ok y ∧ y.isFull = true ∧ y.maxLen = 3 ∧
      y.get 0 = .ok a ∧ y.get 1 = .ok c ∧ y.get 2 = .ok b := by
  obtain ⟨x, hx, hm, hc, hp, hv⟩ := pushAll_shape l
  obtain ⟨y', hy', hm', -⟩ := pushAll_shape (l ++ [a, b, c])
  have key : ∃ y, x.pushAll [a, b, c] = .ok y ∧ y.isFull = true ∧
      y.get 0 = .ok a ∧ y.get 1 = .ok c ∧ y.get 2 = .ok b := by
    obtain ⟨m, cl, q, vs⟩ := x
    dsimp only at hm hc hp hv
    subst hm
    match vs, hv with
    | [v0, v1, v2], _ =>
      rcases (show (q = 0 ∧ cl = 0) ∨ (q = 1 ∧ cl = 1) ∨ (q = 2 ∧ cl = 2) ∨ (q = 0 ∧ cl = 3) ∨
          (q = 1 ∧ cl = 3) ∨ (q = 2 ∧ cl = 3) by omega) with
        ⟨rfl, rfl⟩ | ⟨rfl, rfl⟩ | ⟨rfl, rfl⟩ | ⟨rfl, rfl⟩ | ⟨rfl, rfl⟩ | ⟨rfl, rfl⟩ <;>
      simp [SDSlope.pushAll, SDSlope.push, SDSlope.isFull, get_full, ringIndex, Mem.load, Mem.store,
        uintMod_lt]
  obtain ⟨y, hy, hf, h0, h1, h2⟩ := key
  have e : SDSlope.new.pushAll (l ++ [a, b, c]) = .ok y := by
    rw [pushAll_append, hx]; exact hy
  have : y' = y := by rw [e] at hy'; injection hy' with h; exact h.symm
  subst this
  exact ⟨y', e, hf, hm', h0, h1, h2⟩

/-- **C38**: before three values were pushed the detector is not full and `slope`/`average` refuse;
whatever was pushed before them, with last three values `a, b, c` (oldest first)
the slope is `2c - b/2 - 3a/2` and the average their mean. -/
theorem c38_exact (l : List Dbl) :
    (l.length < 3 → ∃ y, SDSlope.new.pushAll l = .ok y ∧ y.isFull = false ∧
      y.slope = .fail ∧ y.average = .fail) ∧
    (∀ (pre : List Dbl) (a b c : Rat), l = pre ++ [some a, some b, some c] →
      ∃ y, SDSlope.new.pushAll l = .ok y ∧ y.isFull = true ∧
      y.slope = .ok (some (2 * c - b / 2 - 3 * a / 2)) ∧ y.average = .ok (some ((a + b + c) / 3))) := by
  constructor
  · intro hl
    obtain ⟨y, hy, hm, hc, -, -⟩ := pushAll_shape l
    have hf : y.isFull = false := by
      unfold SDSlope.isFull; rw [hm, hc]; simp; omega
    exact ⟨y, hy, hf, by simp [SDSlope.slope, hf], by simp [SDSlope.average, hf]⟩
  · rintro pre a b c rfl
    obtain ⟨y, hy, hf, hm, h0, h1, h2⟩ := pushAll_last pre (some a) (some b) (some c)
    refine ⟨y, hy, hf, ?_, ?_⟩
    · unfold SDSlope.slope
      rw [if_pos hf, hm]
      simp only [List.range', List.foldlM_cons, List.foldlM_nil, SDSlope.slopeStep, h0, h1, h2,
        Outcome.bind_ok, rd, sdWs, List.getElem?_cons_zero, List.getElem?_cons_succ, Nat.zero_add,
        Nat.reduceAdd, Outcome.ofOption_some, Outcome.pure_eq, Dbl.add, Dbl.mul, Option.map_some,
        Option.bind_some]
      congr 2; ring
    · unfold SDSlope.average
      rw [if_pos hf, hm]
      simp only [List.range', List.foldlM_cons, List.foldlM_nil, SDSlope.avgStep, h0, h1, h2,
        Outcome.bind_ok, Nat.zero_add, Nat.reduceAdd, Outcome.pure_eq, Dbl.add, Option.map_some,
        Option.bind_some]
      congr 2; push_cast; ring

/-- **C38**, the sign of the slope: for every history of at least three values whose last three are
non-decreasing (non-increasing, constant) it is `≥ 0` (`≤ 0`, `0`), and strictly so if the last value
differs from the one three steps before. -/
theorem c38_sign (pre : List Dbl) (a b c : Rat) :
    ∃ y s, SDSlope.new.pushAll (pre ++ [some a, some b, some c]) = .ok y ∧ y.slope = .ok (some s) ∧
      (a ≤ b → b ≤ c → 0 ≤ s) ∧ (b ≤ a → c ≤ b → s ≤ 0) ∧ (a = b → b = c → s = 0) ∧
      (a ≤ b → b ≤ c → a < c → 0 < s) ∧ (b ≤ a → c ≤ b → c < a → s < 0) := by
  obtain ⟨y, hy, -, hs, -⟩ := (c38_exact (pre ++ [some a, some b, some c])).2 pre a b c rfl
  refine ⟨y, _, hy, hs, ?_, ?_, ?_, ?_, ?_⟩
  · intro h1 h2; linarith
  · intro h1 h2; linarith
  · rintro rfl rfl; ring
  · intro h1 h2 h3; linarith
  · intro h1 h2 h3; linarith

/-- a history of seven values, so the ring has wrapped twice -/
example : ∃ y, SDSlope.new.pushAll ([some 9, some 1, some 4, some 2] ++ [some 5, some 6, some 8]) = .ok y ∧
    y.slope = .ok (some (11 / 2)) := by
  obtain ⟨y, hy, -, hs, -⟩ :=
    (c38_exact ([some 9, some 1, some 4, some 2] ++ [some 5, some 6, some 8])).2 _ _ _ _ rfl
  exact ⟨y, hy, by rw [hs]; norm_num⟩

end Verif.Part
