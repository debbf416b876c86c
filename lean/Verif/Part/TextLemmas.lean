import Verif.Part.TextModel
import Verif.Part.TextSpec
import Verif.Part.MetricsProps
import Verif.Io.NameLemmas
import Mathlib.Tactic.FieldSimp
import Mathlib.Tactic.Positivity
import Mathlib.Tactic.Linarith
/-!
# Lemmas for C86
-/
namespace Verif.Part.Text
open Verif.Names

/-- the outcome of putting a text together, exactly -/
theorem build_from (cap : Nat) (ts : List (List Char)) (buf : List Char) (h : buf.length + 1 ≤ cap) :
    ts.foldlM (fun buf t => sprintf cap (buf ++ t)) buf = if (buf ++ ts.flatten).length + 1 ≤ cap then .ok (buf ++ ts.flatten) else .ub := by
  induction ts generalizing buf with
  | nil => simp [h]
  | cons t ts ih =>
    rw [List.foldlM_cons]
    unfold sprintf at ih ⊢
    by_cases hc : (buf ++ t).length + 1 ≤ cap
    · rw [if_pos hc, Outcome.bind_ok, ih _ hc]
      simp
    · rw [if_neg hc, Outcome.bind_ub, if_neg]
      simp only [List.length_append, List.flatten_cons] at hc ⊢
      omega

theorem build_eq (cap : Nat) (hc : 0 < cap) (ts : List (List Char)) : build cap ts = if ts.flatten.length + 1 ≤ cap then .ok ts.flatten else .ub := by
  have := build_from cap ts [] (by rw [List.length_nil]; omega)
  simpa [build] using this

theorem roundDiv_le {a b M : Nat} (hb : 0 < b) (h : a ≤ M * b) : roundDiv a b ≤ M := by
  have h1 : a / b ≤ M := Nat.div_le_of_le_mul (by rw [Nat.mul_comm]; exact h)
  have h2 : b * (a / b) + a % b = a := Nat.div_add_mod a b
  by_cases he : a / b = M
  · have h3 : a % b = 0 := by
      rw [he, Nat.mul_comm] at h2
      omega
    unfold roundDiv
    rw [if_pos (by omega)]
    exact h1
  · unfold roundDiv
    split
    · exact h1
    · split
      · omega
      · split <;> omega

theorem roundDiv_near {a b : Nat} (hb : 0 < b) : 2 * (roundDiv a b * b) ≤ 2 * a + b ∧ 2 * a ≤ 2 * (roundDiv a b * b) + b := by
  have h2 : b * (a / b) + a % b = a := Nat.div_add_mod a b
  have h3 : a % b < b := Nat.mod_lt _ hb
  have e1 : (a / b) * b = b * (a / b) := Nat.mul_comm _ _
  have e2 : (a / b + 1) * b = b * (a / b) + b := by rw [Nat.add_mul, e1, Nat.one_mul]
  unfold roundDiv
  split
  · rw [e1]; omega
  · split
    · rw [e2]; omega
    · split
      · rw [e1]; omega
      · rw [e2]; omega

theorem pad_length {k n : Nat} (hk : 0 < k) (hn : n < 10 ^ k) : (pad k n).length = k := by
  have := (dec_length_le hk).mpr hn
  unfold pad
  rw [List.length_append, List.length_replicate]
  omega

/-- `|x|` as a quotient of the code's two numbers -/
theorem abs_num (x : Rat) : |x| = (x.num.natAbs : Rat) / x.den := by
  conv => lhs; rw [← Rat.num_div_den x]
  rw [abs_div, Nat.abs_cast]
  congr 1
  rw [← Int.cast_abs, Int.abs_eq_natAbs]
  simp

theorem num_le {x : Rat} {M : Nat} (h : |x| ≤ M) : x.num.natAbs ≤ M * x.den := by
  rw [abs_num] at h
  have hd : (0 : Rat) < x.den := by exact_mod_cast x.den_pos
  rw [div_le_iff₀ hd] at h
  exact_mod_cast h

theorem fixed_length {k : Nat} (hk : 0 < k) {x : Rat} {M d : Nat} (h : |x| ≤ M) (hM : M < 10 ^ d) (hd : 0 < d) :
    (fixed k x).length ≤ (if x < 0 then 1 else 0) + d + 1 + k := by
  have h1 := num_le h
  have h2 : roundDiv (x.num.natAbs * 10 ^ k) x.den ≤ M * 10 ^ k := roundDiv_le x.den_pos (by
    have := Nat.mul_le_mul_right (10 ^ k) h1
    calc x.num.natAbs * 10 ^ k ≤ M * x.den * 10 ^ k := this
      _ = M * 10 ^ k * x.den := by rw [Nat.mul_assoc, Nat.mul_comm x.den, Nat.mul_assoc])
  have h3 : roundDiv (x.num.natAbs * 10 ^ k) x.den / 10 ^ k ≤ M := Nat.div_le_of_le_mul (le_of_le_of_eq h2 (Nat.mul_comm _ _))
  have h4 : (dec (roundDiv (x.num.natAbs * 10 ^ k) x.den / 10 ^ k)).length ≤ d := (dec_length_le hd).mpr (by omega)
  have h5 := pad_length hk (Nat.mod_lt (roundDiv (x.num.natAbs * 10 ^ k) x.den) (Nat.pow_pos (n := k) (by omega : 0 < 10)))
  unfold fixed
  dsimp only
  rw [List.length_append, List.length_append, List.length_cons, h5]
  split <;> simp <;> omega

theorem dec_digits (n : Nat) : ∀ c ∈ dec n, c.isDigit = true := by
  intro c hc
  exact Nat.isDigit_of_mem_toDigits (by omega) (by omega) hc

theorem value_join {k n : Nat} (hk : 0 < k) : value (dec (n / 10 ^ k) ++ pad k (n % 10 ^ k)) = n := by
  have hp : 0 < 10 ^ k := Nat.pow_pos (by omega)
  have h5 := pad_length hk (Nat.mod_lt n hp)
  unfold value
  rw [Nat.ofDigitChars_append]
  have e1 : Nat.ofDigitChars 10 (dec (n / 10 ^ k)) 0 = n / 10 ^ k := Nat.ofDigitChars_ten_toDigits
  rw [e1, Nat.ofDigitChars_eq_ofDigitChars_zero, h5]
  have e2 : Nat.ofDigitChars 10 (pad k (n % 10 ^ k)) 0 = n % 10 ^ k := by
    unfold pad
    rw [Nat.ofDigitChars_append, Nat.ofDigitChars_replicate_zero, Nat.mul_zero]
    exact Nat.ofDigitChars_ten_toDigits
  rw [e2]
  exact Nat.div_add_mod _ _

theorem fixed_spells {k : Nat} (hk : 0 < k) (x : Rat) : Spells k x (fixed k x) := by
  have hp : 0 < 10 ^ k := Nat.pow_pos (by omega)
  refine ⟨dec (roundDiv (x.num.natAbs * 10 ^ k) x.den / 10 ^ k), pad k (roundDiv (x.num.natAbs * 10 ^ k) x.den % 10 ^ k), rfl, ?_, pad_length hk (Nat.mod_lt _ hp), ?_, ?_⟩
  · intro hc
    have := dec_length_pos (roundDiv (x.num.natAbs * 10 ^ k) x.den / 10 ^ k)
    rw [hc] at this
    cases this
  · intro c hc
    rcases List.mem_append.mp hc with hc | hc
    · exact dec_digits _ c hc
    · unfold pad at hc
      rcases List.mem_append.mp hc with hc | hc
      · rw [(List.mem_replicate.mp hc).2]; rfl
      · exact dec_digits _ c hc
  · rw [value_join hk, abs_num x]
    obtain ⟨h1, h2⟩ := roundDiv_near (a := x.num.natAbs * 10 ^ k) x.den_pos
    have hd : (0 : Rat) < x.den := by exact_mod_cast x.den_pos
    have ht : (0 : Rat) < 10 ^ k := by positivity
    have h1' : (2 : Rat) * (roundDiv (x.num.natAbs * 10 ^ k) x.den * x.den) ≤ 2 * (x.num.natAbs * 10 ^ k) + x.den := by exact_mod_cast h1
    have h2' : (2 : Rat) * (x.num.natAbs * 10 ^ k) ≤ 2 * (roundDiv (x.num.natAbs * 10 ^ k) x.den * x.den) + x.den := by exact_mod_cast h2
    generalize (roundDiv (x.num.natAbs * 10 ^ k) x.den : Rat) = r at h1' h2'
    generalize (x.num.natAbs : Rat) = a at h1' h2'
    generalize (x.den : Rat) = d at hd h1' h2'
    generalize ((10 : Rat) ^ k) = t at ht h1' h2'
    have e : r / t - a / d = (r * d - a * t) / (t * d) := by field_simp
    have e3 : 1 / (2 * t) = (d / 2) / (t * d) := by field_simp
    rw [e, e3, abs_div, abs_of_pos (mul_pos ht hd)]
    refine div_le_div_of_nonneg_right ?_ (mul_pos ht hd).le
    rw [abs_le]
    constructor <;> linarith

theorem int_length {i : Int} {d : Nat} (hd : 0 < d) (h : i.natAbs < 10 ^ d) : (int i).length ≤ d + 1 := by
  have := (dec_length_le hd).mpr h
  unfold int
  split
  · rw [List.length_cons]; omega
  · omega

/-- the imbalance of parts none of which has a negative weight is at most the number of parts -/
theorem imbalance_le {ws : List Rat} (h : ∀ w ∈ ws, 0 ≤ w) {r : Rat} (hr : imbalance ws = some r) : 0 ≤ r ∧ r ≤ ws.length := by
  by_cases hne : ws = []
  · subst hne
    simp [imbalance, divD] at hr
  obtain ⟨hm1, hm2⟩ := mpiMax_spec ws hne
  have hn : (0 : Rat) < ws.length := by
    have : 0 < ws.length := List.length_pos_of_ne_nil hne
    exact_mod_cast this
  have hsum : 0 ≤ ws.sum := List.sum_nonneg h
  have hmax : mpiMax ws ≤ ws.sum := List.single_le_sum h _ hm1
  have h0 : 0 ≤ mpiMax ws := h _ hm1
  unfold imbalance divD at hr
  dsimp only at hr
  split at hr
  · cases hr
  · rename_i hz
    injection hr with hr
    subst hr
    have hs : 0 < ws.sum := by
      rcases lt_or_eq_of_le hsum with h | h
      · exact h
      · exact absurd (by rw [← h]; simp) hz
    refine ⟨div_nonneg h0 (div_nonneg hsum hn.le), ?_⟩
    rw [div_le_iff₀ (div_pos hs hn)]
    have : (ws.length : Rat) * (ws.sum / ws.length) = ws.sum := by field_simp
    rw [this]
    exact hmax

end Verif.Part.Text
