import Mathlib.Data.Rat.Defs
import Mathlib.Algebra.Order.Field.Rat
import Mathlib.Algebra.Order.Group.Abs
/-!
# What C86 asks of a text
-/
namespace Verif.Part.Text

/-- the number a text of digits stands for -/
def value (l : List Char) : Nat := Nat.ofDigitChars 10 l 0

/-- a text that shows a number with `k` digits after the point, none of them wrong by more than half a unit of the last -/
def Spells (k : Nat) (x : Rat) (t : List Char) : Prop :=
  ∃ a b, t = (if x < 0 then ['-'] else []) ++ a ++ '.' :: b ∧ a ≠ [] ∧ b.length = k ∧ (∀ c ∈ a ++ b, c.isDigit = true) ∧
    abs ((value (a ++ b) : Rat) / 10 ^ k - abs x) ≤ 1 / (2 * 10 ^ k)

/-- one number per criterion, in order, a space after each -/
def Lists (k : Nat) : List Rat → List Char → Prop
  | [], t => t = []
  | x :: xs, t => ∃ a b, t = a ++ ' ' :: b ∧ Spells k x a ∧ Lists k xs b

/-- a text that shows a whole number, without needless zeros -/
def SpellsInt (i : Int) (t : List Char) : Prop :=
  ∃ a, t = (if i < 0 then ['-'] else []) ++ a ∧ (∀ c ∈ a, c.isDigit = true) ∧ value a = i.natAbs ∧ a ≠ [] ∧ (a.head? = some '0' → a = ['0'])

/-- a space and a text for every member, in order -/
def Row {α : Type} (Q : α → List Char → Prop) : List α → List Char → Prop
  | [], t => t = []
  | x :: xs, t => ∃ a b, t = ' ' :: a ++ b ∧ Q x a ∧ Row Q xs b

end Verif.Part.Text
