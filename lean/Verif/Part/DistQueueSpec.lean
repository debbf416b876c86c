import Verif.Agi.DistSpec
/-!
# Specification for C56: distances between edges of a part

Nothing here refers to the code.  `nb e f` says that two edges are neighbours.
-/
namespace Verif.Part
open Verif.Agi

/-- `e` can be reached from the set `S` in at most `n` steps -/
def Within (nb : Nat → Nat → Prop) (S : Nat → Prop) : Nat → Nat → Prop
  | 0, e => S e
  | n + 1, e => Within nb S n e ∨ ∃ f, Within nb S n f ∧ nb f e

/-- the distance of `e` from the set `S` is `n` -/
def IsDist (nb : Nat → Nat → Prop) (S : Nat → Prop) (e n : Nat) : Prop :=
  Within nb S n e ∧ ∀ m, m < n → ¬ Within nb S m e

/-- `e` and `f` are joined by a chain of neighbours -/
def SameComp (nb : Nat → Nat → Prop) (e f : Nat) : Prop := ∃ n, Within nb (fun x => x = e) n f

/-- the core of the component of `c`: its edges farthest from the set `B` -/
def Core (nb : Nat → Nat → Prop) (B : Nat → Prop) (c x : Nat) : Prop :=
  SameComp nb c x ∧ ∀ y, SameComp nb c y → ∀ dx dy, IsDist nb B x dx → IsDist nb B y dy → dy ≤ dx

/-- `a` is no farther from the core of its component than `b` is, if they are in the same component -/
def NoFarther (nb : Nat → Nat → Prop) (B : Nat → Prop) (a b : Nat) : Prop :=
  ∀ c, SameComp nb c a → SameComp nb c b → ∀ da db, IsDist nb (Core nb B c) a da → IsDist nb (Core nb B c) b db → da ≤ db

/-- the depth of the component of `a`: the distance of its core from the set `B` -/
def CompDepth (nb : Nat → Nat → Prop) (B : Nat → Prop) (a n : Nat) : Prop :=
  (∃ x, SameComp nb a x ∧ IsDist nb B x n) ∧ ∀ x m, SameComp nb a x → IsDist nb B x m → m ≤ n

/-- the number of edges of the component of `a` -/
def CompSize (nb : Nat → Nat → Prop) (a n : Nat) : Prop :=
  ∃ l : List Nat, l.Nodup ∧ (∀ x, x ∈ l ↔ SameComp nb a x) ∧ l.length = n

/-- `a` and `b` are in one component, or that of `a` is less deep, or as deep and no larger -/
def Shallower (nb : Nat → Nat → Prop) (B : Nat → Prop) (a b : Nat) : Prop :=
  SameComp nb a b ∨ ∀ da db, CompDepth nb B a da → CompDepth nb B b db →
    da < db ∨ (da = db ∧ ∀ na n, CompSize nb a na → CompSize nb b n → na ≤ n)

/-- the edges of a component come one after the other -/
def Grouped (nb : Nat → Nat → Prop) (L : List Nat) : Prop :=
  ∀ a b c, [a, b, c].Sublist L → SameComp nb a c → SameComp nb a b

/-! ## edges of a part: `es` are the pins of its edges of type 0, by index -/

/-- two edges share a vertex of the part -/
def Share (verts : List Gid) (es : List (List Gid)) (e f : Nat) : Prop :=
  ∃ v ∈ verts, v ∈ es.getD e [] ∧ v ∈ es.getD f []

/-- the edge has a pin of another part -/
def Leaves (own : Gid → Nat) (p : Nat) (es : List (List Gid)) (e : Nat) : Prop := ∃ v ∈ es.getD e [], own v ≠ p

instance (own : Gid → Nat) (p : Nat) (es : List (List Gid)) (e : Nat) : Decidable (Leaves own p es e) := by
  unfold Leaves; infer_instance

/-- the part has an edge, of any type, to another part -/
def Touched (own : Gid → Nat) (p : Nat) (i : Input) : Prop := ∃ t ∈ i.types, ∃ ps ∈ t.pins, ∃ v ∈ ps, own v ≠ p

end Verif.Part
