/-!
# Outcomes

C/C++ code can do more than return a value.  Every model function that can misbehave returns an
`Outcome`:

* `ok a`   – the function returns `a`;
* `fail`   – the code detects the problem and stops the program on purpose
             (`reel_fail`, `abort()`, an assertion, an exception) ;
* `ub`     – undefined behaviour: an out-of-bounds access, a NULL dereference, a read of
             uninitialised memory, a corrupted shared sentinel.

Nothing is totalised by a silent default value.
-/
namespace Verif

/-- Result of running a piece of C/C++ code. -/
inductive Outcome (α : Type u) where
  | ok (a : α)
  | fail
  | ub
deriving DecidableEq, Repr

namespace Outcome

/-- Sequencing: a failure or undefined behaviour stops the computation. -/
def bind {α : Type u} {β : Type v} : Outcome α → (α → Outcome β) → Outcome β
  | ok a, f => f a
  | fail, _ => fail
  | ub, _ => ub

instance : Monad Outcome where
  pure := Outcome.ok
  bind := Outcome.bind

@[simp] theorem pure_eq {α : Type u} (a : α) : (pure a : Outcome α) = ok a := rfl
@[simp] theorem bind_ok {α β : Type u} (a : α) (f : α → Outcome β) : (ok a >>= f) = f a := rfl
@[simp] theorem bind_fail {α β : Type u} (f : α → Outcome β) : (fail >>= f) = fail := rfl
@[simp] theorem bind_ub {α β : Type u} (f : α → Outcome β) : (ub >>= f) = ub := rfl
@[simp] theorem bind'_ok {α : Type u} {β : Type v} (a : α) (f : α → Outcome β) :
    Outcome.bind (ok a) f = f a := rfl

/-- Lift an `Option`: `none` is undefined behaviour (used for array reads). -/
def ofOption {α : Type u} : Option α → Outcome α
  | some a => ok a
  | none => ub

@[simp] theorem ofOption_some {α : Type u} (a : α) : ofOption (some a) = ok a := rfl
@[simp] theorem ofOption_none {α : Type u} : ofOption (none : Option α) = ub := rfl

end Outcome
end Verif
