import Verif.Agi.IterModel
/-!
# What "iterating yields" means

`Yields step s l`: the loop `while ((x = iterate(itr)))` started with iterator `s` visits exactly the
handles of `l`, in that order, and then gets NULL.
-/
namespace Verif.Agi

/-- successive calls return the elements of `l` (none of them NULL), then NULL -/
def Yields {σ : Type} (step : σ → Outcome (Handle × σ)) : σ → List Handle → Prop
  | s, [] => ∃ s', step s = .ok (0, s')
  | s, h :: t => h ≠ 0 ∧ ∃ s', step s = .ok (h, s') ∧ Yields step s' t

/-- an iterator made by a call that may fail -/
def YieldsFrom {σ : Type} (mk : Outcome σ) (step : σ → Outcome (Handle × σ)) (l : List Handle) : Prop :=
  ∃ s, mk = .ok s ∧ Yields step s l

end Verif.Agi
