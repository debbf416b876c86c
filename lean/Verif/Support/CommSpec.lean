import Verif.Support.CommModel
/-
Specification for C71: what the application should see of the library and of its communicators.
-/
namespace Verif.Support
open Verif

/-- The application's view: its communicators (`none` when freed), the one the library works on (its
place and what it was when it was given), whether EnGPar or the application started the library, and
whether EnGPar has ever done so. -/
structure Spec where
  apps : List (Option Comm)
  cur : Option (Nat × Comm)
  mine : Bool
  took : Bool
deriving DecidableEq, Repr

def specStart (w : Comm) : Spec := { apps := [some w, some ⟨0, 1⟩], cur := none, mine := false, took := false }

/-- One operation; `w` is this process in `MPI_COMM_WORLD`, `fin` says when `EnGPar_Finalize` stops the
library. Using a communicator that is not there is undefined, using the library before it is started
or starting it twice fails. -/
def specStep (w : Comm) (fin : Spec → Bool) (s : Spec) : Op → Outcome (Ret × Spec)
  | .engparInit =>
      match s.cur with
      | none => .ok (.unit, { s with cur := some (0, w), mine := true, took := true })
      | some _ => .ok (.unit, s)
  | .engparFinalize => if s.cur.isSome ∧ fin s then .ok (.unit, { s with cur := none }) else .ok (.unit, s)
  | .pcuInit => if s.cur.isSome then .fail else .ok (.unit, { s with cur := some (0, w), mine := false })
  | .pcuFree => if s.cur.isSome then .ok (.unit, { s with cur := none }) else .fail
  | .switch k =>
      if s.apps.length ≤ k then .ub
      else if s.cur = none then .fail
      else
        match s.apps[k]? with
        | some (some c) => .ok (.unit, { s with cur := some (k, c) })
        | _ => .ub
  | .self => match s.cur with
      | some (_, c) => .ok (.nat c.rank, s)
      | none => .fail
  | .peers => match s.cur with
      | some (_, c) => .ok (.nat c.size, s)
      | none => .fail
  | .getComm => match s.cur with
      | some (k, _) => .ok (.nat k, s)
      | none => .fail
  | .isInit => .ok (.bool s.cur.isSome, s)
  | .newComm c => .ok (.nat s.apps.length, { s with apps := s.apps ++ [some c] })
  | .freeComm k =>
      match s.apps[k]? with
      | some (some _) => if k < 2 then .ub else .ok (.unit, { s with apps := s.apps.set k none })
      | _ => .ub

def specRun (w : Comm) (fin : Spec → Bool) : Spec → List Op → Outcome (List Ret × Spec)
  | s, [] => .ok ([], s)
  | s, op :: ops => do
      let (r, s) ← specStep w fin s op
      let (rs, s) ← specRun w fin s ops
      return (r :: rs, s)

/-- `EnGPar_Finalize` as meant: it stops the library if EnGPar started it. -/
def ideal (s : Spec) : Bool := s.mine

/-- `EnGPar_Finalize` as it is: it stops the library if EnGPar has ever started it. -/
def actual (s : Spec) : Bool := s.took

/-- The application never calls `EnGPar_Finalize` while the library is its own after EnGPar has had
one of its own. -/
def Clean (w : Comm) : Spec → List Op → Prop
  | _, [] => True
  | s, op :: ops =>
      (op = .engparFinalize → s.cur.isSome → s.mine = false → s.took = false) ∧
      ∀ r s', specStep w ideal s op = .ok (r, s') → Clean w s' ops

/-- What is returned. -/
def rets {α : Type} : Outcome (List Ret × α) → Outcome (List Ret)
  | .ok (rs, _) => .ok rs
  | .fail => .fail
  | .ub => .ub

end Verif.Support
