import Verif.Support.MsgModel
/-
Specification for C72: what a user should see of the messages.
-/
namespace Verif.Support.Msg
open Verif

/-- What a user sees: what has been printed on standard output, on standard error and in the debug file,
whether output and errors go to the debug file now, and whether there was an error since the test began.
`lost` and `shut` are only for the code as it is: standard error has been overwritten, standard output is
closed. -/
structure View where
  out : List (List Char)
  err : List (List Char)
  file : Option (List (List Char))
  toFile : Bool
  errToFile : Bool
  verb : Int
  hit : Bool
  lost : Bool
  shut : Bool
deriving DecidableEq, Repr

def viewStart : View :=
  { out := [], err := [], file := none, toFile := false, errToFile := false, verb := 0, hit := false,
    lost := false, shut := false }

def View.put (v : View) (l : List Char) : View := { v with file := some (v.file.getD [] ++ [l]) }

/-- A line on standard output, or in the debug file while that is open; formats are limited to 1024 bytes. -/
def View.say (v : View) (pre : String) (m : Text) : Outcome View :=
  if 1022 < pre.toList.length + m.len ∨ v.shut then .ub
  else if v.toFile then .ok (v.put (pre.toList ++ ' ' :: m.text))
  else .ok { v with out := v.out ++ [pre.toList ++ ' ' :: m.text] }

/-- An error. -/
def View.complain (v : View) (m : Text) : Outcome View :=
  if 1022 < 14 + m.len ∨ (v.errToFile ∧ v.shut) then .ub
  else if v.errToFile then .ok { v.put ("[ERROR] ENGPAR".toList ++ ' ' :: m.text) with hit := true }
  else .ok { v with err := v.err ++ ["[ERROR] ENGPAR".toList ++ ' ' :: m.text], hit := true }

/-- Rank 0 announces debug files. -/
def View.announce (v : View) (rank : Nat) : Outcome View := if rank = 0 then v.say "ENGPAR" opening else .ok v

/-- One operation; with `real` as the code does it, else as meant: closing the debug file sends output and
errors to their old places, and a debug file that can not be opened only gives an error. -/
def viewStep (real : Bool) (rank : Nat) (v : View) : Op → Outcome (Option Bool × View)
  | .setVerbosity x => .ok (none, { v with verb := x })
  | .status m => do return (none, ← v.say "ENGPAR" m)
  | .statusV x m => if x ≤ v.verb then do return (none, ← v.say "ENGPAR" m) else .ok (none, v)
  | .warning m => do return (none, ← v.say "[WARNING] ENGPAR" m)
  | .error m => do return (none, ← v.complain m)
  | .startTest => .ok (none, { v with hit := false })
  | .hitError => .ok (some v.hit, v)
  | .debugOpen o e opens =>
      if v.verb < 0 then .ok (none, v)
      else do
        let v ← v.announce rank
        if (o || e) = false then return (none, v)
        else if v.shut then .ub
        else if opens then
          return (none, { v with
            file := some [], toFile := true, errToFile := e || v.errToFile,
            lost := v.lost || (real && e && v.errToFile) })
        else return (none, ← { v with shut := real }.complain failed)
  | .debugClose =>
      if real then .ok (none, { v with errToFile := v.lost })
      else .ok (none, { v with toFile := false, errToFile := false })

def viewRun (real : Bool) (rank : Nat) : View → List Op → Outcome (List Bool × View)
  | v, [] => .ok ([], v)
  | v, op :: ops => do
      let (r, v) ← viewStep real rank v op
      let (rs, v) ← viewRun real rank v ops
      return (r.toList ++ rs, v)

/-- What a user sees of a run: the answers, standard output, standard error and the debug file. -/
def seen : Outcome (List Bool × View) → Outcome (List Bool × List (List Char) × List (List Char) × Option (List (List Char)))
  | .ok (rs, v) => .ok (rs, v.out, v.err, v.file)
  | .fail => .fail
  | .ub => .ub

def shown : Outcome (List Bool × St) → Outcome (List Bool × List (List Char) × List (List Char) × Option (List (List Char)))
  | .ok (rs, s) => .ok (rs, s.out, s.err, s.file)
  | .fail => .fail
  | .ub => .ub

/-- The operation prints to standard output. -/
def prints (rank : Nat) (verb : Int) : Op → Bool
  | .status _ => true
  | .statusV x _ => decide (x ≤ verb)
  | .warning _ => true
  | .debugOpen _ _ _ => decide (rank = 0 ∧ 0 ≤ verb)
  | _ => false

/-- A debug file is opened that can be, and does not redirect errors again while they are redirected. -/
def opensWell (v : View) : Op → Bool
  | .debugOpen _ e opens => decide (v.verb < 0) || (opens && !(e && v.errToFile))
  | _ => true

/-- Histories the code handles as meant: debug files can be opened, nothing is printed on standard output
once one has been closed (`stale`) and not opened again, and errors are not redirected while they are. -/
def clean (rank : Nat) : Bool → View → List Op → Bool
  | _, _, [] => true
  | stale, v, op :: ops =>
      !(stale && prints rank v.verb op) && opensWell v op &&
      match viewStep false rank v op with
      | .ok (_, v') => clean rank ((stale || v.toFile) && !v'.toFile) v' ops
      | _ => true

end Verif.Support.Msg
