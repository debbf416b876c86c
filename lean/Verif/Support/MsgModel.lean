/-
Model of the messages of the library in one process: verbosity (support/engpar_support.cpp:30-37), the
message functions, the debug files and the test flag (support/engpar_message.cpp).

Of C's streams a `FILE` object and where it leads is modelled, and the pointers `stdout` and `stderr`, which
the code assigns. The text of a message after `vfprintf` has put in the arguments is given with it.
-/
import Verif.Base
import Verif.Mem

namespace Verif.Support.Msg
open Verif

/-- A message: the length of the format and the text it makes with its arguments. -/
structure Text where
  len : Nat
  text : List Char
deriving DecidableEq, Repr

/-- Where a `FILE` object leads. `closed` is after a `freopen` that failed. -/
inductive Dest where
  | screenOut
  | screenErr
  | file
  | closed
deriving DecidableEq, Repr

/-- A process: the two `FILE` objects there are from the start, the pointers `stdout` and `stderr` (places
among the objects), `old_stdout` and `old_stderr` (support/engpar_message.cpp:7-8), `engpar_verbosity`,
`test_flag`, what has been written to standard output and error, and the debug file of this process. -/
structure St where
  objs : List Dest
  pOut : Nat
  pErr : Nat
  oldOut : Option Nat
  oldErr : Option Nat
  verb : Int
  flag : Int
  out : List (List Char)
  err : List (List Char)
  file : Option (List (List Char))
deriving DecidableEq, Repr

/-- The state when the program starts; globals are zero. -/
def start : St :=
  { objs := [.screenOut, .screenErr], pOut := 0, pErr := 1, oldOut := none, oldErr := none, verb := 0, flag := 0,
    out := [], err := [], file := none }

/-- `vfprintf` of a line to a `FILE` object. -/
def write (p : Nat) (line : List Char) (s : St) : Outcome St :=
  match s.objs[p]? with
  | some .screenOut => .ok { s with out := s.out ++ [line] }
  | some .screenErr => .ok { s with err := s.err ++ [line] }
  | some .file => .ok { s with file := some (s.file.getD [] ++ [line]) }
  | _ => .ub

/-- `EnGPar_Print` (support/engpar_message.cpp:52-58): the prefix, a blank and the format with the final zero
have to fit in 1024 bytes. -/
def print (p : Nat) (pre : List Char) (m : Text) (s : St) : Outcome St :=
  if pre.length + 1 + m.len + 1 ≤ 1024 then write p (pre ++ ' ' :: m.text) s else .ub

/-- `EnGPar_Check_Verbosity` (support/engpar_support.cpp:35-37). -/
def check (v : Int) (s : St) : Bool := decide (s.verb ≥ v)

/-- `EnGPar_Status_Message(format, ...)` (support/engpar_message.cpp:67-72). -/
def status (m : Text) (s : St) : Outcome St := print s.pOut "ENGPAR".toList m s

/-- `EnGPar_Status_Message(verbosity, format, ...)` (support/engpar_message.cpp:73-80). -/
def statusV (v : Int) (m : Text) (s : St) : Outcome St :=
  if check v s = false then .ok s else print s.pOut "ENGPAR".toList m s

/-- `EnGPar_Warning_Message` (support/engpar_message.cpp:82-88). -/
def warning (m : Text) (s : St) : Outcome St := print s.pOut "[WARNING] ENGPAR".toList m s

/-- `EnGPar_Error_Message` (support/engpar_message.cpp:89-95). -/
def error (m : Text) (s : St) : Outcome St :=
  print s.pErr "[ERROR] ENGPAR".toList m { s with flag := 1 }

def opening : Text := ⟨61, "Opening debug files. Output can be found in debug/debug#.txt\n".toList⟩
def failed : Text := ⟨27, "Failed to open debug files\n".toList⟩

/-- `freopen(file, "w", stdout)`: the object leads to the emptied file, or is closed if the file can not be
opened. A closed object can not be used again. -/
def freopen (p : Nat) (opens : Bool) (s : St) : Outcome St :=
  match s.objs[p]? with
  | none => .ub
  | some .closed => .ub
  | some _ =>
      if opens then .ok { s with objs := s.objs.set p .file, file := some [] }
      else .ok { s with objs := s.objs.set p .closed }

/-- Rank 0 says that debug files are opened (support/engpar_message.cpp:21-22). -/
def announce (rank : Nat) (s : St) : Outcome St := if rank = 0 then status opening s else .ok s

/-- `EnGPar_Debug_Open` (support/engpar_message.cpp:9-43) on a process of rank `rank`. `o` and `e` say which
letters the mode has, `opens` whether the file can be opened; the directory and the name are left out. -/
def debugOpen (rank : Nat) (o e opens : Bool) (s : St) : Outcome St :=
  if check 0 s = false then .ok s
  else do
    let s ← announce rank s
    if o || e then
      let s := { s with oldOut := some s.pOut }
      let s ← freopen s.pOut opens s
      if opens = false then
        -- stdout = NULL, then stdout = old_stdout
        error failed s
      else if e then
        .ok { s with oldErr := some s.pErr, pErr := s.pOut }
      else .ok s
    else .ok s

/-- `if (old_stdout) stdout = old_stdout;` (support/engpar_message.cpp:46-47). -/
def restoreOut (s : St) : St :=
  match s.oldOut with
  | some p => { s with pOut := p }
  | none => s

/-- `if (old_stderr) stderr = old_stderr;` (support/engpar_message.cpp:48-49). -/
def restoreErr (s : St) : St :=
  match s.oldErr with
  | some p => { s with pErr := p }
  | none => s

/-- `EnGPar_Debug_Close` (support/engpar_message.cpp:45-50). -/
def debugClose (s : St) : St := restoreErr (restoreOut s)

/-- What an application or the library can do. -/
inductive Op where
  | setVerbosity (v : Int)
  | status (m : Text)
  | statusV (v : Int) (m : Text)
  | warning (m : Text)
  | error (m : Text)
  | startTest
  | hitError
  | debugOpen (o e opens : Bool)
  | debugClose
deriving DecidableEq, Repr

/-- One operation; `hitError` (support/engpar_message.cpp:61-66) answers. -/
def step (rank : Nat) (s : St) : Op → Outcome (Option Bool × St)
  | .setVerbosity v => .ok (none, { s with verb := v })
  | .status m => do return (none, ← Msg.status m s)
  | .statusV v m => do return (none, ← Msg.statusV v m s)
  | .warning m => do return (none, ← Msg.warning m s)
  | .error m => do return (none, ← Msg.error m s)
  | .startTest => .ok (none, { s with flag := 0 })
  | .hitError => .ok (some (decide (s.flag > 0)), s)
  | .debugOpen o e opens => do return (none, ← Msg.debugOpen rank o e opens s)
  | .debugClose => .ok (none, Msg.debugClose s)

/-- A history: the answers and the end. -/
def run (rank : Nat) : St → List Op → Outcome (List Bool × St)
  | s, [] => .ok ([], s)
  | s, op :: ops => do
      let (r, s) ← step rank s op
      let (rs, s) ← run rank s ops
      return (r.toList ++ rs, s)

end Verif.Support.Msg
