/-
Model of the files of PCU: opening many files in groups (`pcu_group_open`, pcu/pcu_io.c:162-183), the debug
files (`PCU_Debug_Open`, pcu/pcu.c:628-655, with `pcu_open_parallel`, pcu/pcu_io.c:352-364), strings in files
(`pcu_write_string`, `pcu_read_string`, pcu/pcu_io.c:331-349).

Ranks run concurrently: a schedule is a list of ranks, each of which does its next action, if it can. Of a
barrier (`PCU_Barrier`) C32 is used: a rank leaves it only when every rank has entered it, and then can.
-/
import Verif.Io.NameModel

namespace Verif.Pcu.Files
open Verif Names

/-- What a rank does next: an action, or enter and leave a barrier. -/
inductive Act (α : Type) where
  | act (a : α)
  | barrier
deriving DecidableEq, Repr

/-- The ranks: what each has still to do, how many barriers it has left, and all actions so far in the order
they were done. -/
structure Job (α : Type) where
  rem : Nat → List (Act α)
  passed : Nat → Nat
  log : List (Nat × α)

def atBarrier {α : Type} : List (Act α) → Bool
  | .barrier :: _ => true
  | _ => false

/-- Rank `r` of `P` can do its next action: a barrier is left when every rank has entered it. -/
def enabled {α : Type} (P : Nat) (s : Job α) (r : Nat) : Bool :=
  match s.rem r with
  | [] => false
  | .act _ :: _ => true
  | .barrier :: _ => (List.range P).all (fun q =>
      decide (s.passed r < s.passed q) || (decide (s.passed q = s.passed r) && atBarrier (s.rem q)))

/-- Rank `r` does its next action. -/
def advance {α : Type} (s : Job α) (r : Nat) : Job α :=
  match s.rem r with
  | [] => s
  | .act a :: rest => { s with rem := fun q => if q = r then rest else s.rem q, log := s.log ++ [(r, a)] }
  | .barrier :: rest => { s with
      rem := fun q => if q = r then rest else s.rem q, passed := fun q => if q = r then s.passed r + 1 else s.passed q }

/-- A schedule. A rank that can not go on waits. -/
def exec {α : Type} (P : Nat) (s : Job α) (sched : List Nat) : Job α :=
  sched.foldl (fun s r => if r < P && enabled P s r then advance s r else s) s

/-- The ranks at the start of a program. -/
def launch {α : Type} (prog : Nat → List (Act α)) : Job α := { rem := prog, passed := fun _ => 0, log := [] }

/-- All ranks are done. -/
def Finished {α : Type} (P : Nat) (s : Job α) : Prop := ∀ r, r < P → s.rem r = []

/-! ### Opening in groups -/

/-- `fopen` is called, `fopen` returns. -/
inductive IO where
  | call
  | return
deriving DecidableEq, Repr

/-- `q + ( r > 0 )` (pcu/pcu_io.c:167-169). -/
def groups (P : Nat) : Nat := P / 4096 + (if P % 4096 > 0 then 1 else 0)

/-- The loop of `pcu_group_open` (pcu/pcu_io.c:174-181) on rank `r` of `P`; files can be opened. -/
def groupOpen (P r : Nat) : List (Act IO) :=
  (List.range (groups P)).flatMap (fun i => (if r % groups P = i then [.act .call, .act .return] else []) ++ [.barrier])

/-- Rank `r` is inside `fopen`. -/
def inFopen (s : Job IO) (r : Nat) : Bool :=
  match s.rem r with
  | .act .return :: _ => true
  | _ => false

/-! ### Debug files -/

/-- `pcu_open_parallel` (pcu/pcu_io.c:352-364): the name. `snprintf` cuts what does not fit. -/
def parallelName (pre ext : List Char) (rank : Nat) : List Char :=
  (pre ++ dec rank ++ ['.'] ++ ext).take (pre.length + 10 + ext.length + 1 - 1)

/-- `append` (pcu/pcu.c:618-625): `vsnprintf` cuts what does not fit. -/
def append (s : List Char) (size : Nat) (text : List Char) : List Char := s ++ text.take (size - s.length - 1)

inductive Disk where
  | mkdir (path : List Char)
  | fopen (path : List Char)
deriving DecidableEq, Repr

/-- `PCU_Debug_Open` (pcu/pcu.c:628-655) on rank `r` of `P`, when no debug file is open: the directories, the
barrier, and opening. -/
def debugOpen (P r : Nat) : List (Act Disk) :=
  if P > 2048 then
    let path := ['d', 'e', 'b', 'u', 'g', '/']
    let sub := append path 1024 (dec (r / 2048) ++ ['/'])
    [.act (.mkdir path)] ++ (if r % 2048 = 0 then [.act (.mkdir sub)] else []) ++
      [.barrier, .act (.fopen (parallelName (append sub 1024 ['d', 'e', 'b', 'u', 'g']) ['t', 'x', 't'] r))]
  else [.act (.fopen (parallelName (append [] 1024 ['d', 'e', 'b', 'u', 'g']) ['t', 'x', 't'] r))]

/-- The directories and, per rank, the file it has open. -/
structure World where
  dirs : Fs
  file : Nat → Option (List Char)

/-- One action on the disk: `safe_mkdir` (pcu/pcu.c:609-616) stops the program if the directory is not there
afterwards; `fopen` gives `NULL` if the directory of the file is not there, which is not looked at. -/
def onDisk (w : World) (e : Nat × Disk) : Outcome World :=
  match e.2 with
  | .mkdir path =>
      let fs := mkdir path w.dirs
      if fs (absolute path) (comps path) then .ok { w with dirs := fs } else .fail
  | .fopen path =>
      if w.dirs (absolute path) (comps path).dropLast then
        .ok { w with file := fun q => if q = e.1 then some path else w.file q }
      else .ok w

/-! ### Strings -/

/-- `pcu_write_string` (pcu/pcu_io.c:345-349): the bytes up to the first zero, and a zero. `none` when there is
no zero in the memory, `strlen` reads on. -/
def writeString (mem : List UInt8) : Outcome (List UInt8) :=
  if 0 ∈ mem then .ok (mem.takeWhile (· ≠ 0) ++ [0]) else .ub

/-- `pcu_read_string` (pcu/pcu_io.c:331-343) from the rest of a file: byte by byte up to a zero, which is kept.
`pcu_fread` stops the program at the end of the file. -/
def readString : List UInt8 → Outcome (List UInt8 × List UInt8)
  | [] => .fail
  | b :: rest =>
      if b = 0 then .ok ([0], rest)
      else do
        let (s, rest) ← readString rest
        return (b :: s, rest)

end Verif.Pcu.Files
