/-
Model of the life of the library in one process: `EnGPar_Initialize`, `EnGPar_Finalize` and
`EnGPar_Switch_Comm` (support/engpar_support.cpp), `PCU_Comm_Init`, `PCU_Comm_Free`,
`PCU_Switch_Comm` and the queries (pcu/pcu.c), and the communicators behind them (pcu/pcu_pmpi.c).

Of MPI only the table of communicators is modelled: a communicator is known to a process by a handle,
duplicating or freeing one that is not there is undefined.
-/
import Verif.Base
import Verif.Mem

namespace Verif.Support
open Verif

/-- What a process sees of a communicator: its rank in it and its size. -/
structure Comm where
  rank : Nat
  size : Nat
deriving DecidableEq, Repr

/-- One process. `table` is MPI's table of communicators (freed ones are `none`), `apps` the handles
the application holds, in the order it got them: first `MPI_COMM_WORLD` and `MPI_COMM_SELF`.
`orig`, `user`, `coll`, `rank`, `size` are the variables of pcu/pcu_pmpi.c:15-20, `inited` is
`global_state` (pcu/pcu.c:44-45), `handling` is `handlingPCU` (support/engpar_support.cpp:6). -/
structure St where
  table : List (Option Comm)
  apps : List Nat
  inited : Bool
  orig : Nat
  user : Nat
  coll : Nat
  rank : Nat
  size : Nat
  handling : Bool
deriving DecidableEq, Repr

/-- After `MPI_Init`, in a job where this process is `w`. -/
def start (w : Comm) : St :=
  { table := [some w, some ⟨0, 1⟩], apps := [0, 1], inited := false, orig := 0, user := 0, coll := 0,
    rank := 0, size := 0, handling := false }

/-- `MPI_Comm_rank`, `MPI_Comm_size`. -/
def look (h : Nat) (s : St) : Outcome Comm :=
  match s.table[h]? with
  | some (some c) => .ok c
  | _ => .ub

/-- `MPI_Comm_dup`: the new communicator and its handle. -/
def dup (h : Nat) (s : St) : Outcome (Nat × St) := do
  let c ← look h s
  return (s.table.length, { s with table := s.table ++ [some c] })

/-- `MPI_Comm_free`; the two predefined communicators can not be freed. -/
def mpiFree (h : Nat) (s : St) : Outcome St := do
  let _ ← look h s
  if h < 2 then .ub else return { s with table := s.table.set h none }

/-- `pcu_pmpi_init` (pcu/pcu_pmpi.c:29-36). -/
def pmpiInit (h : Nat) (s : St) : Outcome St := do
  let s := { s with orig := h }
  let (u, s) ← dup h s
  let s := { s with user := u }
  let (c, s) ← dup h s
  let s := { s with coll := c }
  let c ← look h s
  return { s with size := c.size, rank := c.rank }

/-- `pcu_pmpi_finalize` (pcu/pcu_pmpi.c:38-42). -/
def pmpiFinalize (s : St) : Outcome St := do
  let s ← mpiFree s.user s
  mpiFree s.coll s

/-- `PCU_Comm_Init` (pcu/pcu.c:58-72), without the message queues (see C29). -/
def pcuInit (s : St) : Outcome St :=
  if s.inited then .fail
  else do
    let s ← pmpiInit 0 s
    return { s with inited := true }

/-- `PCU_Comm_Free` (pcu/pcu.c:78-88). -/
def pcuFree (s : St) : Outcome St :=
  if s.inited = false then .fail
  else do
    let s ← pmpiFinalize s
    return { s with inited := false }

/-- `PCU_Switch_Comm` (pcu/pcu.c:719-724), `pcu_pmpi_switch` (pcu/pcu_pmpi.c:110-114);
`EnGPar_Switch_Comm` (support/engpar_support.cpp:26-28) is the same. -/
def switchComm (h : Nat) (s : St) : Outcome St :=
  if s.inited = false then .fail
  else do
    let s ← pmpiFinalize s
    pmpiInit h s

/-- `EnGPar_Initialize` (support/engpar_support.cpp:7-17), without the message. -/
def initLib (s : St) : Outcome St :=
  if s.inited = false then do
    let s ← pcuInit s
    return { s with handling := true }
  else .ok s

/-- `EnGPar_Finalize` (support/engpar_support.cpp:19-24), without the debug files and the log. -/
def finLib (s : St) : Outcome St :=
  if s.handling ∧ s.inited then pcuFree s else .ok s

/-- What an application can do; communicators are named by their place among those it has got. -/
inductive Op where
  | engparInit
  | engparFinalize
  | pcuInit
  | pcuFree
  | switch (k : Nat)
  | self
  | peers
  | getComm
  | isInit
  | newComm (c : Comm)
  | freeComm (k : Nat)
deriving DecidableEq, Repr

/-- What an operation returns. -/
inductive Ret where
  | unit
  | nat (n : Nat)
  | bool (b : Bool)
deriving DecidableEq, Repr

/-- One operation. `newComm` stands for `MPI_Comm_split` and the like; `getComm` (pcu/pcu.c:731-736)
answers with the place of the handle among those of the application. -/
def step (s : St) : Op → Outcome (Ret × St)
  | .engparInit => do return (.unit, ← initLib s)
  | .engparFinalize => do return (.unit, ← finLib s)
  | .pcuInit => do return (.unit, ← Support.pcuInit s)
  | .pcuFree => do return (.unit, ← Support.pcuFree s)
  | .switch k => do
      let h ← rd s.apps k
      return (.unit, ← switchComm h s)
  | .self => if s.inited then .ok (.nat s.rank, s) else .fail      -- pcu/pcu.c:98-103
  | .peers => if s.inited then .ok (.nat s.size, s) else .fail     -- pcu/pcu.c:109-114
  | .getComm => if s.inited then .ok (.nat (s.apps.idxOf s.orig), s) else .fail
  | .isInit => .ok (.bool s.inited, s)                             -- pcu/pcu.c:483-486
  | .newComm c => .ok (.nat s.apps.length,
      { s with table := s.table ++ [some c], apps := s.apps ++ [s.table.length] })
  | .freeComm k => do
      let h ← rd s.apps k
      return (.unit, ← mpiFree h s)

/-- A history. -/
def run : St → List Op → Outcome (List Ret × St)
  | s, [] => .ok ([], s)
  | s, op :: ops => do
      let (r, s) ← step s op
      let (rs, s) ← run s ops
      return (r :: rs, s)

/-- The communicators the library's messages go over (`pcu_user_comm` for messages, `pcu_coll_comm`
for collectives, pcu/pcu_msg.c:153, 183, pcu/pcu_coll.c). -/
def St.used (s : St) : List Nat := if s.inited then [s.user, s.coll] else []

/-- The communicators there are. -/
def St.live (s : St) : List Nat := (List.range s.table.length).filter (fun h => (s.table[h]?.join).isSome)

end Verif.Support
