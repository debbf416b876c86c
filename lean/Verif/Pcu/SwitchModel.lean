import Verif.Pcu.WholeModel
/-!
# Model of jobs that change communicators

`PCU_Switch_Comm` (pcu/pcu.c:719-724) calls `pcu_pmpi_switch` (pcu/pcu_pmpi.c:110-114): `MPI_Comm_free` of the two duplicates in use
(pcu/pcu_pmpi.c:38-42), then two `MPI_Comm_dup` of the new communicator and its size and rank (pcu/pcu_pmpi.c:29-36).  Both are collective:
an implementation of MPI may make a process wait for others of the same communicator, or not.  WholeModel has one communicator; here
every process works on one communicator after the other (`engpar_split.cpp:28-60`: some processes on the small one, each on its own, all
on the large one), and between two switches runs a program of phases and collectives as in WholeModel.

Simplifications: the two duplications are one step, the two frees are one step.  Every duplicate has its own message context (MPI), so a
stay on a communicator has its own `Whole.State`; the one `pcu_msg` of a process is in it, c81_handover shows that it is as new when the
process leaves.
-/
namespace Verif.Pcu.Switch

/-- a stay of some processes on a communicator, from one switch to the next -/
structure Seg (V : Type) where
  /-- the size of the communicator -/
  size : Nat
  /-- the process that has the rank -/
  who : Nat → Nat
  /-- the program: the calls, their number and the communication of each -/
  calls : Nat → Whole.Entry V
  len : Nat
  comm : Nat → Nat → List Coll.Instr
  /-- what is in the buffers before -/
  junk : Nat → V

/-- where a process is with respect to the first of the stays it has still to make -/
inductive Stage where
  | arriving  -- in `MPI_Comm_dup`, pcu/pcu_pmpi.c:32-33
  | inside    -- `PCU_Switch_Comm` has returned
  | leaving   -- in the next `PCU_Switch_Comm` (or `PCU_Comm_Free`): in `MPI_Comm_free`, pcu/pcu_pmpi.c:40-41
deriving DecidableEq, Repr

/-- the job -/
structure State (α V : Type) where
  /-- the stays each process has still to make, the current one first -/
  todo : Nat → List Nat
  stage : Nat → Stage
  seg : Nat → Whole.State α V

variable {α V : Type}

/-- process `g` is at work on the communicator of `s` -/
def Inside (st : State α V) (g s : Nat) : Prop := (st.todo g).head? = some s ∧ st.stage g = .inside

/-- process `g` has called the duplication for `s` -/
def Arrived (st : State α V) (g s : Nat) : Prop := s ∉ (st.todo g).tail

/-- process `g` has called the release of the communicator of `s` -/
def Closed (st : State α V) (g s : Nat) : Prop := s ∉ st.todo g ∨ (s ∉ (st.todo g).tail ∧ st.stage g = .leaving)

/-- nothing of rank `r` changes -/
def Untouched (a b : Whole.State α V) (r : Nat) : Prop :=
  b.coll r = a.coll r ∧ b.gave r = a.gave r ∧ b.user.rank r = a.user.rank r

/-- what the processes have been told to do, and how MPI synchronises: with `dupWaits s r q` the duplication for `s` returns on rank `r`
only after rank `q` called it, with `freeWaits s r q` the release -/
structure Job (V : Type) where
  segs : Nat → Seg V
  plan : Nat → List Nat
  dupWaits : Nat → Nat → Nat → Bool
  freeWaits : Nat → Nat → Nat → Bool

/-- pointwise update -/
def upd {β : Type} (f : Nat → β) (i : Nat) (x : β) : Nat → β := fun j => if j = i then x else f j

/-- One atomic step of the job; any enabled step may happen. -/
inductive Step (W : Job V) (st : State α V) : State α V → Prop
  /-- on the communicator of `s`, where some process is, something happens, by ranks that are there -/
  | act (s r : Nat) (x : Whole.State α V) (hr : r < (W.segs s).size) (hi : Inside st ((W.segs s).who r) s)
      (h : Whole.Step (W.segs s).calls (W.segs s).size (st.seg s) x)
      (hin : ∀ q, q < (W.segs s).size → ¬ Inside st ((W.segs s).who q) s → Untouched (st.seg s) x q) :
      Step W st { st with seg := upd st.seg s x }
  /-- the duplication returns -/
  | enter (s r : Nat) (hr : r < (W.segs s).size) (ht : (st.todo ((W.segs s).who r)).head? = some s)
      (hs : st.stage ((W.segs s).who r) = .arriving)
      (hw : ∀ q, q < (W.segs s).size → W.dupWaits s r q = true → Arrived st ((W.segs s).who q) s) :
      Step W st { st with stage := upd st.stage ((W.segs s).who r) .inside }
  /-- the program is done: the next switch is called -/
  | close (s r : Nat) (hr : r < (W.segs s).size) (hi : Inside st ((W.segs s).who r) s) (hp : ((st.seg s).coll r).prog = []) :
      Step W st { st with stage := upd st.stage ((W.segs s).who r) .leaving }
  /-- the release returns, and the duplication of the next communicator is called -/
  | freed (s r : Nat) (rest : List Nat) (hr : r < (W.segs s).size) (ht : st.todo ((W.segs s).who r) = s :: rest)
      (hs : st.stage ((W.segs s).who r) = .leaving)
      (hw : ∀ q, q < (W.segs s).size → W.freeWaits s r q = true → Closed st ((W.segs s).who q) s) :
      Step W st { st with todo := upd st.todo ((W.segs s).who r) rest, stage := upd st.stage ((W.segs s).who r) .arriving }

/-- before anything happens: `PCU_Comm_Init` duplicates the first communicator, pcu/pcu.c:62-77 -/
def initial (W : Job V) : State α V where
  todo := W.plan
  stage _ := .arriving
  seg s := Whole.initial (W.segs s).comm (W.segs s).size (W.segs s).len (W.segs s).junk

/-- `n` steps from the beginning -/
inductive Reach (W : Job V) : Nat → State α V → Prop
  | init : Reach W 0 (initial W)
  | step {n : Nat} {a b : State α V} : Reach W n a → Step W a b → Reach W (n + 1) b

end Verif.Pcu.Switch
