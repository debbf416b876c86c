import Verif.Pcu.CollModel
/-!
# Model of programs that make many collective calls, pcu/pcu_coll.c

Every rank calls the same collectives in the same order, at its own pace: `pcu_allreduce` (behind `PCU_Add_*`, `PCU_Min_*`,
`PCU_Max_*`, `PCU_Or`, `PCU_And` and, with empty data, `pcu_barrier`) and `pcu_scan` (behind `PCU_Exscan_*`).  What a rank contributes may
depend on everything earlier calls have returned to it.  All collectives use one communicator and no tags: a receive takes whatever
the named peer has sent to the rank, whichever call that belongs to.  The data of a call are a value of one type `V` (bytes in the code).
-/
namespace Verif.Pcu.Seq
open Verif.Pcu.Coll (Kind Action upd)

/-- which collective, pcu/pcu_coll.c:463-477 -/
inductive What where
  | allreduce
  | scan
deriving DecidableEq, Repr

/-- one collective call: the operation, and what rank `r` contributes after the results `l` of its earlier calls -/
structure Call (V : Type) where
  what : What
  op : V → V → V
  give : (r : Nat) → (l : List V) → V

/-- a step of a rank: entering call number `k`, the sends and receives of its loop, returning from it -/
inductive Instr where
  | enter (k : Nat)
  | send (k to : Nat)
  | recv (k from' : Nat) (kind : Kind)
  | leave (k : Nat)
deriving DecidableEq, Repr

/-- the sends and receives of call `k` -/
def tag (k : Nat) : Coll.Instr → Instr
  | .send p => .send k p
  | .recv p kd => .recv k p kd

/-- the communication of a collective on a rank, pcu/pcu_coll.c:463-477 -/
def progOf : What → Nat → Nat → Nat → Option (Outcome (List Coll.Instr))
  | .allreduce => Coll.allreduceProg
  | .scan => Coll.scanProg

/-- call number `k` on rank `r`; `P k r` is its communication -/
def callProg (P : Nat → Nat → List Coll.Instr) (r k : Nat) : List Instr :=
  .enter k :: ((P k r).map (tag k) ++ [.leave k])

/-- the whole program of rank `r`: `K` calls -/
def jobProg (P : Nat → Nat → List Coll.Instr) (K r : Nat) : List Instr := (List.range K).flatMap (callProg P r)

/-- a rank: what it has still to do, what its calls have returned, the buffer of the call it is in, the state of its synchronous send
(`MPI_Issend`: none, issued, matched), and (ghost, not tested by any step) the calls it has entered -/
structure RankSt (V : Type) where
  prog : List Instr
  got : List V
  val : V
  sent : Option Bool
  entered : List Nat

/-- One atomic step of a job of `N` ranks; any enabled step may happen.
* `enter`: the rank calls collective `k` with its contribution (`pcu_begin_coll`, pcu/pcu_coll.c:188-195);
* `issue`, `done`: `pcu_mpi_send` and `pcu_mpi_done`, pcu/pcu_coll.c:129-161;
* `recv`: `pcu_mpi_receive` from the peer of the step (pcu/pcu_mpi.c, `MPI_Iprobe` with the rank of the peer and tag 0) finds the
  message the peer has issued to this rank, *of whatever call `k'` it is*;
* `leave`: the call returns. -/
inductive Step {V : Type} (C : Nat → Call V) (N : Nat) (st : Nat → RankSt V) : (Nat → RankSt V) → Prop
  | enter (r k : Nat) (rest : List Instr) (hr : r < N) (hp : (st r).prog = .enter k :: rest) :
      Step C N st (upd st r { st r with prog := rest, val := (C k).give r (st r).got, entered := (st r).entered ++ [k] })
  | issue (r k p : Nat) (rest : List Instr) (hr : r < N) (hp : (st r).prog = .send k p :: rest) (hn : (st r).sent = none) :
      Step C N st (upd st r { st r with sent := some false })
  | recv (r k p : Nat) (kd : Kind) (k' : Nat) (rest rest' : List Instr) (hr : r < N)
      (hp : (st r).prog = .recv k p kd :: rest) (hp' : (st p).prog = .send k' r :: rest') (hi : (st p).sent = some false) :
      Step C N st (upd (upd st p { st p with sent := some true }) r
        { st r with prog := rest, val := Coll.apply (C k).op kd (st r).val (st p).val })
  | done (r k p : Nat) (rest : List Instr) (hr : r < N) (hp : (st r).prog = .send k p :: rest) (hm : (st r).sent = some true) :
      Step C N st (upd st r { st r with prog := rest, sent := none })
  | leave (r k : Nat) (rest : List Instr) (hr : r < N) (hp : (st r).prog = .leave k :: rest) :
      Step C N st (upd st r { st r with prog := rest, got := (st r).got ++ [(st r).val] })

/-- `n` steps -/
inductive Steps {V : Type} (C : Nat → Call V) (N : Nat) : Nat → (Nat → RankSt V) → (Nat → RankSt V) → Prop
  | refl (st : Nat → RankSt V) : Steps C N 0 st st
  | tail {n : Nat} {a b c : Nat → RankSt V} : Steps C N n a b → Step C N b c → Steps C N (n + 1) a c

/-- before the first call of a job of `N` ranks; `junk` is what the buffers hold -/
def initial {V : Type} (P : Nat → Nat → List Coll.Instr) (N K : Nat) (junk : Nat → V) : Nat → RankSt V :=
  fun r => { prog := if r < N then jobProg P K r else [], got := [], val := junk r, sent := none, entered := [] }

end Verif.Pcu.Seq
