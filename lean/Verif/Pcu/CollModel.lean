import Verif.Base
/-!
# Model of `pcu/pcu_coll.c`: collectives built from point-to-point messages

A collective on rank `r` of `N` is a loop over a bit; each iteration sends to, receives from or
ignores one peer.  The model first extracts the *program* of a rank (the list of its sends and
receives, exactly as the C loop produces it) and then runs the programs of all ranks under an
asynchronous semantics that allows every interleaving.
-/
namespace Verif.Pcu.Coll

/-- `floor_log2`, pcu/pcu_coll.c:18-23 -/
def floorLog2 (n : Nat) : Nat := if h : n / 2 = 0 then 0 else floorLog2 (n / 2) + 1
termination_by n
decreasing_by omega

/-- `ceil_log2`, pcu/pcu_coll.c:25-30 -/
def ceilLog2 (n : Nat) : Nat :=
  let r := floorLog2 n
  if 1 <<< r < n then r + 1 else r

/-- the action enumeration, pcu/pcu_coll.h -/
inductive Action where
  | send
  | recv
  | idle
deriving DecidableEq, Repr

/-- `pcu_pattern`, pcu/pcu_coll.h; `size` and `rank` are the results of `pcu_mpi_size()` and
`pcu_mpi_rank()`. `beginBit` may loop, hence the `Option` (`none`: did not finish within `size`
iterations). -/
structure Pattern where
  beginBit : (size rank : Nat) → Option Nat
  endBit : (size rank bit : Nat) → Bool
  action : (size rank bit : Nat) → Action
  peer : (size rank bit : Nat) → Int
  shift : Nat → Nat

/-- how an incoming value is merged: the operation of the collective, or plain assignment
(`pcu_merge_assign`, pcu/pcu_coll.c:32-35) -/
inductive Kind where
  | merge
  | assign
deriving DecidableEq, Repr

/-- one communication step of a rank that is not idle -/
inductive Instr where
  | send (to : Nat)
  | recv (from' : Nat) (k : Kind)
deriving DecidableEq, Repr

/-- `check_rank`, pcu/pcu_mpi.c:45-50 -/
def checkRank (size : Nat) (p : Int) : Outcome Nat :=
  if 0 ≤ p ∧ p < size then .ok p.toNat else .fail

/-- one step (`begin_coll_step` then `end_coll_step`, pcu/pcu_coll.c:129-161) as an instruction -/
def instr (pat : Pattern) (k : Kind) (size rank bit : Nat) : Outcome (List Instr) :=
  match pat.action size rank bit with
  | .idle => .ok []
  | .send => do
    let p ← checkRank size (pat.peer size rank bit)
    return [.send p]
  | .recv => do
    let p ← checkRank size (pat.peer size rank bit)
    return [.recv p k]

/-- the loop `for (bit = begin_bit; !end_bit(bit); bit = shift(bit))`,
pcu/pcu_coll.c:188-212 (documented there at 169-183).  `none` in the first component of the fuel
recursion means the loop has not ended. -/
def loop (pat : Pattern) (k : Kind) (size rank : Nat) : Nat → Nat → Option (Outcome (List Instr))
  | 0, bit => if pat.endBit size rank bit then some (.ok []) else none
  | fuel + 1, bit =>
    if pat.endBit size rank bit then some (.ok [])
    else
      match loop pat k size rank fuel (pat.shift bit) with
      | none => none
      | some rest => some (do
          let i ← instr pat k size rank bit
          let is ← rest
          return i ++ is)

/-- the program of a rank for one pattern, with `fuel` loop iterations allowed -/
def program (pat : Pattern) (k : Kind) (size rank fuel : Nat) : Option (Outcome (List Instr)) :=
  match pat.beginBit size rank with
  | none => none
  | some b => loop pat k size rank fuel b

/-- `reduce`, pcu/pcu_coll.c:218-257 -/
def reduce : Pattern where
  beginBit _ _ := some 1
  endBit size rank bit := if rank = 0 then decide (size ≤ bit) else decide ((bit >>> 1) &&& rank ≠ 0)
  action size rank bit :=
    if rank ^^^ bit ≥ size then .idle
    else if bit &&& rank ≠ 0 then .send else .recv
  peer _ rank bit := ((rank ^^^ bit : Nat) : Int)
  shift bit := bit <<< 1

/-- the loop `while (!(bit & rank)) bit <<= 1`, pcu/pcu_coll.c:268-270 -/
def lowBit (rank : Nat) : Nat → Nat → Option Nat
  | 0, _ => none
  | fuel + 1, bit => if bit &&& rank ≠ 0 then some bit else lowBit rank fuel (bit <<< 1)

/-- `bcast`, pcu/pcu_coll.c:263-304 -/
def bcast : Pattern where
  beginBit size rank := if rank = 0 then some (1 <<< ceilLog2 size) else lowBit rank size 1
  endBit _ _ bit := decide (bit = 0)
  action size rank bit :=
    if rank ^^^ bit ≥ size then .idle
    else if bit &&& rank ≠ 0 then .recv else .send
  peer _ rank bit := ((rank ^^^ bit : Nat) : Int)
  shift bit := bit >>> 1

/-- `scan_up_could_receive`, pcu/pcu_coll.c:323-327 -/
def upCouldReceive (rank bit : Nat) : Bool :=
  let mask := (bit <<< 1) - 1
  decide (rank &&& mask = mask)

/-- `scan_up`, pcu/pcu_coll.c:313-378 -/
def scanUp : Pattern where
  beginBit _ _ := some 1
  endBit size _ bit := decide (bit = 1 <<< floorLog2 size)
  action size rank bit :=
    if upCouldReceive rank bit ∧ 0 ≤ (rank : Int) - bit then .recv
    else if rank + bit < size ∧ upCouldReceive (rank + bit) bit then .send
    else .idle
  peer size rank bit :=
    if upCouldReceive rank bit ∧ 0 ≤ (rank : Int) - bit then (rank : Int) - bit
    else if rank + bit < size ∧ upCouldReceive (rank + bit) bit then ((rank + bit : Nat) : Int)
    else -1
  shift bit := bit <<< 1

/-- `scan_down_could_send`, pcu/pcu_coll.c:390-394 (only evaluated on non-negative ranks) -/
def downCouldSend (rank bit : Nat) : Bool :=
  let mask := bit - 1
  decide (rank &&& mask = mask)

/-- `scan_down`, pcu/pcu_coll.c:380-447 -/
def scanDown : Pattern where
  beginBit size _ := some (1 <<< floorLog2 size)
  endBit _ _ bit := decide (bit = 1)
  action size rank bit :=
    if downCouldSend rank bit ∧ rank + (bit >>> 1) < size then .send
    else if 0 ≤ (rank : Int) - (bit >>> 1 : Nat) ∧ downCouldSend (rank - (bit >>> 1)) bit then .recv
    else .idle
  peer size rank bit :=
    if downCouldSend rank bit ∧ rank + (bit >>> 1) < size then ((rank + (bit >>> 1) : Nat) : Int)
    else if 0 ≤ (rank : Int) - (bit >>> 1 : Nat) ∧ downCouldSend (rank - (bit >>> 1)) bit then
      (rank : Int) - (bit >>> 1 : Nat)
    else -1
  shift bit := bit >>> 1

/-- two collectives in sequence on one rank -/
def seqProg (a b : Option (Outcome (List Instr))) : Option (Outcome (List Instr)) :=
  match a, b with
  | some x, some y => some (do
      let p ← x
      let q ← y
      return p ++ q)
  | _, _ => none

/-- `pcu_allreduce`, pcu/pcu_coll.c:463-467 (and `pcu_barrier`, 480-504, which is the same
communication with empty data) -/
def allreduceProg (size rank fuel : Nat) : Option (Outcome (List Instr)) :=
  seqProg (program reduce .merge size rank fuel) (program bcast .assign size rank fuel)

/-- `pcu_scan`, pcu/pcu_coll.c:469-477 -/
def scanProg (size rank fuel : Nat) : Option (Outcome (List Instr)) :=
  seqProg (program scanUp .merge size rank fuel) (program scanDown .merge size rank fuel)

/-! ## Asynchronous execution of all ranks -/

/-- State of one rank inside a collective.  `sent` describes the synchronous non-blocking send
(`MPI_Issend`) of the current step: not issued, issued, or issued and matched by the receiver. -/
structure RankSt (V : Type) where
  started : Bool
  prog : List Instr
  val : V
  sent : Option Bool

/-- pointwise update -/
def upd {β : Type} (f : Nat → β) (i : Nat) (x : β) : Nat → β := fun j => if j = i then x else f j

/-- how the local value changes when a value comes in -/
def apply {V : Type} (op : V → V → V) : Kind → V → V → V
  | .merge, a, b => op a b
  | .assign, _, b => b

/-- One atomic step of a job of `N` ranks; any rank whose step is enabled may move (all interleavings).
* `start`: the rank calls the collective (at a time of its own choosing);
* `issue`: `pcu_mpi_send` in `begin_coll_step`;
* `recv`: `pcu_mpi_receive` finds the peer's issued message and merges it – this also matches the
  peer's synchronous send;
* `done`: `pcu_mpi_done` finds the own send completed. -/
inductive Step {V : Type} (op : V → V → V) (N : Nat) (st : Nat → RankSt V) :
    (Nat → RankSt V) → Prop
  | start (r : Nat) (hr : r < N) (h : (st r).started = false) :
      Step op N st (upd st r { st r with started := true })
  | issue (r p : Nat) (rest : List Instr) (hs : (st r).started = true)
      (hp : (st r).prog = .send p :: rest) (hn : (st r).sent = none) :
      Step op N st (upd st r { st r with sent := some false })
  | recv (r p : Nat) (k : Kind) (rest rest' : List Instr) (hs : (st r).started = true)
      (hp : (st r).prog = .recv p k :: rest) (hp' : (st p).prog = .send r :: rest')
      (hi : (st p).sent = some false) :
      Step op N st (upd (upd st p { st p with sent := some true }) r
        { st r with prog := rest, val := apply op k (st r).val (st p).val })
  | done (r p : Nat) (rest : List Instr) (hs : (st r).started = true)
      (hp : (st r).prog = .send p :: rest) (hm : (st r).sent = some true) :
      Step op N st (upd st r { st r with prog := rest, sent := none })

/-- `n` steps -/
inductive Steps {V : Type} (op : V → V → V) (N : Nat) :
    Nat → (Nat → RankSt V) → (Nat → RankSt V) → Prop
  | refl (st : Nat → RankSt V) : Steps op N 0 st st
  | tail {n : Nat} {a b c : Nat → RankSt V} :
      Steps op N n a b → Step op N b c → Steps op N (n + 1) a c

/-- the job before the collective: rank `r` has program `P r` and contributes `v r` -/
def initial {V : Type} (P : Nat → List Instr) (v : Nat → V) : Nat → RankSt V :=
  fun r => { started := false, prog := P r, val := v r, sent := none }

/-- rank `r` has returned from the collective -/
def Returned {V : Type} (st : Nat → RankSt V) (r : Nat) : Prop :=
  (st r).started = true ∧ (st r).prog = []

end Verif.Pcu.Coll
