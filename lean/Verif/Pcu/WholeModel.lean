import Verif.Pcu.SeqModel
import Verif.Pcu.PhaseModel
/-!
# Model of whole programs: phases and collectives together, message by message

SeqModel has collectives only, PhaseModel has phases whose barriers are used through a contract.  Here both run together: the barriers of
`PCU_Comm_Begin` and of the receive loop are themselves collectives of `pcu_coll.c`, made of messages on the communicator for
collectives (`pcu_coll_comm`), while packed data travel on the other one (`pcu_user_comm`), pcu/pcu_mpi.c.  No contract is left.

A program is a list of collective calls, the same on every rank: the barrier that begins a phase, the barrier with which the receive
loop of the phase ends, and the collectives the user calls between phases, while packing, or between `PCU_Comm_Send` and the receive
loop.  Nobody calls a collective inside a receive loop (the code keeps one `pcu_coll` for the loop's barrier and for the user's calls).
-/
namespace Verif.Pcu.Whole

/-- what a collective call is for -/
inductive Role where
  | start   -- the barrier in `pcu_msg_start`, pcu/pcu_msg.c:97
  | user    -- a collective the user calls
  | stop    -- the barrier begun in `receive_global`, pcu/pcu_msg.c:184
deriving DecidableEq, Repr

/-- a collective call of the program; barriers carry no data, so what the operation does for them is irrelevant -/
structure Entry (V : Type) where
  role : Role
  what : Seq.What
  op : V → V → V

/-- the whole job: the collective part of every rank, the ghost record of what each rank contributed to its calls, and the phases (in
which `entered`, like the other ghost fields, is tested by no step) -/
structure State (α V : Type) where
  coll : Nat → Seq.RankSt V
  gave : Nat → List V
  user : Phase.State α

variable {α V : Type}

/-- a rank enters call `k` with the value `v`: `pcu_begin_coll`, pcu/pcu_coll.c:188-195 -/
def entering (s : Seq.RankSt V) (k : Nat) (rest : List Seq.Instr) (v : V) : Seq.RankSt V :=
  { s with prog := rest, val := v, entered := s.entered ++ [k] }

/-- a call returns -/
def leaving (s : Seq.RankSt V) (rest : List Seq.Instr) : Seq.RankSt V :=
  { s with prog := rest, got := s.got ++ [s.val] }

/-- the rank is not inside a collective (they block; the loop's barrier is progressed by the loop only) -/
def Between (s : Seq.RankSt V) : Prop := s.prog = [] ∨ ∃ k rest, s.prog = .enter k :: rest

/-- a step of the communication inside a collective: `begin_coll_step`, `end_coll_step`, pcu/pcu_coll.c:129-161; as in SeqModel a receive
takes the peer's message of whatever call -/
inductive Comm (J : Nat → Entry V) (N : Nat) (c : Nat → Seq.RankSt V) : (Nat → Seq.RankSt V) → Prop
  | issue (r k p : Nat) (rest : List Seq.Instr) (hr : r < N) (hp : (c r).prog = .send k p :: rest) (hn : (c r).sent = none) :
      Comm J N c (Coll.upd c r { c r with sent := some false })
  | recv (r k p : Nat) (kd : Coll.Kind) (k' : Nat) (rest rest' : List Seq.Instr) (hr : r < N)
      (hp : (c r).prog = .recv k p kd :: rest) (hp' : (c p).prog = .send k' r :: rest') (hi : (c p).sent = some false) :
      Comm J N c (Coll.upd (Coll.upd c p { c p with sent := some true }) r
        { c r with prog := rest, val := Coll.apply (J k).op kd (c r).val (c p).val })
  | done (r k p : Nat) (rest : List Seq.Instr) (hr : r < N) (hp : (c r).prog = .send k p :: rest) (hm : (c r).sent = some true) :
      Comm J N c (Coll.upd c r { c r with prog := rest, sent := none })

/-- One atomic step of a job of `N` ranks; any enabled step may happen. -/
inductive Step (J : Nat → Entry V) (N : Nat) (st : State α V) : State α V → Prop
  /-- messages of collectives -/
  | comm (c' : Nat → Seq.RankSt V) (h : Comm J N st.coll c') : Step J N st { st with coll := c' }
  /-- `PCU_Comm_Begin`: only when idle (`reel_fail` otherwise); enters the start barrier, pcu/pcu_msg.c:90-97 -/
  | begin (r k : Nat) (rest : List Seq.Instr) (v : V) (hr : r < N) (hp : (st.coll r).prog = .enter k :: rest) (ho : (J k).role = .start)
      (hm : (st.user.rank r).mode = .idle) :
      Step J N st
        { coll := Coll.upd st.coll r (entering (st.coll r) k rest v)
          gave := Coll.upd st.gave r (st.gave r ++ [v])
          user := { st.user with rank := (Phase.upd st.user.rank r
            { st.user.rank r with mode := .starting, phase := (st.user.rank r).phase + 1, entered := (st.user.rank r).entered + 1 }) } }
  /-- the start barrier has returned, pcu/pcu_msg.c:97-98 -/
  | started (r k : Nat) (rest : List Seq.Instr) (hr : r < N) (hp : (st.coll r).prog = .leave k :: rest) (ho : (J k).role = .start)
      (hm : (st.user.rank r).mode = .starting) :
      Step J N st
        { st with
          coll := Coll.upd st.coll r (leaving (st.coll r) rest)
          user := { st.user with rank := Phase.upd st.user.rank r { st.user.rank r with mode := .pack } } }
  /-- the user calls a collective, contributing any value -/
  | call (r k : Nat) (rest : List Seq.Instr) (v : V) (hr : r < N) (hp : (st.coll r).prog = .enter k :: rest) (ho : (J k).role = .user) :
      Step J N st
        { st with
          coll := Coll.upd st.coll r (entering (st.coll r) k rest v)
          gave := Coll.upd st.gave r (st.gave r ++ [v]) }
  /-- … and it returns -/
  | return (r k : Nat) (rest : List Seq.Instr) (hr : r < N) (hp : (st.coll r).prog = .leave k :: rest) (ho : (J k).role = .user) :
      Step J N st { st with coll := Coll.upd st.coll r (leaving (st.coll r) rest) }
  /-- `PCU_Comm_Pack`, pcu/pcu_msg.c:123-134 -/
  | pack (r d : Nat) (bytes : List α) (hr : r < N) (hd : d < N) (hb : Between (st.coll r)) (hm : (st.user.rank r).mode = .pack) :
      Step J N st
        { st with user :=
          { st.user with
            rank := Phase.upd st.user.rank r { st.user.rank r with peers := Phase.pushPeer (st.user.rank r).peers d bytes }
            packs := st.user.packs ++ [⟨r, d, (st.user.rank r).phase, bytes⟩] } }
  /-- `PCU_Comm_Send`, pcu/pcu_msg.c:157-163 -/
  | send (r : Nat) (hr : r < N) (hb : Between (st.coll r)) (hm : (st.user.rank r).mode = .pack) :
      Step J N st
        { st with user :=
          { st.user with
            rank := Phase.upd st.user.rank r { st.user.rank r with mode := .sendRecv }
            net := st.user.net ++ Phase.outgoing N r (st.user.rank r) } }
  /-- the receive loop gets a message, pcu/pcu_msg.c:176-192; the rank is in the loop when only the stop barrier is to come, or has begun -/
  | listen (r : Nat) (hr : r < N)
      (hm : (st.user.rank r).mode = .recv ∨
        ((st.user.rank r).mode = .sendRecv ∧ ∃ k rest, (st.coll r).prog = .enter k :: rest ∧ (J k).role = .stop))
      (A B : List (Phase.Msg α)) (m : Phase.Msg α) (hnet : st.user.net = A ++ m :: B) (hdst : m.dst = r) :
      Step J N st
        { st with user := { st.user with net := A ++ B, got := st.user.got ++ [⟨r, (st.user.rank r).phase, m⟩] } }
  /-- all own sends are matched: the stop barrier begins, pcu/pcu_msg.c:181-186 -/
  | sent (r k : Nat) (rest : List Seq.Instr) (v : V) (hr : r < N) (hp : (st.coll r).prog = .enter k :: rest) (ho : (J k).role = .stop)
      (hm : (st.user.rank r).mode = .sendRecv) (hdone : ∀ m ∈ st.user.net, m.src ≠ r) :
      Step J N st
        { coll := Coll.upd st.coll r (entering (st.coll r) k rest v)
          gave := Coll.upd st.gave r (st.gave r ++ [v])
          user := { st.user with rank := (Phase.upd st.user.rank r
            { st.user.rank r with mode := .recv, entered := (st.user.rank r).entered + 1 }) } }
  /-- `pcu_barrier_done`: the receive loop ends, pcu/pcu_msg.c:187-189, 211-214 -/
  | finish (r k : Nat) (rest : List Seq.Instr) (hr : r < N) (hp : (st.coll r).prog = .leave k :: rest) (ho : (J k).role = .stop)
      (hm : (st.user.rank r).mode = .recv) :
      Step J N st
        { st with
          coll := Coll.upd st.coll r (leaving (st.coll r) rest)
          user := { st.user with rank := Phase.upd st.user.rank r { st.user.rank r with mode := .idle, peers := fun _ => none } } }

/-- before anything happens; `P k r` is the communication of call `k` on rank `r`, `K` the number of calls -/
def initial (P : Nat → Nat → List Coll.Instr) (N K : Nat) (junk : Nat → V) : State α V :=
  { coll := Seq.initial P N K junk, gave := fun _ => [], user := Phase.init }

/-- `n` steps from the beginning -/
inductive Reach (J : Nat → Entry V) (P : Nat → Nat → List Coll.Instr) (N K : Nat) (junk : Nat → V) : Nat → State α V → Prop
  | init : Reach J P N K junk 0 (initial P N K junk)
  | step {n : Nat} {a b : State α V} : Reach J P N K junk n a → Step J N a b → Reach J P N K junk (n + 1) b

end Verif.Pcu.Whole
