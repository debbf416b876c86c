import Verif.Base
/-!
# Model of the communication phases of `pcu/pcu_msg.c`

`N` ranks, each a state machine with the states of `pcu_msg.c`, a network of synchronous
non-blocking messages, and barriers.  The barrier is used through its contract (property C32, proved
about `pcu_coll.c`): barrier number `j` can be left only when every rank has entered it.
Fields marked *ghost* are not in the code; no step tests them, they only record what happened.
-/
namespace Verif.Pcu.Phase

/-- the state of a rank, pcu/pcu_msg.c:54-61; `starting` is inside the blocking barrier of
`pcu_msg_start` (pcu/pcu_msg.c:97) -/
inductive Mode where
  | idle
  | starting
  | pack
  | sendRecv
  | recv
deriving DecidableEq, Repr

/-- a message; `phase` is ghost (the sender's phase number) -/
structure Msg (α : Type) where
  src : Nat
  dst : Nat
  data : List α
  phase : Nat

/-- one rank: `peers` is the AA tree of outgoing buffers (a map, property C26); `entered` counts the
barriers entered; `phase` (ghost) counts `PCU_Comm_Begin` calls -/
structure Rank (α : Type) where
  mode : Mode
  phase : Nat
  entered : Nat
  peers : Nat → Option (List α)

/-- ghost record of one `PCU_Comm_Pack` call -/
structure PackRec (α : Type) where
  src : Nat
  dst : Nat
  phase : Nat
  data : List α

/-- ghost record of one successful `PCU_Comm_Listen`: the receiving rank, its phase, the message -/
structure Delivery (α : Type) where
  rank : Nat
  phase : Nat
  msg : Msg α

/-- the whole job -/
structure State (α : Type) where
  rank : Nat → Rank α
  net : List (Msg α)
  packs : List (PackRec α)
  got : List (Delivery α)

variable {α : Type}

/-- before the first phase: `pcu_make_msg`, pcu/pcu_msg.c:63-75 -/
def init : State α where
  rank _ := { mode := .idle, phase := 0, entered := 0, peers := fun _ => none }
  net := []
  packs := []
  got := []

/-- pointwise update -/
def upd {β : Type} (f : Nat → β) (i : Nat) (x : β) : Nat → β := fun j => if j = i then x else f j

/-- `find_peer`/`make_peer`, then `pcu_push_buffer`: pcu/pcu_msg.c:123-134 -/
def pushPeer (peers : Nat → Option (List α)) (d : Nat) (bytes : List α) : Nat → Option (List α) :=
  upd peers d (some ((peers d).getD [] ++ bytes))

/-- `send_peers`: one message per peer in the tree, pcu/pcu_msg.c:146-155 -/
def outgoing (N r : Nat) (s : Rank α) : List (Msg α) :=
  (List.range N).filterMap (fun d => (s.peers d).map (fun b => ⟨r, d, b, s.phase⟩))

/-- every rank has entered the barrier that `r` entered last -/
def BarrierOpen (N : Nat) (st : State α) (r : Nat) : Prop :=
  ∀ q, q < N → (st.rank r).entered ≤ (st.rank q).entered

/-- One atomic step of a job of `N` ranks that will run `K` phases.  Any enabled step may happen. -/
inductive Step (N K : Nat) (st : State α) : State α → Prop
  /-- `pcu_msg_start`, pcu/pcu_msg.c:90-97: accepted only when idle; enters the start barrier -/
  | begin (r : Nat) (hr : r < N) (hm : (st.rank r).mode = .idle) (hK : (st.rank r).phase < K) :
      Step N K st { st with rank := (upd st.rank r
        { st.rank r with mode := .starting, phase := (st.rank r).phase + 1,
                         entered := (st.rank r).entered + 1 }) }
  /-- the start barrier returns, pcu/pcu_msg.c:97-98 -/
  | started (r : Nat) (hr : r < N) (hm : (st.rank r).mode = .starting) (hb : BarrierOpen N st r) :
      Step N K st { st with rank := upd st.rank r { st.rank r with mode := .pack } }
  /-- `PCU_Comm_Pack`, pcu/pcu.c:134-142, pcu/pcu_msg.c:123-134 -/
  | pack (r d : Nat) (bytes : List α) (hr : r < N) (hd : d < N) (hm : (st.rank r).mode = .pack) :
      Step N K st { st with
        rank := upd st.rank r { st.rank r with peers := pushPeer (st.rank r).peers d bytes }
        packs := st.packs ++ [⟨r, d, (st.rank r).phase, bytes⟩] }
  /-- `pcu_msg_send`, pcu/pcu_msg.c:157-163 -/
  | send (r : Nat) (hr : r < N) (hm : (st.rank r).mode = .pack) :
      Step N K st { st with
        rank := upd st.rank r { st.rank r with mode := .sendRecv }
        net := st.net ++ outgoing N r (st.rank r) }
  /-- `pcu_mpi_receive` with `MPI_ANY_SOURCE` succeeds inside `receive_global`,
  pcu/pcu_msg.c:176-192; any message in flight to `r` may be the one probed -/
  | listen (r : Nat) (hr : r < N) (hm : (st.rank r).mode = .sendRecv ∨ (st.rank r).mode = .recv)
      (A B : List (Msg α)) (m : Msg α) (hnet : st.net = A ++ m :: B) (hdst : m.dst = r) :
      Step N K st { st with
        net := A ++ B
        got := st.got ++ [⟨r, (st.rank r).phase, m⟩] }
  /-- `done_sending_peers` is true (all own synchronous sends are matched), the end barrier is
  entered, pcu/pcu_msg.c:181-186 -/
  | sent (r : Nat) (hr : r < N) (hm : (st.rank r).mode = .sendRecv)
      (hdone : ∀ m ∈ st.net, m.src ≠ r) :
      Step N K st { st with rank := (upd st.rank r
        { st.rank r with mode := .recv, entered := (st.rank r).entered + 1 }) }
  /-- `pcu_barrier_done` is true, `pcu_msg_receive` returns false and resets,
  pcu/pcu_msg.c:187-189, 211-214 -/
  | finish (r : Nat) (hr : r < N) (hm : (st.rank r).mode = .recv) (hb : BarrierOpen N st r) :
      Step N K st { st with rank := (upd st.rank r
        { st.rank r with mode := .idle, peers := fun _ => none }) }

/-- `n` steps from the initial state -/
inductive Reach (N K : Nat) : Nat → State α → Prop
  | init : Reach N K 0 init
  | step {n : Nat} {a b : State α} : Reach N K n a → Step N K a b → Reach N K (n + 1) b

end Verif.Pcu.Phase
