import Verif.Pcu.OrderModel
/-!
# Model of the calls a user makes on one rank: `PCU_Comm_Begin/Pack/Send/Listen/Unpack`

One rank, seen from its program; what the network brings is an argument of the `listen` call.
-/
namespace Verif.Pcu.Api

/-- the states of pcu/pcu_msg.c:54-61 as seen between calls (`send_recv_state` and `recv_state`
accept the same calls) -/
inductive Mode where
  | idle
  | pack
  | receiving
deriving DecidableEq, Repr

/-- the library state of one rank (`global_state`, `global_pmsg`): pcu/pcu.c:44-51, pcu/pcu_msg.h -/
structure St where
  inited : Bool
  mode : Mode
  received : Buffer
  order : Option Order
  /-- what was packed in this phase, in call order (the AA tree of peers) -/
  out : List (Int × List UInt8)

/-- before `PCU_Comm_Init` -/
def fresh : St := { inited := false, mode := .idle, received := .make, order := none, out := [] }

/-- a call; `listen` carries the messages of this phase that `pcu_mpi_receive` has not returned yet,
in arrival order -/
inductive Call where
  | init
  | setOrder (on : Bool)
  | begin
  | pack (to : Int) (data : List UInt8)
  | send
  | listen (arrivals : List Arrival)
  | unpack (n : Nat)

/-- what a call returns -/
inductive Ret where
  | unit
  | bool (b : Bool)
  | bytes (l : List UInt8)
deriving DecidableEq, Repr

/-- `pcu_msg_receive`, pcu/pcu_msg.c:200-216, when the network's answer is `a` (`none`: the phase is
over) -/
def msgReceive (s : St) (a : Option Arrival) : Outcome (Bool × St) :=
  if s.mode ≠ .receiving then .fail
  else if s.received.walked = false then .fail
  else
    match a with
    | some a => do
      let b ← s.received.receiveBytes a.bytes
      return (true, { s with received := b })
    | none => .ok (false, { s with mode := .idle, received := .make, out := [] })

/-- the loop of `prepare`, pcu/pcu_order.c:105-118: every message is taken from the receive buffer;
then `pcu_msg_receive` reports the end of the phase -/
def prepareAll (s : St) (o : Order) (arrivals : List Arrival) : Outcome (St × Order) :=
  if s.mode ≠ .receiving then .fail
  else if s.received.walked = false then .fail
  else do
    let o ← o.prepare arrivals
    return ({ s with mode := .idle, received := .make, out := [] }, o)

/-- one API call of a job with `size` ranks -/
def step (size : Nat) (s : St) : Call → Outcome (Ret × St)
  /- pcu/pcu.c:58-72: nested initialisation fails, ordering is switched on -/
  | .init =>
    if s.inited then .fail
    else .ok (.unit, { fresh with inited := true, order := some Order.init })
  /- `PCU_Comm_Order`, pcu/pcu.c:228-240 -/
  | .setOrder on =>
    if ¬ s.inited then .fail
    else if on then .ok (.unit, { s with order := some (s.order.getD Order.init) })
    else .ok (.unit, { s with order := none })
  /- pcu/pcu.c:122-127, pcu/pcu_msg.c:90-99 -/
  | .begin =>
    if ¬ s.inited then .fail
    else if s.mode ≠ .idle then .fail
    else .ok (.unit, { s with mode := .pack })
  /- pcu/pcu.c:134-142, pcu/pcu_msg.c:123-134 -/
  | .pack to data =>
    if ¬ s.inited then .fail
    else if to < 0 ∨ size ≤ to then .fail
    else if s.mode ≠ .pack then .fail
    else .ok (.unit, { s with out := s.out ++ [(to, data)] })
  /- pcu/pcu.c:150-156, pcu/pcu_msg.c:157-163 -/
  | .send =>
    if ¬ s.inited then .fail
    else if s.mode ≠ .pack then .fail
    else .ok (.unit, { s with mode := .receiving })
  /- pcu/pcu.c:170-179 -/
  | .listen arrivals =>
    if ¬ s.inited then .fail
    else
      match s.order with
      | none => do
        let (b, s) ← msgReceive s arrivals.head?
        return (.bool b, s)
      | some o =>
        if o.ready then do
          let (b, o) ← o.receive []
          return (.bool b, { s with order := some o })
        else do
          let (s, o) ← prepareAll s o arrivals
          let (b, o) ← o.receive []
          return (.bool b, { s with order := some o })
  /- pcu/pcu.c:216-226 -/
  | .unpack n =>
    if ¬ s.inited then .fail
    else
      match s.order with
      | none => do
        let (b, d) ← s.received.unpack n
        return (.bytes d, { s with received := b })
      | some o => do
        let (d, o) ← o.unpack n
        return (.bytes d, { s with order := some o })

/-- a history of calls -/
def run (size : Nat) : St → List Call → Outcome (List Ret × St)
  | s, [] => .ok ([], s)
  | s, c :: cs => do
    let (r, s) ← step size s c
    let (rs, s) ← run size s cs
    return (r :: rs, s)

end Verif.Pcu.Api
