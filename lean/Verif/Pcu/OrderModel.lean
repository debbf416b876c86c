import Verif.Pcu.AAModel
import Verif.Pcu.BufferModel
/-!
# Model of `pcu/pcu_order.c`: delivery of the messages of a phase ordered by sender
-/
namespace Verif.Pcu

/-- what arrives from the network in `pcu_msg_receive`: sender and bytes -/
structure Arrival where
  sender : Int
  bytes : List UInt8
deriving DecidableEq, Repr

/-- `struct message`, pcu/pcu_order.c:16-20 -/
structure OMsg where
  sender : Int
  buf : Buffer
deriving DecidableEq, Repr

/-- `struct pcu_order_struct`, pcu/pcu_order.c:22-28 -/
structure Order where
  tree : AA OMsg
  array : List OMsg
  count : Nat
  ready : Bool
  pos : Int
deriving DecidableEq, Repr

namespace Order

/-- `init_order`, pcu/pcu_order.c:30-37 -/
def init : Order := { tree := .nil, array := [], count := 0, ready := false, pos := 0 }

/-- `take_message`, pcu/pcu_order.c:77-85, after `pcu_msg_receive` filled the (fresh) receive
buffer -/
def takeMessage (a : Arrival) : Outcome OMsg := do
  let b ← Buffer.make.receiveBytes a.bytes
  return { sender := a.sender, buf := b }

/-- the loop of `prepare`, pcu/pcu_order.c:108-111, over the messages `pcu_msg_receive` returns -/
def collect : AA OMsg → List Arrival → Outcome (AA OMsg)
  | t, [] => .ok t
  | t, a :: as => do
    let m ← takeMessage a
    let (_, t') ← AA.insert OMsg.sender m t
    collect t' as

/-- `prepare`, pcu/pcu_order.c:105-118 (`fill` is the in-order traversal, lines 96-103) -/
def prepare (o : Order) (arrivals : List Arrival) : Outcome Order := do
  let t ← collect o.tree arrivals
  return { tree := t, array := t.toList, count := t.count, ready := true, pos := -1 }

/-- `o->array[o->at]` -/
def current (o : Order) : Outcome OMsg :=
  if o.pos < 0 then .ub else Outcome.ofOption o.array[o.pos.toNat]?

/-- writing back the current message's buffer -/
def setCurrent (o : Order) (b : Buffer) : Outcome Order := do
  let m ← o.current
  return { o with array := o.array.set o.pos.toNat { m with buf := b } }

/-- `pcu_order_receive`, pcu/pcu_order.c:120-132; `arrivals` is what the underlying
`pcu_msg_receive` loop returns if it is run now -/
def receive (o : Order) (arrivals : List Arrival) : Outcome (Bool × Order) := do
  let o ← if o.ready then .ok o else o.prepare arrivals
  let o := { o with pos := o.pos + 1 }
  if o.pos = o.count then return (false, init)
  else do
    let m ← o.current
    let o ← o.setCurrent m.buf.begin'
    return (true, o)

/-- `pcu_order_unpack`, pcu/pcu_order.c:134-137, with the copy of pcu/pcu.c:219-220 -/
def unpack (o : Order) (n : Nat) : Outcome (List UInt8 × Order) := do
  let m ← o.current
  let (b, d) ← m.buf.unpack n
  let o ← o.setCurrent b
  return (d, o)

/-- `pcu_order_unpacked`, pcu/pcu_order.c:139-145 -/
def unpacked (o : Order) : Outcome Bool :=
  if o.ready then do
    let m ← o.current
    return m.buf.walked
  else .ok true

/-- `pcu_order_received_from`, pcu/pcu_order.c:147-150 -/
def receivedFrom (o : Order) : Outcome Int := do
  let m ← o.current
  return m.sender

/-- A user's receive loop: call `PCU_Comm_Listen` `n` times; after each successful call read the
sender and unpack the whole message (`PCU_Comm_Received` bytes).  The result lists what each call
gave: `none` for the final `false`. -/
def listen : Nat → Order → List Arrival → Outcome (List (Option Arrival) × Order)
  | 0, o, _ => .ok ([], o)
  | n + 1, o, arrivals => do
    let (b, o) ← o.receive arrivals
    if b then do
      let m ← o.current
      let s ← o.receivedFrom
      let (d, o) ← o.unpack m.buf.capacity
      let (rest, o) ← listen n o arrivals
      return (some ⟨s, d⟩ :: rest, o)
    else do
      let (rest, o) ← listen n o []
      return (none :: rest, o)

end Order
end Verif.Pcu
