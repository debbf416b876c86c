import Verif.Pcu.ApiModel
/-!
# Model of the receiving loop `while (PCU_Comm_Receive()) { ...unpack one record... }`

One rank, in the receiving part of a phase.  The records are bytes; how the user's loop body takes one
record apart is a `Reader`.  `PCU_Comm_Write` / `PCU_Comm_Read` are modelled as one particular record.
-/
namespace Verif.Pcu.Recv
open Verif.Pcu.Api

/-- a rank in a phase: the library state, the field `received.peer` (pcu/pcu_msg.h), and the messages of
the phase that `pcu_mpi_receive` has not returned yet, in arrival order -/
structure World where
  st : St
  peer : Int
  rest : List Arrival

/-- `PCU_Comm_Unpacked`, pcu/pcu.c:196-204 (`pcu_msg_unpacked`, pcu/pcu_msg.c:223-226) -/
def unpacked (w : World) : Outcome Bool :=
  if ¬ w.st.inited then .fail
  else
    match w.st.order with
    | none => .ok w.st.received.walked
    | some o => o.unpacked

/-- `PCU_Comm_Sender`, pcu/pcu.c:184-192 (`pcu_msg_received_from`: the peer of the last receive) -/
def sender (w : World) : Outcome Int :=
  if ¬ w.st.inited then .fail
  else
    match w.st.order with
    | none => .ok w.peer
    | some o => o.receivedFrom

/-- `PCU_Comm_Listen`, pcu/pcu.c:170-179.  Without ordering one message is taken from the network, with
ordering all of them at the first call (pcu/pcu_order.c:105-118, 120-132). -/
def listen (size : Nat) (w : World) : Outcome (Bool × World) := do
  let (r, s) ← step size w.st (.listen w.rest)
  let peer := match w.rest with
    | [] => w.peer
    | a :: _ => a.sender
  let rest := match w.st.order with
    | none => w.rest.tail
    | some _ => []
  return (r = .bool true, { st := s, peer := peer, rest := rest })

/-- `PCU_Comm_Unpack`, pcu/pcu.c:215-226 -/
def unpack (size : Nat) (w : World) (n : Nat) : Outcome (List UInt8 × World) := do
  let (r, s) ← step size w.st (.unpack n)
  match r with
  | .bytes d => .ok (d, { w with st := s })
  | _ => .fail

/-- `PCU_Comm_Receive`, pcu/pcu.c:578-584: skip what is unpacked.  The number bounds the iterations; running
out of it counts as undefined (the theorems show that it does not happen). -/
def receive (size : Nat) : Nat → World → Outcome (Bool × World)
  | 0, _ => .ub
  | f + 1, w => do
    let u ← unpacked w
    if u then do
      let (b, w) ← listen size w
      if b then receive size f w else return (false, w)
    else return (true, w)

/-- a loop body that unpacks one record: it asks for some bytes, looks at them, and goes on (for example a
length followed by that many entries) -/
inductive Reader (α : Type) where
  | done (a : α)
  | take (n : Nat) (k : List UInt8 → Reader α)

/-- running the body: its `PCU_Comm_Unpack` calls, pcu/pcu.c:215-226 -/
def Reader.run (size : Nat) {α : Type} : Reader α → World → Outcome (α × World)
  | .done a, w => .ok (a, w)
  | .take n k, w => do
    let (d, w) ← unpack size w n
    (k d).run size w

/-- the loop `while (PCU_Comm_Receive()) { sender = PCU_Comm_Sender(); ... }` as in agi/agiTag.cpp:110-121,
agi/agiMigration.cpp:89-101 and everywhere else -/
def drain (size : Nat) {α : Type} (rd : Reader α) : Nat → World → Outcome (List (Int × α) × World)
  | 0, _ => .ub
  | f + 1, w => do
    let (b, w) ← receive size (f + 1) w
    if b then do
      let s ← sender w
      let (x, w) ← rd.run size w
      let (l, w) ← drain size rd f w
      return ((s, x) :: l, w)
    else return ([], w)

/-! ## `PCU_Comm_Write` and `PCU_Comm_Read` -/

/-- the bytes of a `size_t` of eight bytes, lowest first (the byte order of the machine; the same on both
sides) -/
def sizeBytes : Nat → Nat → List UInt8
  | 0, _ => []
  | k + 1, n => UInt8.ofNat (n % 256) :: sizeBytes k (n / 256)

/-- reading them back -/
def sizeOfBytes : List UInt8 → Nat
  | [] => 0
  | b :: l => b.toNat + 256 * sizeOfBytes l

/-- what `PCU_Comm_Write` packs, pcu/pcu.c:564-575: the size, then the data -/
def writeBytes (data : List UInt8) : List UInt8 := sizeBytes 8 data.length ++ data

/-- what `PCU_Comm_Read` unpacks after its `PCU_Comm_Receive`, pcu/pcu.c:598-608: a `size_t`, then
`PCU_Comm_Extract` of that size (the same walk as `PCU_Comm_Unpack`, without the copy) -/
def readReader : Reader (List UInt8) :=
  .take 8 (fun b => .take (sizeOfBytes b) .done)

end Verif.Pcu.Recv
