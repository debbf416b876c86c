import Verif.Mem
/-!
# Model of the memory of message passing on one process

What `noto_malloc`, `noto_realloc` and `noto_free` (pcu/noto/noto_malloc.c:22-86, without `DEBUG_MEMORY`) are asked to do by
pcu/pcu_buffer.c, pcu_msg.c, pcu_order.c, pcu_coll.c and pcu.c: which blocks exist, how large they are, and which of them MPI reads at
the moment.  The bytes themselves are in C25-C29.  A release of a block that is not allocated, or that MPI still reads, and an access
outside an allocated block, are undefined behaviour.  Blocks are never given the same number twice.  `malloc` does not fail.  The
AA trees are lists ordered by rank (C26 says that is what they are); an access to zero bytes is no access.
-/
namespace Verif.Pcu.Store

/-- blocks with their sizes, and the blocks that MPI reads -/
structure Heap where
  next : Nat
  live : List (Nat × Nat)
  busy : List Nat
deriving DecidableEq, Repr

/-- `noto_malloc`, pcu/noto/noto_malloc.c:22-41 -/
def Heap.malloc (h : Heap) (n : Nat) : Option Nat × Heap :=
  if n = 0 then (none, h) else (some h.next, { h with next := h.next + 1, live := (h.next, n) :: h.live })

/-- `noto_free`, pcu/noto/noto_malloc.c:72-85 -/
def Heap.free (h : Heap) : Option Nat → Outcome Heap
  | none => .ok h
  | some b => if b ∈ h.live.map Prod.fst ∧ b ∉ h.busy then .ok { h with live := h.live.filter (fun x => decide (x.1 ≠ b)) } else .ub

/-- `noto_realloc`, pcu/noto/noto_malloc.c:43-70; size 0 releases, as in glibc -/
def Heap.realloc (h : Heap) (p : Option Nat) (n : Nat) : Outcome (Option Nat × Heap) := do
  let h ← h.free p
  return h.malloc n

/-- an access to `n` bytes from byte `a` of a block -/
def Heap.touch (h : Heap) (p : Option Nat) (a n : Nat) : Outcome Unit :=
  if n = 0 then .ok ()
  else match p with
    | none => .ub
    | some b => if ∃ x ∈ h.live, x.1 = b ∧ a + n ≤ x.2 then .ok () else .ub

/-- `pcu_buffer`, pcu/pcu_buffer.h -/
structure Buf where
  start : Option Nat
  size : Nat
  cap : Nat
deriving DecidableEq, Repr

/-- `pcu_make_buffer`, pcu/pcu_buffer.c:15-20 -/
def Buf.make : Buf := ⟨none, 0, 0⟩

/-- `pcu_push_buffer` and the `memcpy` into it, pcu/pcu_buffer.c:27-40, pcu.c:143 -/
def push (h : Heap) (b : Buf) (n : Nat) : Outcome (Buf × Heap) := do
  let size := b.size + n
  let r ← if b.cap < size then
      let cap := max size ((b.cap + 16) * 3 / 2)
      (do let x ← h.realloc b.start cap
          return ((⟨x.1, size, cap⟩ : Buf), x.2) : Outcome (Buf × Heap))
    else .ok (⟨b.start, size, b.cap⟩, h)
  r.2.touch r.1.start b.size n
  return r

/-- `pcu_walk_buffer` and the `memcpy` out of it, pcu/pcu_buffer.c:47-54, pcu.c:214-216 -/
def walk (h : Heap) (b : Buf) (n : Nat) : Outcome Buf :=
  if b.cap < b.size + n then .fail
  else do
    h.touch b.start b.size n
    return { b with size := b.size + n }

/-- `pcu_resize_buffer`, pcu/pcu_buffer.c:61-66 -/
def resize (h : Heap) (b : Buf) (n : Nat) : Outcome (Buf × Heap) :=
  if b.size = n ∧ b.cap = n then .ok (b, h)
  else do
    let x ← h.realloc b.start n
    return (⟨x.1, n, n⟩, x.2)

/-- a message with its tree node: `pcu_msg_peer` (pcu/pcu_msg.h) or `struct message` (pcu/pcu_order.c:16-20) -/
structure Msg where
  rank : Int
  node : Nat
  buf : Buf
deriving DecidableEq, Repr

/-- the size of a node or of the ordering object: any number but 0 -/
def nodeBytes : Nat := 64

/-- `struct pcu_order_struct`, pcu/pcu_order.c:22-28; `at` as in the code -/
structure Ord where
  self : Nat
  tree : List Msg
  array : Option Nat
  count : Nat
  ready : Bool
  at_ : Int
deriving DecidableEq, Repr

/-- the states of pcu/pcu_msg.c:54-59; `exch` is both `send_recv_state` and `recv_state` -/
inductive Mode where
  | idle
  | pack
  | exch
deriving DecidableEq, Repr

/-- `global_state` and `global_pmsg`, pcu/pcu.c:45-46 -/
structure St where
  up : Bool
  mode : Mode
  peers : List Msg
  received : Buf
  order : Option Ord
  heap : Heap
deriving DecidableEq, Repr

/-- before `PCU_Comm_Init` -/
def fresh : St := ⟨false, .idle, [], Buf.make, none, ⟨0, [], []⟩⟩

/-- `pcu_order_new`, pcu/pcu_order.c:39-45 -/
def orderNew (h : Heap) : Ord × Heap := (⟨h.next, [], none, 0, false, 0⟩, (h.malloc nodeBytes).2)

/-- `free_message`, pcu/pcu_order.c:47-51, and the last lines of `free_peers`, pcu_msg.c:83-87 -/
def freeMsg (h : Heap) (m : Msg) : Outcome Heap := do
  let h ← h.free m.buf.start
  h.free (some m.node)

/-- `dtor_order`, pcu/pcu_order.c:65-69 -/
def orderDtor (h : Heap) (o : Ord) : Outcome Heap := do
  let h ← o.tree.foldlM freeMsg h
  h.free o.array

/-- `pcu_order_free`, pcu/pcu_order.c:71-75 -/
def orderFree (h : Heap) (o : Ord) : Outcome Heap := do
  let h ← orderDtor h o
  h.free (some o.self)

/-- `free_comm`, pcu/pcu_msg.c:194-198 -/
def freeComm (h : Heap) (peers : List Msg) (received : Buf) : Outcome Heap := do
  let h ← peers.foldlM freeMsg h
  h.free received.start

/-- `PCU_Comm_Order`, pcu/pcu.c:229-240 -/
def setOrder (on : Bool) (s : St) : Outcome St :=
  match s.order with
  | none => if on then .ok { s with order := some (orderNew s.heap).1, heap := (orderNew s.heap).2 } else .ok s
  | some o => if on then .ok s else do
      let h ← orderFree s.heap o
      return { s with order := none, heap := h }

/-- `PCU_Comm_Init`, pcu/pcu.c:58-71 -/
def init (s : St) : Outcome St :=
  if s.up then .fail else setOrder true { fresh with up := true, heap := s.heap }

/-- pcu/pcu.c:81-82 -/
def orderFreeOpt (h : Heap) : Option Ord → Outcome Heap
  | some o => orderFree h o
  | none => .ok h

/-- `PCU_Comm_Free`, pcu/pcu.c:77-87; the debug file is C74 -/
def commFree (s : St) : Outcome St := do
  let h ← orderFreeOpt s.heap s.order
  let h ← freeComm h s.peers s.received
  return { s with up := false, heap := h }

/-- `pcu_msg_pack`, pcu/pcu_msg.c:123-134, with `make_peer`, lines 114-121 -/
def packTo (s : St) (to : Int) (n : Nat) : Outcome St :=
  match s.peers.find? (fun m => decide (m.rank = to)) with
  | some m => do
    let x ← push s.heap m.buf n
    return { s with peers := s.peers.map (fun k => if k.rank = to then { m with buf := x.1 } else k), heap := x.2 }
  | none => do
    let h := (s.heap.malloc nodeBytes).2
    let x ← push h Buf.make n
    return { s with peers := s.peers ++ [⟨to, s.heap.next, x.1⟩], heap := x.2 }

/-- `send_peers`, pcu/pcu_msg.c:146-155: MPI reads the buffers from now on -/
def sendAll (s : St) : Outcome St := do
  let _ ← s.peers.mapM (fun m => s.heap.touch m.buf.start 0 m.buf.size)
  return { s with mode := .exch, heap := { s.heap with busy := s.peers.filterMap (fun m => m.buf.start) } }

/-- `pcu_msg_receive`, pcu/pcu_msg.c:200-216, and `pcu_pmpi_receive2`, pcu_pmpi.c:88-110; `a` is what arrives, or `none` when the barrier
is done, which is after all sends of this process are done (lines 175-192) -/
def msgReceive (s : St) (a : Option (Int × Nat)) : Outcome (Bool × Int × St) :=
  if s.mode ≠ .exch then .fail
  else if s.received.size ≠ s.received.cap then .fail
  else match a with
    | some (r, n) => do
      let x ← resize s.heap s.received n
      x.2.touch x.1.start 0 n
      return (true, r, { s with received := { x.1 with size := 0 }, heap := x.2 })
    | none => do
      let h ← freeComm { s.heap with busy := [] } s.peers s.received
      return (false, 0, { s with mode := .idle, peers := [], received := Buf.make, heap := h })

/-- `pcu_aa_insert` with `message_less`: a second message of a rank is not inserted -/
def insMsg (m : Msg) : List Msg → List Msg
  | [] => [m]
  | k :: l => if m.rank < k.rank then m :: k :: l else if m.rank = k.rank then k :: l else k :: insMsg m l

/-- one turn of the loop of `prepare`, pcu/pcu_order.c:108-111, with `take_message`, lines 77-85 -/
def takeOne (s : St × List Msg) (a : Int × Nat) : Outcome (St × List Msg) := do
  let x ← msgReceive s.1 (some a)
  let t := x.2.2
  let m : Msg := ⟨x.2.1, t.heap.next, t.received⟩
  return ({ t with received := Buf.make, heap := (t.heap.malloc nodeBytes).2 }, insMsg m s.2)

/-- `prepare`, pcu/pcu_order.c:105-118: all messages of the phase -/
def prepare (s : St) (o : Ord) (arr : List (Int × Nat)) : Outcome (St × Ord) := do
  let x ← arr.foldlM takeOne (s, o.tree)
  let y ← msgReceive x.1 none
  let t := y.2.2
  let z := t.heap.malloc (8 * x.2.length)
  return ({ t with heap := z.2 }, { o with tree := x.2, array := z.1, count := x.2.length, at_ := -1, ready := true })

/-- the buffer of `o->array[o->at]` -/
def current (h : Heap) (o : Ord) : Outcome Msg :=
  if o.at_ < 0 then .ub
  else do
    h.touch o.array (8 * o.at_.toNat) 8
    rd o.tree o.at_.toNat

/-- the tree with the buffer of the current message replaced -/
def setCurrent (o : Ord) (b : Buf) : Ord :=
  { o with tree := o.tree.modify o.at_.toNat (fun m => { m with buf := b }) }

/-- the rest of `pcu_order_receive`, pcu/pcu_order.c:124-131 -/
def advance (s : St) (o : Ord) : Outcome St := do
  let o := { o with at_ := o.at_ + 1 }
  if o.at_ = o.count then do
    let h ← orderDtor s.heap o
    return { s with order := some ⟨o.self, [], none, 0, false, 0⟩, heap := h }
  else do
    let m ← current s.heap o
    return { s with order := some (setCurrent o { m.buf with size := 0 }) }

/-- `PCU_Comm_Listen`, pcu/pcu.c:170-178, pcu_order.c:120-131 -/
def listen (s : St) (arr : List (Int × Nat)) : Outcome St :=
  match s.order with
  | some o => if o.ready then advance s o else do
      let x ← prepare s o arr
      advance x.1 x.2
  | none => do
      let x ← msgReceive s arr.head?
      return x.2.2

/-- `PCU_Comm_Unpack`, pcu/pcu.c:207-218, pcu_order.c:133-136 -/
def unpack (s : St) (n : Nat) : Outcome St :=
  match s.order with
  | some o => do
    let m ← current s.heap o
    let b ← walk s.heap m.buf n
    return { s with order := some (setCurrent o b) }
  | none => do
    let b ← walk s.heap s.received n
    return { s with received := b }

/-- `PCU_Comm_Sender` and `PCU_Comm_Received`, pcu/pcu.c:184-191 and 540-547, pcu_order.c:146-154 -/
def ask (s : St) : Outcome St :=
  match s.order with
  | some o => do
    let _ ← current s.heap o
    return s
  | none => .ok s

/-- `PCU_Comm_Unpacked`, pcu/pcu.c:196-204, pcu_order.c:138-144 -/
def unpacked (s : St) : Outcome St :=
  match s.order with
  | some o => if o.ready then do
      let _ ← current s.heap o
      return s
    else .ok s
  | none => .ok s

/-- the receiving steps of a collective with operands of `n` bytes: `end_coll_step`, pcu/pcu_coll.c:143-161 -/
def collSteps (n : Nat) : Nat → Heap → Outcome Heap
  | 0, h => .ok h
  | k + 1, h => do
    let x ← resize h Buf.make n
    x.2.touch x.1.start 0 n
    let h ← x.2.free x.1.start
    collSteps n k h

/-- `PCU_Exscan_Ints` and `_Longs`, pcu/pcu.c:391-429: a copy of the operand lives meanwhile -/
def exscan (n steps : Nat) (h : Heap) : Outcome Heap := do
  let x := h.malloc n
  x.2.touch x.1 0 n
  let h ← collSteps n steps x.2
  h.touch x.1 0 n
  h.free x.1

/-- a call of the library; sizes are in bytes, `arr` the messages of the phase that have not been received yet, `steps` how many operands
a collective receives here -/
inductive Call where
  | init
  | free
  | order (on : Bool)
  | begin
  | pack (to : Int) (n : Nat)
  | packed (to : Int)
  | send
  | listen (arr : List (Int × Nat))
  | unpack (n : Nat)
  | sender
  | received
  | unpacked
  | coll (n steps : Nat)
  | exscan (n steps : Nat)
deriving DecidableEq, Repr

/-- one call on a process of `P`, pcu/pcu.c -/
def step (P : Nat) (s : St) : Call → Outcome St
  | .init => init s
  | .free => if s.up then commFree s else .fail
  | .order on => if s.up then setOrder on s else .fail
  | .begin => if s.up = false then .fail else if s.mode ≠ .idle then .fail else .ok { s with mode := .pack }
  | .pack to n => if s.up = false then .fail else if to < 0 ∨ (P : Int) ≤ to then .fail else if s.mode ≠ .pack then .fail else packTo s to n
  | .packed to => if s.up = false then .fail else if to < 0 ∨ (P : Int) ≤ to then .fail else if s.mode ≠ .pack then .fail else
      if (s.peers.find? (fun m => decide (m.rank = to))).isNone then .fail else .ok s
  | .send => if s.up = false then .fail else if s.mode ≠ .pack then .fail else sendAll s
  | .listen arr => if s.up then listen s arr else .fail
  | .unpack n => if s.up then unpack s n else .fail
  | .sender => if s.up then ask s else .fail
  | .received => if s.up then ask s else .fail
  | .unpacked => if s.up then unpacked s else .fail
  | .coll n steps => if s.up then (do let h ← collSteps n steps s.heap; return { s with heap := h }) else .fail
  | .exscan n steps => if s.up then (do let h ← exscan n steps s.heap; return { s with heap := h }) else .fail

/-- a history of calls -/
def run (P : Nat) (cs : List Call) : Outcome St := cs.foldlM (step P) fresh

end Verif.Pcu.Store
