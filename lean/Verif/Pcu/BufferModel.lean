import Verif.Base
/-!
# Model of `pcu/pcu_buffer.c` and of its use by `PCU_Comm_Pack` / `PCU_Comm_Unpack`
-/
namespace Verif.Pcu

/-- `pcu_buffer` (pcu/pcu_buffer.h): `start` points to `capacity` allocated bytes, of which a byte
may be uninitialised (`none`).  The allocation is modelled by the list `mem`, whose length is the
field `capacity`; `size` is the cursor.  `size_t` is unbounded here. -/
structure Buffer where
  mem : List (Option UInt8)
  size : Nat
deriving DecidableEq, Repr

namespace Buffer

/-- the field `capacity` of `pcu_buffer` -/
def capacity (b : Buffer) : Nat := b.mem.length

/-- `pcu_make_buffer`, pcu/pcu_buffer.c:15-20 -/
def make : Buffer := { mem := [], size := 0 }

/-- `noto_realloc` (pcu/noto/noto_malloc.c): keeps the common prefix, new bytes are
uninitialised. -/
def realloc (mem : List (Option UInt8)) (n : Nat) : List (Option UInt8) :=
  mem.take n ++ List.replicate (n - mem.length) none

/-- `pcu_push_buffer`, pcu/pcu_buffer.c:27-40.  Returns the new buffer and the offset of the
returned pointer from `start`. -/
def push (b : Buffer) (n : Nat) : Buffer × Nat :=
  let size := b.size + n
  let b' : Buffer :=
    if size > b.capacity then
      let minGrowth := ((b.capacity + 16) * 3) / 2
      let cap := if minGrowth > size then minGrowth else size
      { mem := realloc b.mem cap, size := size }
    else { b with size := size }
  (b', b'.size - n)

/-- `memcpy(start + off, data, |data|)`: undefined when it leaves the allocation. -/
def write (b : Buffer) (off : Nat) (data : List UInt8) : Outcome Buffer :=
  if off + data.length ≤ b.mem.length then
    .ok { b with mem := b.mem.take off ++ data.map some ++ b.mem.drop (off + data.length) }
  else .ub

/-- `memcpy(dst, start + off, n)`: undefined when it leaves the allocation or reads an
uninitialised byte. -/
def read (b : Buffer) (off n : Nat) : Outcome (List UInt8) :=
  if off + n ≤ b.mem.length then
    match ((b.mem.drop off).take n).mapM id with
    | some l => .ok l
    | none => .ub
  else .ub

/-- The data path of `PCU_Comm_Pack`, pcu/pcu.c:130-139 with pcu/pcu_msg.c:133. -/
def pack (b : Buffer) (data : List UInt8) : Outcome Buffer :=
  let (b', off) := b.push data.length
  b'.write off data

/-- `pcu_begin_buffer`, pcu/pcu_buffer.c:42-45 -/
def begin' (b : Buffer) : Buffer := { b with size := 0 }

/-- `pcu_walk_buffer`, pcu/pcu_buffer.c:47-54: offset of the returned pointer, or `reel_fail`. -/
def walk (b : Buffer) (n : Nat) : Outcome (Buffer × Nat) :=
  let at' := b.size
  let b' : Buffer := { b with size := b.size + n }
  if b'.size > b'.capacity then .fail else .ok (b', at')

/-- The data path of `PCU_Comm_Unpack`, pcu/pcu.c:213-223: walk, then copy out. -/
def unpack (b : Buffer) (n : Nat) : Outcome (Buffer × List UInt8) := do
  let (b', off) ← b.walk n
  let data ← b'.read off n
  return (b', data)

/-- `pcu_buffer_walked`, pcu/pcu_buffer.c:56-59 -/
def walked (b : Buffer) : Bool := b.size == b.capacity

/-- `pcu_resize_buffer`, pcu/pcu_buffer.c:61-66 -/
def resize (b : Buffer) (n : Nat) : Buffer :=
  if b.size = n ∧ b.capacity = n then b
  else { mem := realloc b.mem n, size := n }

/-- The bytes handed to MPI by `pcu_pmpi_send2`, pcu/pcu_pmpi.c:60-74: `size` bytes from `start`;
a message larger than `INT_MAX` aborts. -/
def sendBytes (b : Buffer) : Outcome (List UInt8) :=
  if b.size > 2147483647 then .fail else b.read 0 b.size

/-- `pcu_pmpi_receive2` followed by `pcu_begin_buffer`, pcu/pcu_pmpi.c:95-107 and
pcu/pcu_msg.c:209: the receive buffer `b` (whatever it held before) is resized to the message, the
message is copied in, and the cursor is set to the start. -/
def receiveBytes (b : Buffer) (msg : List UInt8) : Outcome Buffer := do
  let b' ← (b.resize msg.length).write 0 msg
  return b'.begin'

/-- several `PCU_Comm_Pack` calls to the same peer, in program order -/
def packAll : Buffer → List (List UInt8) → Outcome Buffer
  | b, [] => .ok b
  | b, c :: cs => do
    let b' ← b.pack c
    packAll b' cs

/-- several `PCU_Comm_Unpack` calls asking for the given numbers of bytes -/
def unpackAll : Buffer → List Nat → Outcome (Buffer × List (List UInt8))
  | b, [] => .ok (b, [])
  | b, n :: ns => do
    let (b', d) ← b.unpack n
    let (b'', ds) ← unpackAll b' ns
    return (b'', d :: ds)

/-- Everything from packing on one rank to the receive buffer on the other one:
pack the chunks into a fresh peer buffer, send it, receive it into `old`. -/
def transfer (chunks : List (List UInt8)) (old : Buffer) : Outcome Buffer := do
  let b ← packAll make chunks
  let msg ← b.sendBytes
  old.receiveBytes msg

end Buffer
end Verif.Pcu
