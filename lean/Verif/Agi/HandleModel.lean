import Verif.Agi.GraphModel
import Verif.Io.BytesModel
/-!
# Model of handles on the machine: agi/agi_typeconvert.cpp

GraphModel takes a handle for a number.  Here a handle is a 64-bit pointer in memory and a local id is a signed number of 32 or 64 bits
(`LONG_LOCAL_INDICES`, agi/CMakeLists.txt:5-23); conversions are modular, overflow of signed arithmetic is undefined.
-/
namespace Verif.Agi.Word
open Verif.Io

/-- the machine and how the library was configured on it: `little` is the byte order of the machine, `long` and `big` the options
`LONG_LOCAL_INDICES` and `BIG_ENDIAN`, agi/CMakeLists.txt:5-31 -/
structure Machine where
  little : Bool
  long : Bool
  big : Bool
deriving DecidableEq, Repr

/-- `sizeof(lid_t)` -/
def Machine.width (m : Machine) : Nat := if m.long then 8 else 4

/-- the largest `lid_t` -/
def Machine.maxLid (m : Machine) : Int := if m.long then 9223372036854775807 else 2147483647

/-- the result of a sum or product of `lid_t`s: signed overflow is undefined -/
def lid (m : Machine) (x : Int) : Outcome Int := if -m.maxLid - 1 ≤ x ∧ x ≤ m.maxLid then .ok x else .ub

/-- conversion to `uintptr_t` -/
def word (x : Int) : Nat := (x % 18446744073709551616).toNat

/-- the value of `w` bytes taken as a signed number -/
def signed (w n : Nat) : Int := if n < 256 ^ w / 2 then (n : Int) else (n : Int) - (256 ^ w : Nat)

/-- conversion of a `uintptr_t` to `lid_t` -/
def narrow (m : Machine) (p : Nat) : Int := signed m.width (p % 256 ^ m.width)

/-- `toPtr`, agi/agi_typeconvert.cpp:10-12 -/
def toPtr (x : Int) : Nat := word x

/-- `lid[i]` where `lid` points to the bytes of the pointer `p`, agi/agi_typeconvert.cpp:15 -/
def slot (m : Machine) (p i : Nat) : Int :=
  signed m.width (ofMem m.little (((memBytes m.little 8 p).drop (i * m.width)).take m.width))

/-- `fromPtr`, agi/agi_typeconvert.cpp:14-23: which slot is read is chosen by the options, not by the machine -/
def fromPtr (m : Machine) (p : Nat) : Outcome Int :=
  if m.big = false then lid m (slot m p 0 - 1)
  else if m.long then lid m (slot m p 0 - 1)
  else lid m (slot m p 1 - 1)

/-- `getVertex`, agi/agiVertex.cpp:14-16 -/
def getVertex (m : Machine) (l : Int) : Outcome Nat := do
  let x ← lid m (l + 1)
  return toPtr x

/-- `getEdge`, agi/agiEdge.cpp:12-14; the handles `edges(v)` yields are made in the same way, agi/agiIterate.cpp:69 -/
def getEdge (m : Machine) (nt : Nat) (l : Int) (t : Nat) : Outcome Nat := do
  let a ← lid m (nt * l)
  let b ← lid m (a + t)
  let c ← lid m (b + 1)
  return toPtr c

/-- `uintptr_t id = (uintptr_t)(edge)-1; type = id%num_types; id/=num_types;`, agi/agiEdge.cpp:57-59 and in all other queries -/
def decodeEdge (nt p : Nat) : Outcome (Nat × Nat) :=
  if nt = 0 then .ub
  else
    let id := (p + 18446744073709551615) % 18446744073709551616
    .ok (id % nt, id / nt)

/-- `localID(edge)`, agi/agiEdge.cpp:63-66 -/
def localID (m : Machine) (nt p : Nat) : Outcome Int := do
  let (_, id) ← decodeEdge nt p
  return narrow m id

/-- the decoding in `u(edge)`, agi/agiEdge.cpp:94-96: `lid_t lid = (uintptr_t)(edge)-1`; `%` and `/` of C -/
def decodeU (m : Machine) (nt p : Nat) : Outcome (Int × Int) :=
  if nt = 0 then .ub
  else
    let x := narrow m ((p + 18446744073709551615) % 18446744073709551616)
    .ok (x.tmod nt, x.tdiv nt)

/-- `begin(t)` and `iterate`, agi/Iterators/EdgeIterator.h:18-22, agi/agiIterate.cpp:60-90: the handles of all edges of a type, computed
in `uintptr_t` -/
def iterated (nt : Nat) (l t : Nat) : Nat := (1 + t + nt * l) % 18446744073709551616

/-- `iterate(VertexIterator*&)` and `iterate(GhostIterator*&)`, agi/agiIterate.cpp:25-44, with the number of vertices at which the loop
ends: the vertex and the iterator, NULL being 0 -/
def iterate (m : Machine) (n : Int) (itr : Nat) : Outcome (Nat × Nat) := do
  let index := narrow m itr
  let last ← lid m (n + 1)
  if index = last then return (0, 0)
  else do
    let next ← lid m (index + 1)
    return (toPtr index, toPtr next)

end Verif.Agi.Word
