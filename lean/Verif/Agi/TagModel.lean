import Verif.Agi.GraphModel
import Verif.Io.BytesModel
/-!
# Model of tags at byte level: `agi/agiInfo.h`, `agi/agiTag.cpp:7-110`

A tag is a block of `b*s` characters; `int`, `long` and `double` values are read and written through
`reinterpret_cast`, so a value of width `w` (4 for `int`, 8 for `long` and `double`) occupies the bytes
`w*i … w*i+w-1`.  A value is its bit pattern; `int`/`long` patterns are two's complement.  Reading a byte
that was never written is undefined behaviour, as is any access outside the block.
-/
namespace Verif.Agi
open Verif.Io

/-- `Info(s,b)`, agi/agiInfo.h:13 -/
def infoNew (s b : Nat) : Mem Nat := Mem.alloc (b * s)

/-- `setInt` / `setDouble` / `setLong`, agi/agiInfo.h:18-22: stores the `w` bytes of the value -/
def infoSet (little : Bool) (w : Nat) (d : Mem Nat) (i x : Nat) : Outcome (Mem Nat) :=
  (memBytes little w x).zipIdx.foldlM (fun (d : Mem Nat) (bk : Nat × Nat) => d.store (w * i + bk.2) bk.1) d

/-- `getInt` / `getDouble` / `getLong`, agi/agiInfo.h:17-21 -/
def infoGet (little : Bool) (w : Nat) (d : Mem Nat) (i : Nat) : Outcome Nat := do
  let bs ← (List.range w).mapM (fun k => d.load (w * i + k))
  return ofMem little bs

/-- the size of a new tag, agi/agiTag.cpp:9-14: `none` is `VTX_TYPE`.  `num_local_edges[t]` is 0 for a type
that does not exist, and `t` beyond the array is undefined behaviour. -/
def Graph.tagSize (g : Graph) (t : Option Nat) : Outcome Nat :=
  match t with
  | none => .ok g.numLocal
  | some t =>
    match g.types[t]? with
    | none => .ub
    | some none => .ok 0
    | some (some e) => .ok e.numEdges

/-- `createIntTag`, `createDoubleTag`, `createLongTag`, agi/agiTag.cpp:7-36 -/
def Graph.createTag (g : Graph) (w : Nat) (t : Option Nat) : Outcome (Mem Nat) := do
  let size ← g.tagSize t
  return infoNew size w

/-- `getXTag(tag, GraphVertex*)`, agi/agiTag.cpp:40-45, 51-56, 62-67.  A NULL vertex gives a huge index. -/
def Graph.getTagV (g : Graph) (little : Bool) (w : Nat) (d : Mem Nat) (v : Handle) : Outcome Nat := do
  let l ← vidx v
  infoGet little w d (if g.numLocal ≤ l then l - g.numLocal else l)

/-- `getXTag(tag, GraphEdge*)`, agi/agiTag.cpp:46-50, 57-61, 68-72 -/
def Graph.getTagE (g : Graph) (little : Bool) (w : Nat) (d : Mem Nat) (e : Handle) : Outcome Nat := do
  let (_, l) ← g.decodeEdge e
  infoGet little w d l

/-- `setXTag(tag, GraphVertex*, val)`, agi/agiTag.cpp:73-76, 82-85, 91-94 -/
def Graph.setTagV (_g : Graph) (little : Bool) (w : Nat) (d : Mem Nat) (v : Handle) (x : Nat) :
    Outcome (Mem Nat) := do
  let l ← vidx v
  infoSet little w d l x

/-- `setXTag(tag, GraphEdge*, val)`, agi/agiTag.cpp:77-81, 86-90, 95-99 -/
def Graph.setTagE (g : Graph) (little : Bool) (w : Nat) (d : Mem Nat) (e : Handle) (x : Nat) :
    Outcome (Mem Nat) := do
  let (_, l) ← g.decodeEdge e
  infoSet little w d l x

end Verif.Agi
