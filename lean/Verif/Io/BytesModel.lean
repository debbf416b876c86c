import Verif.Base
/-!
# Model of number arrays in files: `pcu/pcu_io.c:225-319`

A byte is a number (below 256 in every block made here).  `little` says whether the machine stores the
least significant byte first.  An `unsigned` is its value, a `double` is its 64-bit pattern.
-/
namespace Verif.Io

/-- little-endian digits: `w` bytes of `x` -/
def leBytes : Nat → Nat → List Nat
  | 0, _ => []
  | w + 1, x => x % 256 :: leBytes w (x / 256)

/-- the value of little-endian digits -/
def ofLe : List Nat → Nat
  | [] => 0
  | b :: l => b + 256 * ofLe l

/-- the bytes of a `w`-byte number in memory -/
def memBytes (little : Bool) (w x : Nat) : List Nat := if little then leBytes w x else (leBytes w x).reverse

/-- the number stored in bytes of memory -/
def ofMem (little : Bool) (l : List Nat) : Nat := if little then ofLe l else ofLe l.reverse

/-- `PCU_ENDIANNESS`, pcu/pcu_io.c:238-239: the first byte in memory of the 16-bit value 1 is 1 -/
def endianness (little : Bool) : Bool := (memBytes little 2 1).head? == some 1

/-- `PCU_ENCODED_ENDIAN` = `PCU_BIG_ENDIAN` = 0, pcu/pcu_io.c:240-241 -/
def encodedEndian : Bool := false

/-! Swapping works in place on bytes `p[i] … `; a 16-bit (32-bit) exchange of a pair is an exchange of two
2-byte (4-byte) groups. -/

/-- exchange the `w` bytes at `i` with the `w` bytes at `i + w` -/
def swapGroups (p : List Nat) (i w : Nat) : List Nat :=
  p.take i ++ ((p.drop (i + w)).take w ++ ((p.drop i).take w ++ p.drop (i + 2 * w)))

/-- `pcu_swap_16`, pcu/pcu_io.c:243-249 -/
def swap16 (p : List Nat) (i : Nat) : List Nat := swapGroups p i 1

/-- `pcu_swap_32`, pcu/pcu_io.c:251-259 -/
def swap32 (p : List Nat) (i : Nat) : List Nat :=
  let p := swapGroups p i 2
  let p := swap16 p i
  swap16 p (i + 2)

/-- `pcu_swap_64`, pcu/pcu_io.c:261-268 -/
def swap64 (p : List Nat) (i : Nat) : List Nat :=
  let p := swapGroups p i 4
  let p := swap32 p i
  swap32 p (i + 4)

/-- `pcu_swap_unsigneds`, pcu/pcu_io.c:270-275 -/
def swapUnsigneds (p : List Nat) (n : Nat) : List Nat := (List.range n).foldl (fun p i => swap32 p (4 * i)) p

/-- `pcu_swap_doubles`, pcu/pcu_io.c:277-282 -/
def swapDoubles (p : List Nat) (n : Nat) : List Nat := (List.range n).foldl (fun p i => swap64 p (8 * i)) p

/-- an array of `w`-byte numbers in memory -/
def arrayBytes (little : Bool) (w : Nat) (xs : List Nat) : List Nat := xs.flatMap (memBytes little w)

/-- reading an array of `n` `w`-byte numbers out of memory -/
def ofArray (little : Bool) (w : Nat) : Nat → List Nat → List Nat
  | 0, _ => []
  | n + 1, p => ofMem little (p.take w) :: ofArray little w n (p.drop w)

/-- `pcu_write_unsigneds`, pcu/pcu_io.c:284-298: the bytes appended to the file -/
def writeUnsigneds (little : Bool) (xs : List Nat) : List Nat :=
  if endianness little ≠ encodedEndian then swapUnsigneds (arrayBytes little 4 xs) xs.length
  else arrayBytes little 4 xs

/-- `pcu_write_doubles`, pcu/pcu_io.c:300-314 -/
def writeDoubles (little : Bool) (xs : List Nat) : List Nat :=
  if endianness little ≠ encodedEndian then swapDoubles (arrayBytes little 8 xs) xs.length
  else arrayBytes little 8 xs

/-- `pcu_fread`, pcu/pcu_io.c:215-225: the next `k` bytes, failure when there are fewer -/
def readBytes (k : Nat) (file : List Nat) : Outcome (List Nat × List Nat) :=
  if file.length < k then .fail else .ok (file.take k, file.drop k)

/-- `pcu_read_unsigneds`, pcu/pcu_io.c:316-321 -/
def readUnsigneds (little : Bool) (n : Nat) (file : List Nat) : Outcome (List Nat × List Nat) := do
  let (p, rest) ← readBytes (4 * n) file
  let p := if endianness little ≠ encodedEndian then swapUnsigneds p n else p
  return (ofArray little 4 n p, rest)

/-- `pcu_read_doubles`, pcu/pcu_io.c:323-328 -/
def readDoubles (little : Bool) (n : Nat) (file : List Nat) : Outcome (List Nat × List Nat) := do
  let (p, rest) ← readBytes (8 * n) file
  let p := if endianness little ≠ encodedEndian then swapDoubles p n else p
  return (ofArray little 8 n p, rest)

end Verif.Io
