import Verif.Mem
/-!
# Model of the stagnation detector: `partition/Diffusive/src/engpar_sd.cpp`

Doubles are exact rationals or not a number.  `unsigned int` arithmetic is arithmetic modulo 2^32.
-/
namespace Verif.Part

/-- `unsigned int` wraps modulo this -/
def uintMod : Nat := 2 ^ 32

/-- a `double`: exact, `none` = NaN (or an infinity) -/
abbrev Dbl := Option Rat

/-- `a + b` -/
def Dbl.add (a b : Dbl) : Dbl := a.bind (fun x => b.map (fun y => x + y))
/-- `a * b` -/
def Dbl.mul (a b : Dbl) : Dbl := a.bind (fun x => b.map (fun y => x * y))
/-- `a < b`: false if one is NaN -/
def Dbl.lt (a b : Dbl) : Bool :=
  match a, b with
  | some x, some y => decide (x < y)
  | _, _ => false

/-- engpar_sd.h:17-21 -/
structure SDSlope where
  maxLen : Nat
  curLen : Nat
  pos : Nat
  vals : Mem Dbl

/-- `order`, line 5 -/
def sdOrder : Nat := 2

/-- `ws[]`, line 6 -/
def sdWs : List Rat := [-3/2, 2, -1/2]

/-- constructor, lines 10-15 -/
def SDSlope.new : SDSlope := ⟨sdOrder + 1, 0, 0, Mem.alloc (sdOrder + 1)⟩

/-- `isFull`, lines 20-22 -/
def SDSlope.isFull (s : SDSlope) : Bool := s.curLen == s.maxLen

/-- `get`, lines 24-28: `pos - i` and `p + cur_len` wrap; `% 0` is undefined -/
def SDSlope.get (s : SDSlope) (i : Nat) : Outcome Dbl :=
  if s.curLen = 0 then .ub
  else s.vals.load ((((s.pos + uintMod - i) % uintMod + s.curLen) % uintMod) % s.curLen)

/-- `push`, lines 30-35: `vals[pos++] = v; pos %= max_len;` -/
def SDSlope.push (s : SDSlope) (v : Dbl) : Outcome SDSlope := do
  let c := if s.isFull then s.curLen else (s.curLen + 1) % uintMod
  let vals ← s.vals.store s.pos v
  return { s with curLen := c, vals := vals, pos := ((s.pos + 1) % uintMod) % s.maxLen }

/-- body of the loop of `slope`, line 41 -/
def SDSlope.slopeStep (s : SDSlope) (acc : Dbl) (i : Nat) : Outcome Dbl := do
  let x ← s.get i
  let w ← rd sdWs i
  return acc.add (x.mul (some w))

/-- `slope`, lines 37-43: the assertion stops the program -/
def SDSlope.slope (s : SDSlope) : Outcome Dbl :=
  if s.isFull then (List.range' 0 s.maxLen).foldlM s.slopeStep (some 0) else .fail

/-- body of the loop of `average`, line 48 -/
def SDSlope.avgStep (s : SDSlope) (acc : Dbl) (i : Nat) : Outcome Dbl := do
  let x ← s.get i
  return acc.add x

/-- `average`, lines 44-51 -/
def SDSlope.average (s : SDSlope) : Outcome Dbl :=
  if s.isFull then do
    let a ← (List.range' 0 s.maxLen).foldlM s.avgStep (some 0)
    return a.map (fun x => x / s.maxLen)
  else .fail

/-- pushing a whole history -/
def SDSlope.pushAll (s : SDSlope) (l : List Dbl) : Outcome SDSlope := l.foldlM SDSlope.push s

end Verif.Part
