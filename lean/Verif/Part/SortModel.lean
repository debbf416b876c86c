import Verif.Mem
/-!
# Model of `bfsSort`, partition/Diffusive/src/engpar_queue.cpp:40-65

`arr` holds edge ids, `values` the distance of each edge.  Reading outside either array, or a cell not written yet,
is undefined behaviour, as is a loop or recursion that does not end within the rounds there are positions.
-/
namespace Verif.Part

/-- `a[i]` with a signed index -/
def loadI {α : Type} (m : Mem α) (i : Int) : Outcome α := if i < 0 then .ub else m.load i.toNat

/-- `a[i] = x` with a signed index -/
def storeI {α : Type} (m : Mem α) (i : Int) (x : α) : Outcome (Mem α) :=
  if i < 0 then .ub else m.store i.toNat x

/-- `values[arr[i]]` -/
def valAt (vals : Mem Int) (arr : Mem Nat) (i : Int) : Outcome Int := do
  let e ← loadI arr i
  vals.load e

/-- `while (values[arr[i]] < pivot) i++;`, lines 48-49 -/
def scanUp (vals : Mem Int) (arr : Mem Nat) (pivot : Int) : Nat → Int → Outcome Int
  | 0, _ => .ub
  | fuel + 1, i => do
    let x ← valAt vals arr i
    if x < pivot then scanUp vals arr pivot fuel (i + 1) else return i

/-- `while (values[arr[j]] > pivot) j--;`, lines 50-51 -/
def scanDown (vals : Mem Int) (arr : Mem Nat) (pivot : Int) : Nat → Int → Outcome Int
  | 0, _ => .ub
  | fuel + 1, j => do
    let x ← valAt vals arr j
    if pivot < x then scanDown vals arr pivot fuel (j - 1) else return j

/-- the swap, lines 53-55 -/
def swapAt (arr : Mem Nat) (i j : Int) : Outcome (Mem Nat) := do
  let tmp ← loadI arr i
  let y ← loadI arr j
  let arr ← storeI arr i y
  storeI arr j tmp

/-- the `while (i <= j)` loop, lines 47-59; a scan makes at most as many steps as there are positions -/
def splitLoop (vals : Mem Int) (pivot : Int) : Nat → Mem Nat → Int → Int → Outcome (Mem Nat × Int × Int)
  | 0, _, _, _ => .ub
  | fuel + 1, arr, i, j =>
    if i ≤ j then do
      let i' ← scanUp vals arr pivot (arr.length + 1) i
      let j' ← scanDown vals arr pivot (arr.length + 1) j
      if i' ≤ j' then do
        let arr' ← swapAt arr i' j'
        splitLoop vals pivot fuel arr' (i' + 1) (j' - 1)
      else splitLoop vals pivot fuel arr i' j'
    else return (arr, i, j)

/-- `bfsSort`, lines 43-65 -/
def bfsSortF (vals : Mem Int) : Nat → Mem Nat → Int → Int → Outcome (Mem Nat)
  | 0, _, _, _ => .ub
  | fuel + 1, arr, left, right => do
    let pivot ← valAt vals arr ((left + right) / 2)
    let (arr, i, j) ← splitLoop vals pivot (arr.length + 2) arr left right
    let arr ← (if left < j then bfsSortF vals fuel arr left j else .ok arr)
    if i < right then bfsSortF vals fuel arr i right else .ok arr

/-- the call: the depth of the recursion is at most the number of positions -/
def bfsSort (arr : Mem Nat) (left right : Int) (vals : Mem Int) : Outcome (Mem Nat) :=
  bfsSortF vals (arr.length + 1) arr left right

end Verif.Part
