import Verif.Agi.IterModel
/-!
# Model of `removeEdges`, `changeOwners` and `setWeights`
-/
namespace Verif.Agi

/-- what `removeEdges` leaves in the arrays of the type, agi/agiConstruct.cpp:485-503: counts 0, arrays
NULL (an empty block: every access is undefined behaviour), the map empty.  The second adjacencies stay. -/
def EType.cleared (e : EType) : EType :=
  { e with numEdges := 0, numPins := 0, globalEdges := 0, globalPins := 0, weights := [], degreeList := [],
           edgeList := [], pinDegree := [], pinList := [], edgeMap := GMap.empty, unmap := [] }

/-- `removeEdges(t)`, agi/agiConstruct.cpp:478-506: `num_types` shrinks only when the last type is removed -/
def Graph.removeEdges (g : Graph) (t : Nat) : Outcome Graph :=
  match g.types[t]? with
  | none => .ub
  | some s => .ok { g with types := g.types.set t (s.map EType.cleared), numTypes := if t + 1 = g.numTypes then g.numTypes - 1 else g.numTypes }

/-- one round of `changeOwners`: `owners[i] = newRanks[owners[i]]` -/
def changeOwner (newRanks : List Part) (o : Mem Part) (i : Nat) : Outcome (Mem Part) := do
  let p ← o.load i
  if p < 0 then .ub
  else do
    let q ← rd newRanks p.toNat
    o.store i q

/-- `changeOwners(newRanks)`, agi/agiVertex.cpp:164-167 -/
def Graph.changeOwners (g : Graph) (newRanks : List Part) : Outcome Graph :=
  if g.numGhost = 0 then .ok g
  else do
    let o ← deref g.owners
    let o ← (List.range' 0 g.numGhost).foldlM (changeOwner newRanks) o
    return { g with owners := some o }

end Verif.Agi
