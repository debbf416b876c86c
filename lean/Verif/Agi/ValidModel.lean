import Verif.Agi.IterModel
/-!
# Model of `checkValidity`, agi/agiValid.cpp

`PCU_Add_Long` results are parameters: `sumV` for the vertex count (line 18), `sumE t`, `sumP t` for the
edge and pin counts of type `t` (lines 92, 103).  What a part contributes to them is
`Graph.validCounts`.  A part that returns early skips the later collective calls; this only matters when
some part finds an error.  The counters are unbounded here (`lid_t` in the code).
-/
namespace Verif.Agi

/-- `while ((x = g->iterate(itr))) if (!check(x)) return false;` -/
def iterAll {σ : Type} (step : σ → Outcome (Handle × σ)) (check : Handle → Outcome Bool) (fuel : Nat) (s : σ) :
    Outcome Bool :=
  iterLoop step (fun (_ : Bool) h => do
    let b ← check h
    return (b, !b)) fuel s true

/-- `while ((x = g->iterate(itr))) n++;` -/
def iterCount {σ : Type} (step : σ → Outcome (Handle × σ)) (fuel : Nat) (s : σ) : Outcome Nat :=
  iterLoop step (fun n _ => .ok (n + 1, false)) fuel s 0

/-- `for (t=0;t<n;t++) if (!check(t)) return false;` -/
def forTypes (check : Nat → Outcome Bool) : List Nat → Outcome Bool
  | [] => .ok true
  | t :: ts => do
    let b ← check t
    if b then forTypes check ts else return false

/-- lines 28-39: the degree of a vertex is the number of edges iterated -/
def Graph.checkDegree (g : Graph) (v : Handle) (t : Nat) : Outcome Bool := do
  let it ← g.edges v t
  let j ← iterCount g.iterEdge g.bound it
  let d ← g.degreeV v t
  return decide (d = (j : Int))

/-- lines 47-59: the vertex is one of the pins of the edge (`isEqual` compares the handles) -/
def Graph.checkPin (g : Graph) (v edge : Handle) : Outcome Bool := do
  let it ← g.pins edge
  iterLoop g.iterPin (fun (_ : Bool) other => .ok (decide (other = v), decide (other = v))) g.bound it false

/-- lines 44-61 -/
def Graph.checkAdjacent (g : Graph) (v : Handle) (t : Nat) : Outcome Bool := do
  let it ← g.edges v t
  iterAll g.iterEdge (g.checkPin v) g.bound it

/-- one edge of the counting loop, lines 71-85: `(i, j, k, l)` = edges, counted edges, their pins, pins -/
def Graph.countEdge (g : Graph) (s : Int × Int × Int × Int) (edge : Handle) :
    Outcome ((Int × Int × Int × Int) × Bool) := do
  let d ← g.degreeE edge
  let res ← g.getResidence edge []
  if lowerPart g.self res = false ∨ g.isHyper = false then
    return ((s.1 + 1, s.2.1 + 1, s.2.2.1 + d, s.2.2.2 + d), false)
  else return ((s.1 + 1, s.2.1, s.2.2.1, s.2.2.2 + d), false)

/-- lines 65-86 -/
def Graph.validCounts (g : Graph) (t : Nat) : Outcome (Int × Int × Int × Int) := do
  let it ← g.edgeBegin t
  iterLoop g.iterEdge g.countEdge g.bound it (0, 0, 0, 0)

/-- lines 110-121: the degree of an edge is the number of its pins -/
def Graph.checkEdgeDegree (g : Graph) (edge : Handle) : Outcome Bool := do
  let it ← g.pins edge
  let j ← iterCount g.iterPin g.bound it
  let d ← g.degreeE edge
  return decide (d = (j : Int))

/-- lines 64-123, one type -/
def Graph.checkType (g : Graph) (sumE sumP : Nat → Int) (t : Nat) : Outcome Bool := do
  let (i, _, _, l) ← g.validCounts t
  let ne ← g.numLocalEdges t
  let ge ← g.numGlobalEdges t
  let np ← g.numLocalPins t
  let gp ← g.numGlobalPins t
  if i ≠ (ne : Int) then return false
  else if sumE t ≠ ge then return false
  else if l ≠ (np : Int) then return false
  else if sumP t ≠ gp then return false
  else do
    let it ← g.edgeBegin t
    iterAll g.iterEdge g.checkEdgeDegree g.bound it

/-- lines 125-141: a ghost is owned by another, existing part -/
def Graph.checkGhost (g : Graph) (v : Handle) : Outcome Bool := do
  let o ← g.owner v
  if o = g.self then return false
  else if (g.peers : Int) ≤ o then return false
  else return true

/-- `checkValidity`, agi/agiValid.cpp:6-144 -/
def Graph.checkValidity (g : Graph) (sumV : Int) (sumE sumP : Nat → Int) : Outcome Bool := do
  let i ← iterCount g.iterVertex g.bound vertexBegin
  if (g.numLocal : Int) ≠ (i : Int) then return false
  else if g.globalVerts ≠ sumV then return false
  else do
    let a ← iterAll g.iterVertex (fun v => forTypes (g.checkDegree v) (List.range g.numTypes)) g.bound vertexBegin
    if a = false then return false
    else do
      let b ← iterAll g.iterVertex (fun v => forTypes (g.checkAdjacent v) (List.range g.numTypes)) g.bound vertexBegin
      if b = false then return false
      else do
        let c ← forTypes (g.checkType sumE sumP) (List.range g.numTypes)
        if c = false then return false
        else iterAll g.iterGhost g.checkGhost g.bound g.ghostBegin

/-- `checkValidity` on all parts (the number of types is the same on all parts): the sums are those of the
parts' contributions -/
def checkValidityAll (gs : List Graph) (T : Nat) : Outcome (List Bool) := do
  let cnt ← (List.range T).mapM (fun t => gs.mapM (fun g => g.validCounts t))
  gs.mapM (fun g => g.checkValidity ((gs.map (fun g => (g.numLocal : Int))).sum)
    (fun t => ((cnt.getD t []).map (fun c => c.2.1)).sum)
    (fun t => ((cnt.getD t []).map (fun c => c.2.2.1)).sum))

end Verif.Agi
