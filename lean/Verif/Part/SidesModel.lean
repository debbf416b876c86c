import Verif.Part.MetricsModel
import Verif.Agi.DistModel
/-!
# Model of the containers of the diffusive balancer

`partition/Diffusive/src/engpar_container.h`, `engpar_sides.h`, `engpar_weights.h`, `engpar_targets.h`.
-/
namespace Verif.Part
open Verif.Agi

/-- `Container<T>`, engpar_container.h:8-69: the entries of the `unordered_map` (in some order) and the
total.  `d[key]` of a missing key reads 0; that it also inserts the key is left out for pure reads (nothing
modelled here looks at the keys of a container after such a read). -/
structure Cont (α : Type) where
  d : List (Int × α)
  total : α

/-- constructor, line 13 -/
def Cont.new {α : Type} [Zero α] : Cont α := ⟨[], 0⟩

/-- the map lookup -/
def Cont.find {α : Type} (c : Cont α) (k : Int) : Option α := c.d.lookup k

/-- `has`, lines 51-53 -/
def Cont.has {α : Type} (c : Cont α) (k : Int) : Bool := (c.find k).isSome

/-- `get`, lines 33-35 -/
def Cont.get {α : Type} [Zero α] (c : Cont α) (k : Int) : α := (c.find k).getD 0

/-- `d[k] = v` -/
def putA {α : Type} (k : Int) (v : α) : List (Int × α) → List (Int × α)
  | [] => [(k, v)]
  | p :: l => if p.1 = k then (k, v) :: l else p :: putA k v l

/-- assignment through `operator[]`, lines 30-32: the total is not touched -/
def Cont.put {α : Type} (c : Cont α) (k : Int) (v : α) : Cont α := { c with d := putA k v c.d }

/-- `set`, lines 44-50 -/
def Cont.set {α : Type} [Zero α] [Sub α] [Add α] (c : Cont α) (k : Int) (v : α) : Cont α :=
  { d := putA k v c.d, total := c.total - c.get k + v }

/-! ## sides -/

/-- conversion of a double to `int`: truncation toward zero (the range of `int` is not modelled) -/
def truncD (x : Rat) : Int := x.num.tdiv x.den

/-- `(*this)[*itr] += g->weight(edge)`, engpar_sides.h:26: `int += double` -/
def addSide (self : Part) (w : Rat) (s : Cont Int) (p : Part) : Cont Int :=
  if p ≠ self then s.put p (truncD (s.get p + w)) else s

/-- one edge, engpar_sides.h:18-31 -/
def sideEdge (g : Graph) (s : Cont Int) (h : Handle) : Outcome (Cont Int × Bool) := do
  let res ← g.getResidence h []
  if 1 < res.length then do
    let w ← g.weightE h
    let s := res.foldl (addSide g.self w) s
    return ({ s with total := truncD (s.total + w) }, false)
  else return (s, false)

/-- `Sides(g,t)`, engpar_sides.h:13-34 -/
def sides (g : Graph) (t : Nat) : Outcome (Cont Int) := do
  let it ← g.edgeBegin t
  iterLoop g.iterEdge (sideEdge g) g.bound it Cont.new

/-! ## weights -/

/-- `Weights`, engpar_weights.h: the neighbours' weights and the part's own -/
structure Weights where
  c : Cont Rat
  mine : Rat

/-- `set(PCU_Comm_Sender(), otherWeight)`, engpar_weights.h:24-28 -/
def recvWeight (c : Cont Rat) (m : Nat × Rat) : Cont Rat := c.set (m.1 : Int) m.2

/-- `Weights(g, countGhosts, s, dimension)`, engpar_weights.h:14-29, on all parts: every part sends its
weight to the parts it has a side with -/
def makeWeights (gs : List Graph) (ss : List (Cont Int)) (dim : Int) (cg : Bool) (orders : Nat → List Nat) :
    Outcome (List Weights) := do
  let ws ← gs.mapM (fun g => getWeight g dim cg)
  let outs := (ss.zip ws).map (fun x => x.1.d.map (fun e => (e.1, x.2)))
  let inb ← exchange outs orders
  return (inb.zip ws).map (fun x => ⟨x.1.foldl recvWeight Cont.new, x.2⟩)

/-! ## targets -/

/-- `canSend`, engpar_targets.h:18-24: `done` are the completed dimensions' neighbour weights with the weights
not to be exceeded -/
def canSend (isHyper : Bool) (peers : Nat) (s : Cont Int) (sideTol : Int) (done : List (Cont Rat × Rat)) (q : Part) :
    Bool :=
  (!isHyper || decide (s.get q ≤ sideTol) || decide (peers = 2)) &&
    done.all (fun x => decide (x.1.get q < x.2))

/-- one side, engpar_targets.h:16-37; dividing by a total of 0 gives no number: undefined here -/
def targetStep (isHyper : Bool) (peers : Nat) (stepFactor : Rat) (s : Cont Int) (tw : Weights) (sideTol : Int)
    (done : List (Cont Rat × Rat)) (T : Cont Rat) (e : Int × Int) : Outcome (Cont Rat) :=
  if canSend isHyper peers s sideTol done e.1 then
    let nw := tw.c.get e.1
    if nw < tw.mine then
      if s.total = 0 then .ub
      else .ok (T.set e.1 ((tw.mine - nw) * ((e.2 : Rat) / (s.total : Rat)) * stepFactor))
    else .ok T
  else .ok T

/-- `Targets(isHyper, step_factor, s, targetW, sideTol, completedWs, completedTolerances)`,
engpar_targets.h:12-38; `order` is the order in which the `unordered_map` of the sides is iterated -/
def targets (isHyper : Bool) (peers : Nat) (stepFactor : Rat) (s : Cont Int) (tw : Weights) (sideTol : Int)
    (done : List (Cont Rat × Rat)) (order : List (Int × Int)) : Outcome (Cont Rat) :=
  order.foldlM (targetStep isHyper peers stepFactor s tw sideTol done) Cont.new

end Verif.Part
