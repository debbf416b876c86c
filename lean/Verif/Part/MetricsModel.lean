import Verif.Agi.IterModel
/-!
# Model of the partition metrics: `partition/Metrics/engpar_metrics.cpp`

Weights are exact (`Rat`).  A collective (`MPI_Allreduce`, `PCU_Max_Double`, `PCU_Add_Double`) is the function
it computes of the list of the values of all ranks (property C30 for the PCU ones).
-/
namespace Verif.Part
open Verif.Agi

/-- `w += g->weight(vtx)`, lines 12-13, 18-19 -/
def addVtxWeight (g : Graph) (w : Rat) (h : Handle) : Outcome (Rat × Bool) := do
  let x ← g.weight h
  return (w + x, false)

/-- `w += g->weight(edge)`, lines 26-27 -/
def addEdgeWeight (g : Graph) (w : Rat) (h : Handle) : Outcome (Rat × Bool) := do
  let x ← g.weightE h
  return (w + x, false)

/-- the vertex part of `getWeight`, lines 9-20 -/
def vtxWeight (g : Graph) (countGhosts : Bool) : Outcome Rat := do
  let w ← iterLoop g.iterVertex (addVtxWeight g) g.bound vertexBegin 0
  if countGhosts then iterLoop g.iterGhost (addVtxWeight g) g.bound g.ghostBegin w
  else return w

/-- the edge part of `getWeight`, lines 23-29 -/
def edgeWeight (g : Graph) (t : Nat) : Outcome Rat := do
  let it ← g.edgeBegin t
  iterLoop g.iterEdge (addEdgeWeight g) g.bound it 0

/-- `getWeight(g, dimension, countGhosts)`, lines 6-31: -1 stands for the vertices; any other negative
number indexes the arrays out of bounds -/
def getWeight (g : Graph) (dim : Int) (countGhosts : Bool) : Outcome Rat :=
  if dim = -1 then vtxWeight g countGhosts
  else if dim < 0 then .ub
  else edgeWeight g dim.toNat

/-- `MPI_MAX` over the ranks -/
def mpiMax : List Rat → Rat
  | [] => 0
  | a :: l => l.foldl (fun m x => if m < x then x else m) a

/-- the ratio of two doubles: `none` stands for an infinity or NaN -/
def divD (a b : Rat) : Option Rat := if b = 0 then none else some (a / b)

/-- `EnGPar_Get_Imbalance`, lines 33-41, on all ranks at once: every rank gets the same result -/
def imbalance (vals : List Rat) : Option Rat :=
  let max := mpiMax vals
  let total := vals.sum
  let avg := total / vals.length
  divD max avg

/-! ## `evaluatePartition`, partition/engpar.cpp:54-129: what rank 0 prints -/

/-- lines 100-102: `avg[i] = total[i]/PCU_Comm_Peers()`; `total` holds the `4 + 2*numEdgeTypes` reduced values -/
def avgStep (total : List Rat) (peers : Nat) (avg : Mem Rat) (i : Nat) : Outcome (Mem Rat) := do
  let x ← rd total i
  avg.store i (x / peers)

/-- lines 55-60, 99-102: the loop runs to `5 + numEdgeTypes` -/
def evalAvg (nt peers : Nat) (total : List Rat) : Outcome (Mem Rat) :=
  (List.range' 0 (5 + nt)).foldlM (avgStep total peers) (Mem.alloc (4 + nt * 2))

/-- the averages printed, lines 108-118: neighbours, local vertices, all vertices, and one per edge type -/
def evalPrinted (nt peers : Nat) (total : List Rat) : Outcome (List Rat) := do
  let avg ← evalAvg nt peers total
  ([1, 2, 3] ++ (List.range nt).map (fun i => 4 + i * 2)).mapM (fun k => avg.load k)

end Verif.Part
