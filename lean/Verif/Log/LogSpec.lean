/-
What the log is for: a tree of the calls made, one line per call, indented by the number of calls
it is inside of.  Nothing here mentions the log's file or its counter.
-/
import Verif.Log.LogModel

namespace Verif.Log
open Verif

/-- A reported call with the reported calls made while it was running. -/
inductive Call where
  | mk (msg : String) (inner : List Call)

mutual
/-- The lines of a call inside `d` others: two blanks per surrounding call. -/
def Call.lines : Nat → Call → List String
  | d, .mk msg inner => (String.ofList (List.replicate (2 * d) ' ') ++ msg) :: Call.linesAll (d + 1) inner
/-- The lines of calls made one after the other. -/
def Call.linesAll : Nat → List Call → List String
  | _, [] => []
  | d, c :: cs => c.lines d ++ Call.linesAll d cs
end

/-- A call that makes no further reported call. -/
def leaf (msg : String) : Call := .mk msg []

/-- Replacing the vertices: the old data is destroyed. -/
def vertsCall (hyper : Bool) : Call :=
  .mk (if hyper then "constructVerts: Creating hypergraph\n"
       else "constructVerts: Creating traditional graph\n") [leaf "destroyData\n"]

/-- Adding the edges of type `t`. -/
def edgesCall (t : Nat) : Call := leaf ("constructEdges: " ++ toString t ++ "\n")

/-- Building a graph of `nt` edge types anew. -/
def rebuildCalls (hyper : Bool) (nt : Nat) : List Call :=
  vertsCall hyper :: (List.range nt).map edgesCall ++ [leaf "constructGhosts\n"]

/-- The calls an operation makes, given the graphs it starts from and the number of processes.
Where the program does not report the end of a call (asking for original owners when there are
some), what follows in the same operation is listed inside that call. -/
def Op.calls (peers : Nat) (gs : Nat → GraphSt) : Op → List Call
  | .constructGraph _ hyper =>
      [.mk (if hyper then "constructGraph: Creating hypergraph\n"
            else "constructGraph: Creating traditional graph\n")
        [vertsCall hyper, edgesCall 0, leaf "constructGhosts\n"]]
  | .constructVerts _ hyper => [vertsCall hyper]
  | .constructEdges g => [edgesCall (gs g).types]
  | .constructGhosts => [leaf "constructGhosts\n"]
  | .loadFromFile _ hyper nt => rebuildCalls hyper nt
  | .removeEdges _ t => [leaf ("destroyEdges " ++ toString t ++ "\n")]
  | .destroyGraph _ => [.mk "destroyGraph\n" [leaf "destroyData\n"]]
  | .setOriginalOwners _ => [leaf "setOriginalOwners\n"]
  | .resetOwnership _ => [.mk "resetOriginalOwners\n" [leaf "setOriginalOwners\n"]]
  | .getPartition _ => [leaf "getPartition\n"]
  | .migrate _ hyper nt => rebuildCalls hyper nt
  | .repartition g hyper nt =>
      if (gs g).orig then [.mk "setOriginalOwners\n" (rebuildCalls hyper nt)]
      else leaf "setOriginalOwners\n" :: rebuildCalls hyper nt
  | .createAPFGraph _ prim sec =>
      [leaf ("createAPFGraph " ++ toString prim ++ " with edge " ++ toString sec ++ "\n")]
  | .createSerendipityGraph _ name order =>
      [leaf ("createSerendipityGraph " ++ name ++ " with order " ++ toString order ++ "\n")]
  | .createBinGraph _ file => [leaf ("createBinGraph " ++ file ++ "\n")]
  | .balance b =>
      let moves := (List.replicate (b.first + b.rest.sum) (rebuildCalls b.hyper b.nt)).flatten
      [leaf "makeBalancer\n",
       .mk ("balance() : \n" ++ b.params)
        (if peers = 1 then []
         else if (gs b.g).orig then [.mk "setOriginalOwners\n" moves]
         else leaf "setOriginalOwners\n" :: moves)]
  | .balanceWeights => [leaf "balanceWeights\n"]

/-- How many of the calls an operation reports are never reported as ended. -/
def Op.unended (peers : Nat) (gs : Nat → GraphSt) : Op → Nat
  | .removeEdges _ _ => 1
  | .setOriginalOwners g => if (gs g).orig then 1 else 0
  | .repartition g _ _ => if (gs g).orig then 1 else 0
  | .balance b => if peers = 1 then 1 else if (gs b.g).orig then 1 else 0
  | _ => 0

/-- The operation does not balance weights over several processes. -/
def Op.noWeights (peers : Nat) : Op → Prop
  | .balance b => b.pw = false ∨ peers = 1
  | .balanceWeights => peers = 1
  | _ => True

/-- The texts of the operation's own making that have to fit the program's arrays. -/
def Op.short : Op → Prop
  | .createAPFGraph _ prim sec => (toString prim).length + (toString sec).length ≤ 22
  | .createSerendipityGraph _ name order => name.length + (toString order).length ≤ 13
  | .createBinGraph _ file => file.length ≤ 239
  | .balance b => b.params.length ≤ 986
  | _ => True

/-- The lines of a history that starts inside `d` calls: each operation's calls, and then the rest
of the history inside the calls it left open. The states are those of a process that keeps no
log. -/
def histLines (d : Nat) : List Op → Sys → List String
  | [], _ => []
  | op :: ops, s =>
      Call.linesAll d (op.calls s.peers s.graphs) ++
        match op.run s with
        | .ok s' => histLines (d + op.unended s.peers s.graphs) ops s'
        | _ => []

/-- The calls of a history, one operation after the other. -/
def histCalls : List Op → Sys → List Call
  | [], _ => []
  | op :: ops, s =>
      op.calls s.peers s.graphs ++
        match op.run s with
        | .ok s' => histCalls ops s'
        | _ => []

/-- How many reported calls of a history are never reported as ended. -/
def histUnended : List Op → Sys → Nat
  | [], _ => 0
  | op :: ops, s =>
      op.unended s.peers s.graphs +
        match op.run s with
        | .ok s' => histUnended ops s'
        | _ => 0

end Verif.Log
