/-
Model of EnGPar's log: `support/engpar_log.cpp`, and the calls of it made by every public
operation that reports itself to the log.

What the operations do to graphs is modelled elsewhere; here a graph is reduced to the two things
the logging code depends on, the number of edge types and whether the array of original owners is
allocated.
-/
import Verif.Base

namespace Verif.Log
open Verif

/-- What the logging code can see of a graph: `num_types` and `original_owners != NULL`
(agi/pngraph.h:61, agi/agiConstruct.cpp:15-42). -/
structure GraphSt where
  types : Nat
  orig : Bool
deriving DecidableEq, Repr

/-- A graph fresh from `createEmptyGraph` (agi/agiConstruct.cpp:10-42). -/
def freshGraph : GraphSt := ⟨0, false⟩

/-- One process: its rank and the size of its communicator, the log's file and depth
(support/engpar_log.cpp:10-11), the text written so far, one entry per `fprintf`, and the graphs,
by address. -/
structure Sys where
  rank : Nat
  peers : Nat
  file : Bool
  depth : Int
  text : List String
  graphs : Nat → GraphSt

/-- `std::string tab(depth*2,' ')` (support/engpar_log.cpp:24). -/
def tab (d : Nat) : String := String.ofList (List.replicate (d * 2) ' ')

/-- `EnGPar_Open_Log` (support/engpar_log.cpp:12-17): rank 0 opens the file and sets the depth. -/
def openLog (s : Sys) : Sys :=
  if s.rank = 0 then { s with file := true, depth := 0, text := [] } else s

/-- `EnGPar_Close_Log` (support/engpar_log.cpp:32-36). -/
def closeLog (s : Sys) : Sys := { s with file := false }

/-- `EnGPar_Log_Function` (support/engpar_log.cpp:22-27). Simplified: the depth is unbounded, and
the text is what `fprintf` is given (writing it can not fail). -/
def logFunction (msg : String) (s : Sys) : Outcome Sys :=
  if s.depth < 0 then .fail                          -- assert(depth>=0)
  else .ok { s with text := s.text ++ [tab s.depth.toNat ++ msg], depth := s.depth + 1 }

/-- `EnGPar_End_Function` (support/engpar_log.cpp:28-30). -/
def endFunction (s : Sys) : Sys := { s with depth := s.depth - 1 }

/-- The block at the top of every logged operation, for instance agi/agiConstruct.cpp:51-59:
`if (EnGPar_Is_Log_Open()) { char message[cap]; sprintf(message,..); EnGPar_Log_Function(message); }`.
The text and its terminating zero have to fit the array. Simplified: `sprintf(m,"%s..",m)` appends,
as it does in glibc; a message of ASCII characters has as many bytes as characters. -/
def logOpen (cap : Nat) (msg : String) (s : Sys) : Outcome Sys :=
  if s.file then
    if cap < msg.length + 1 then .ub else logFunction msg s
  else .ok s

/-- The block at the end of every logged operation, for instance agi/agiConstruct.cpp:66-68. -/
def logEnd (s : Sys) : Outcome Sys :=
  .ok (if s.file then endFunction s else s)

/-- Changing what is known of the graph at address `g`. -/
def setGraph (g : Nat) (x : GraphSt) (s : Sys) : Sys :=
  { s with graphs := fun h => if h = g then x else s.graphs h }

/-- `Ngraph::destroyData` (agi/agiConstruct.cpp:507-572): the original owners are freed. -/
def destroyData (g : Nat) (s : Sys) : Outcome Sys := do
  let s ← logOpen 45 "destroyData\n" s
  let s := setGraph g { s.graphs g with orig := false } s
  logEnd s

/-- The end of the messages of agi/agiConstruct.cpp:53-57, 75-79 and 110-114. -/
def kindMsg (hyper : Bool) : String :=
  if hyper then "Creating hypergraph\n" else "Creating traditional graph\n"

/-- `Ngraph::constructVerts` (agi/agiConstruct.cpp:70-104, 106-138). -/
def constructVerts (g : Nat) (hyper : Bool) (s : Sys) : Outcome Sys := do
  let s ← logOpen 45 ("constructVerts: " ++ kindMsg hyper) s
  let s ← destroyData g s
  let s := setGraph g { s.graphs g with types := 0 } s
  logEnd s

/-- `Ngraph::constructEdges` (agi/agiConstruct.cpp:140-263, 262-367), with the assertion of
`addEdgeType` (agi/ngraph.h:551); the arrays have seven entries. -/
def constructEdges (g : Nat) (s : Sys) : Outcome Sys :=
  if (s.graphs g).types = 7 then .fail
  else if 7 < (s.graphs g).types then .ub
  else do
    let t := (s.graphs g).types
    let s := setGraph g { s.graphs g with types := t + 1 } s
    let s ← logOpen 45 ("constructEdges: " ++ toString t ++ "\n") s
    logEnd s

/-- `Ngraph::constructGhosts` (agi/agiConstruct.cpp:372-422, 423-470). -/
def constructGhosts (s : Sys) : Outcome Sys := do
  let s ← logOpen 45 "constructGhosts\n" s
  logEnd s

/-- The loop over the edge types of `migrate` and `loadFromFile` (agi/agiMigrate.cpp:370-373,
agi/agiIO.cpp:246-253). -/
def edgesLoop (g : Nat) : Nat → Sys → Outcome Sys
  | 0, s => .ok s
  | n + 1, s => do
      let s ← constructEdges g s
      edgesLoop g n s

/-- `Ngraph::constructGraph` (agi/agiConstruct.cpp:44-69). -/
def constructGraph (g : Nat) (hyper : Bool) (s : Sys) : Outcome Sys := do
  let s ← logOpen 45 ("constructGraph: " ++ kindMsg hyper) s
  let s ← constructVerts g hyper s
  let s ← constructEdges g s
  let s ← constructGhosts s
  logEnd s

/-- `Ngraph::loadFromFile` (agi/agiIO.cpp:225-266) of a file with `nt` edge types. -/
def loadFromFile (g : Nat) (hyper : Bool) (nt : Nat) (s : Sys) : Outcome Sys := do
  let s ← constructVerts g hyper s
  let s ← edgesLoop g nt s
  constructGhosts s

/-- `Ngraph::removeEdges` (agi/agiConstruct.cpp:478-505): there is no block at the end. The arrays
have seven entries. -/
def removeEdges (g t : Nat) (s : Sys) : Outcome Sys :=
  if 7 ≤ t then .ub
  else do
    let s ← logOpen 45 ("destroyEdges " ++ toString t ++ "\n") s
    let x := s.graphs g
    .ok (setGraph g (if t + 1 = x.types then { x with types := x.types - 1 } else x) s)

/-- `destroyGraph` (agi/agiConstruct.cpp:574-586), with `~Ngraph` (473-475). -/
def destroyGraph (g : Nat) (s : Sys) : Outcome Sys := do
  let s ← logOpen 25 "destroyGraph\n" s
  let s ← destroyData g s
  logEnd s

/-- `Ngraph::setOriginalOwners()` (agi/agiVertex.cpp:82-96): returns early when there are original
owners already. -/
def setOriginalOwners (g : Nat) (s : Sys) : Outcome Sys := do
  let s ← logOpen 25 "setOriginalOwners\n" s
  if (s.graphs g).orig then .ok s
  else logEnd (setGraph g { s.graphs g with orig := true } s)

/-- `Ngraph::resetOwnership` (agi/agiVertex.cpp:105-118). -/
def resetOwnership (g : Nat) (s : Sys) : Outcome Sys := do
  let s ← logOpen 25 "resetOriginalOwners\n" s
  let s := setGraph g { s.graphs g with orig := false } s
  let s ← setOriginalOwners g s
  logEnd s

/-- `Ngraph::getPartition` (agi/agiMigrate.cpp:388-413), with the assertion of `originalOwner`
(agi/agiVertex.cpp:73; simplified: the graph has a vertex on this process). -/
def getPartition (g : Nat) (s : Sys) : Outcome Sys := do
  let s ← logOpen 20 "getPartition\n" s
  if (s.graphs g).orig then logEnd s else .fail

/-- `Ngraph::migrate` (agi/agiMigrate.cpp:288-386) of a graph of `nt` edge types: the graph is
rebuilt (367-374) and `setOriginalOwners(old_owners)` (375, agi/agiVertex.cpp:98-103), which does
not log, asserts that there are no original owners and sets them. -/
def migrate (g : Nat) (hyper : Bool) (nt : Nat) (s : Sys) : Outcome Sys := do
  let s ← constructVerts g hyper s
  let s ← edgesLoop g nt s
  let s ← constructGhosts s
  if (s.graphs g).orig then .fail
  else .ok (setGraph g { s.graphs g with orig := true } s)

/-- `Ngraph::repartition` (agi/agiMigrate.cpp:415-428) and the end of `split`
(partition/Multilevel/engpar_split.cpp:59-61). -/
def repartition (g : Nat) (hyper : Bool) (nt : Nat) (s : Sys) : Outcome Sys := do
  let s ← setOriginalOwners g s
  migrate g hyper nt s

/-- A logged operation that ends its own entry at once: `createAPFGraph`
(interfaces/apfGraph.cpp:12-38), `createSerendipityGraph` (interfaces/dofGraph.cpp:11-21),
`createBinGraph` (interfaces/binGraph.cpp:17-26), the entries of `balance`
(partition/Diffusive/src/engpar_balancer.cpp:405-411) and `balanceWeights`
(partition/Diffusive/src/engpar_weightBalancer.cpp:221-227). -/
def logLine (cap : Nat) (msg : String) (s : Sys) : Outcome Sys := do
  let s ← logOpen cap msg s
  logEnd s

/-- `createAPFGraph` with one secondary dimension (interfaces/apfGraph.cpp:12-24). -/
def createAPFGraph (g : Nat) (prim sec : Nat) (s : Sys) : Outcome Sys := do
  let s ← logLine 50
    ("createAPFGraph " ++ toString prim ++ " with edge " ++ toString sec ++ "\n") s
  .ok (setGraph g ⟨1, false⟩ s)

/-- `createSerendipityGraph` (interfaces/dofGraph.cpp:11-21). -/
def createSerendipityGraph (g : Nat) (name : String) (order : Nat) (s : Sys) : Outcome Sys := do
  let s ← logLine 50
    ("createSerendipityGraph " ++ name ++ " with order " ++ toString order ++ "\n") s
  .ok (setGraph g ⟨1, false⟩ s)

/-- `createBinGraph` (interfaces/binGraph.cpp:17-26). -/
def createBinGraph (g : Nat) (file : String) (s : Sys) : Outcome Sys := do
  let s ← logLine 256 ("createBinGraph " ++ file ++ "\n") s
  .ok (setGraph g ⟨1, false⟩ s)

/-- `WeightBalancer::balance` (partition/Diffusive/src/engpar_weightBalancer.cpp:119-219): the call
of `EnGPar_Log_Function` is inside a comment (122-147), the serial case returns (149-152), and the
end calls `EnGPar_End_Function` (217-218). -/
def weightBalancer (s : Sys) : Outcome Sys :=
  if s.peers = 1 then .ok s else logEnd s

/-- `balanceWeights` (partition/Diffusive/src/engpar_weightBalancer.cpp:221-231). -/
def balanceWeights (s : Sys) : Outcome Sys := do
  let s ← logLine 25 "balanceWeights\n" s
  weightBalancer s

/-- `Balancer::partWeightBalancer` (partition/Diffusive/src/engpar_balancer.cpp:352-404): the old
weight graph, if any, is destroyed, a new one is made at `w`, built, and its weights balanced.
Simplified: the new graph gets the address of the old one. -/
def partWeightBalancer (w : Nat) (old : Bool) (s : Sys) : Outcome Sys := do
  let s ← (if old then destroyGraph w s else .ok s)
  let s := setGraph w freshGraph s
  let s ← constructVerts w false s
  let s ← constructEdges w s
  let s ← constructGhosts s
  weightBalancer s

/-- The migrations of the steps of one criterion (partition/Diffusive/src/engpar_balancer.cpp:168-169,
called from 285-286). -/
def migrations (g : Nat) (hyper : Bool) (nt : Nat) : Nat → Sys → Outcome Sys
  | 0, s => .ok s
  | n + 1, s => do
      let s ← migrate g hyper nt s
      migrations g hyper nt n s

/-- The loop over the criteria (partition/Diffusive/src/engpar_balancer.cpp:241-323); `ms` gives,
for each criterion reached, the number of its steps that migrate, `old` says whether there is a
weight graph. -/
def criteria (g : Nat) (hyper : Bool) (nt w : Nat) (pw : Bool) :
    Bool → List Nat → Sys → Outcome Sys
  | _, [], s => .ok s
  | old, m :: ms, s => do
      let s ← (if pw then partWeightBalancer w old s else .ok s)
      let s ← migrations g hyper nt m s
      criteria g hyper nt w pw (old || pw) ms s

/-- What a call of `balance` is given and does: the graph, its kind and number of edge types, the
address of the weight graph, whether the part weight balancer runs, the text of the input's
parameters (partition/Diffusive/src/engpar_balancer.cpp:199-219), and the number of migrating steps
of the criteria reached, of which there is at least one (the loop is `do … while`). -/
structure Balance where
  g : Nat
  hyper : Bool
  nt : Nat
  w : Nat
  pw : Bool
  params : String
  first : Nat
  rest : List Nat
deriving DecidableEq, Repr

/-- `Balancer::balance` (partition/Diffusive/src/engpar_balancer.cpp:195-350). -/
def balancerRun (b : Balance) (s : Sys) : Outcome Sys := do
  let s ← logOpen 1000 ("balance() : \n" ++ b.params) s
  if s.peers = 1 then .ok s                           -- 222-225
  else do
    let s ← setOriginalOwners b.g s                   -- 234
    let s ← criteria b.g b.hyper b.nt b.w b.pw false (b.first :: b.rest) s
    logEnd s                                          -- 348-349

/-- `balance` (partition/Diffusive/src/engpar_balancer.cpp:405-415), with `~Balancer` (76-81),
which destroys the weight graph. -/
def balance (b : Balance) (s : Sys) : Outcome Sys := do
  let s ← logLine 25 "makeBalancer\n" s
  let s ← balancerRun b s
  if b.pw ∧ s.peers ≠ 1 then destroyGraph b.w s else .ok s

/-- The operations of the interface that report to the log. -/
inductive Op where
  | constructGraph (g : Nat) (hyper : Bool)
  | constructVerts (g : Nat) (hyper : Bool)
  | constructEdges (g : Nat)
  | constructGhosts
  | loadFromFile (g : Nat) (hyper : Bool) (nt : Nat)
  | removeEdges (g t : Nat)
  | destroyGraph (g : Nat)
  | setOriginalOwners (g : Nat)
  | resetOwnership (g : Nat)
  | getPartition (g : Nat)
  | migrate (g : Nat) (hyper : Bool) (nt : Nat)
  | repartition (g : Nat) (hyper : Bool) (nt : Nat)
  | createAPFGraph (g prim sec : Nat)
  | createSerendipityGraph (g : Nat) (name : String) (order : Nat)
  | createBinGraph (g : Nat) (file : String)
  | balance (b : Balance)
  | balanceWeights
deriving DecidableEq, Repr

/-- Running one operation. -/
def Op.run : Op → Sys → Outcome Sys
  | .constructGraph g hyper => Log.constructGraph g hyper
  | .constructVerts g hyper => Log.constructVerts g hyper
  | .constructEdges g => Log.constructEdges g
  | .constructGhosts => Log.constructGhosts
  | .loadFromFile g hyper nt => Log.loadFromFile g hyper nt
  | .removeEdges g t => Log.removeEdges g t
  | .destroyGraph g => Log.destroyGraph g
  | .setOriginalOwners g => Log.setOriginalOwners g
  | .resetOwnership g => Log.resetOwnership g
  | .getPartition g => Log.getPartition g
  | .migrate g hyper nt => Log.migrate g hyper nt
  | .repartition g hyper nt => Log.repartition g hyper nt
  | .createAPFGraph g prim sec => Log.createAPFGraph g prim sec
  | .createSerendipityGraph g name order => Log.createSerendipityGraph g name order
  | .createBinGraph g file => Log.createBinGraph g file
  | .balance b => Log.balance b
  | .balanceWeights => Log.balanceWeights

/-- Running operations one after the other. -/
def runAll : List Op → Sys → Outcome Sys
  | [], s => .ok s
  | op :: ops, s => do
      let s ← op.run s
      runAll ops s

end Verif.Log
