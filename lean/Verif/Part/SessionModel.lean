import Verif.Part.DiffusePlan
import Verif.Part.PwModel
import Verif.Part.SplitModel
import Verif.Agi.MigSpec
import Verif.Agi.PartitionModel
import Verif.Io.FileModel
/-!
# Sessions: what a program does with a distributed graph

A program calls, on all parts together and in any order, the functions that change a graph: `migrate`, `balance` (with and without
`runPartWeightBalancer`), `split`, `resetOwnership`, and `saveToFile` followed by `loadFromFile`.  Every call comes with what its
result depends on besides the graphs: the plans, the parameters, the answers of ParMETIS, and the orders in which messages arrive
and hash tables are read.
-/
namespace Verif.Part
open Verif.Agi

/-- a call made on all parts -/
inductive Call
  /-- `Ngraph::migrate`, agi/agiMigrate.cpp:289-429 -/
  | migrate (r : Round)
  /-- `Balancer::balance` of `makeDiffusiveBalancer`, partition/Diffusive/src/engpar_balancer.cpp:195-350 -/
  | balance (par : PlanPar) (env : Nat → StepEnv) (I : DiffIn)
  /-- the same with `runPartWeightBalancer`, partition/Diffusive/src/engpar_balancer.cpp:195-404 -/
  | balanceParts (par : PlanPar) (env : PwEnv) (I : DiffIn)
  /-- `engpar::split` onto `n` ranks, partition/Multilevel/engpar_split.cpp:22-63 -/
  | split (n : Nat) (ranks : List Nat) (meth : SplitMethod) (s : SplitInput) (pm : Partitioner)
  /-- `Ngraph::resetOwnership`, agi/agiVertex.cpp:105-117 -/
  | reset
  /-- `saveToFile` on all parts, `loadFromFile` into new graphs, and `setOriginalOwners` on these,
  agi/agiIO.cpp:141-263 -/
  | reload (c : Io.Codec) (ord : List (Gid × Part) → List (Gid × Part)) (writer reader : Bool) (o1 o2 : Nat → List Nat)

/-- what a call does to the graphs of all parts -/
def Call.run (gs : List Graph) : Call → Outcome (List Graph)
  | .migrate r => migrateRound gs r
  | .balance par env I => do
    let r ← Part.balance (diffMoves par env) I gs
    return r.1.gs
  | .balanceParts par env I => do
    let r ← pwBalance par env I gs
    return r.1.gs
  | .split n ranks meth s pm => Part.split n ranks gs meth s pm
  | .reset => .ok (gs.map Graph.resetOwnership)
  | .reload c ord writer reader o1 o2 => do
    let files ← Io.saveFiles c writer ord gs
    let gs' ← Io.loadFiles c reader files o1 o2
    return gs'.map Graph.setOriginalOwners

/-- the calls one after the other -/
def runCalls (gs : List Graph) (cs : List Call) : Outcome (List Graph) := cs.foldlM Call.run gs

end Verif.Part
