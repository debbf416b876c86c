import Verif.Part.ParmetisModel
import Verif.Agi.RemoveModel
import Verif.Agi.MigrateModel
/-!
# Model of `split`: partition/Multilevel/engpar_split.cpp

`m` parts on a small communicator become `n` parts on a large one.  `ranks[p]` is the rank of part `p` in the large
communicator.  The two ParMETIS methods are here; `ZOLTAN_PHG`, which differs in where the plan comes from, is in SplitZoltanModel.lean.
`Graph.self` and `Graph.peers` stand for `PCU_Comm_Self()` and `PCU_Comm_Peers()`, so switching the communicator
changes them.
-/
namespace Verif.Part
open Verif.Agi

inductive SplitMethod where
  | globalParmetis
  | localParmetis

/-- the answer of `ParMETIS_V3_PartKway` on part `p` of a communicator, from what all its parts hand over and the number
of parts wanted -/
abbrev Partitioner := List PmInput → Nat → Nat → List Int

/-- the inputs on the original parts, engpar_split_input.h: the edge type, `split_factor` (`none` for -1),
`other_ranks` (`none` for NULL), and the orders of messages and hash maps -/
structure SplitInput where
  t : Nat
  factor : Option Nat
  others : Nat → Option (List Int)
  orders : Nat → List Nat
  hash : Nat → Nat → List (Handle × Int) → List (Handle × Int)
  env : MigrateEnv

/-- `plan = EnGPar_ParMETIS(inp, inp->total_parts, false)` on the original parts, engpar_split.cpp:37-39 -/
def globalPlans (n : Nat) (gs : List Graph) (s : SplitInput) (pm : Partitioner) : Outcome (List Plan) := do
  let As ← parmetisAll gs s.t s.orders s.hash
  gs.zipIdx.mapM (fun x => parmetisPlan x.1 (pm As n x.2))

/-- the local method on original part `p`, engpar_split.cpp:40-51; the order of messages to oneself is `[0]` -/
def localPlan (g : Graph) (p : Nat) (s : SplitInput) (pm : Partitioner) : Outcome Plan :=
  match s.factor with
  | none => .fail
  | some k =>
    match s.others p with
    | none => .fail
    | some other => do
      let A ← parmetisLocal g (p : Int) s.t (fun _ => [0]) (s.hash p)
      let plan ← parmetisPlan g (pm [A] k 0)
      localDest g other plan

/-- the plans of the original parts, engpar_split.cpp:36-51 -/
def splitPlans (n : Nat) (gs : List Graph) (m : SplitMethod) (s : SplitInput) (pm : Partitioner) : Outcome (List Plan) :=
  match m with
  | .globalParmetis => globalPlans n gs s pm
  | .localParmetis => gs.zipIdx.mapM (fun x => localPlan x.1 x.2 s pm)

/-- `PCU_Switch_Comm`: the rank and the number of ranks from now on -/
def Graph.switchComm (g : Graph) (self : Part) (peers : Nat) : Graph := { g with self := self, peers := peers }

/-- the graph rank `r` of the large communicator holds after the switch: the part it was, or the empty graph
(`agi::createEmptyGraph()`) of a rank outside the small communicator, engpar_split.cpp:52-59 -/
def onRank (n : Nat) (ranks : List Nat) (gs : List Graph) (r : Nat) : Outcome Graph :=
  if r ∈ ranks then do
    let g ← rd gs (ranks.idxOf r)
    return Graph.switchComm g (r : Int) n
  else .ok (emptyGraph (r : Int) n)

/-- the plan of rank `r`: its own, or a new one on the empty graph, engpar_split.cpp:54-58 -/
def planOnRank (n : Nat) (ranks : List Nat) (plans : List Plan) (r : Nat) : Outcome Plan :=
  if r ∈ ranks then rd plans (ranks.idxOf r)
  else (emptyGraph (r : Int) n).newPlan

/-- from the plans on: `expandParts` (lines 11-20) on the original parts, the switch to the large communicator,
`setOriginalOwners()` and `migrate(plan)`, engpar_split.cpp:52-61 -/
def splitApply (n : Nat) (ranks : List Nat) (gs : List Graph) (plans : List Plan) (env : MigrateEnv) : Outcome (List Graph) := do
  let gs ← gs.mapM (fun g => g.changeOwners (ranks.map Int.ofNat))
  let all ← (List.range n).mapM (onRank n ranks gs)
  let plans ← (List.range n).mapM (planOnRank n ranks plans)
  migrate (all.map Graph.setOriginalOwners) plans env

/-- `split(input, method)` with a ParMETIS method, engpar_split.cpp:22-63 -/
def split (n : Nat) (ranks : List Nat) (gs : List Graph) (m : SplitMethod) (s : SplitInput) (pm : Partitioner) :
    Outcome (List Graph) := do
  let plans ← splitPlans n gs m s pm
  splitApply n ranks gs plans s.env

end Verif.Part
