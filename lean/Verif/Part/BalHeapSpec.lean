import Verif.Part.BalHeapModel
import Verif.Agi.HeapSpec
/-! # C83: what the history says about memory -/
namespace Verif.Part.Heap
open Verif.Agi.Heap

/-- the graph after some migrations -/
def moved (k : Known) (ms : List Move) : Known := ms.foldl (fun k m => k.rebuilt m.coords m.fresh m.many) k

/-- the migrations of a balancing run -/
def movesOf (many : Bool) (cs : List Criterion) : List Move := if many then cs.flatMap fun c => c.steps.filterMap (·.move) else []

def knownAfter (k : Known) : Act → Known
  | .op o => k.after o
  | .balance many cs => moved k (movesOf many cs)
  | .split _ _ _ m => moved k [m]
  | _ => k

def properAct (k : Known) : Act → Prop
  | .op o => k.proper o
  | _ => True

/-- an edge whose pins do not all have the same owner -/
def Cut (owners : List Int) : Prop := ∃ a ∈ owners, ∃ b ∈ owners, a ≠ b

instance (owners : List Int) : Decidable (Cut owners) := by unfold Cut; infer_instance

/-- what an act loses: beside C82, an iterator whenever `isCut` is asked about an edge that is not cut -/
def losesAct (k : Known) : Act → Nat
  | .op o => k.loses o
  | .isCut owners => if Cut owners then 0 else 1
  | _ => 0

def ProperActs : Known → List Act → Prop
  | _, [] => True
  | k, a :: as => properAct k a ∧ ProperActs (knownAfter k a) as

def lostActs : Known → List Act → Nat
  | _, [] => 0
  | k, a :: as => losesAct k a + lostActs (knownAfter k a) as

def knownActs : Known → List Act → Known
  | k, [] => k
  | k, a :: as => knownActs (knownAfter k a) as

/-- parts are numbers from 0 -/
def PartsOk : Act → Prop
  | .isCut owners => ∀ o ∈ owners, 0 ≤ o
  | _ => True

end Verif.Part.Heap
