import Verif.Agi.HeapModel
/-! # C82: what the history says about memory, without looking at the heap -/
namespace Verif.Agi.Heap

/-- what a user can know from his calls: are there coordinates, ghosts, owners of ghosts, weights of ghosts; how many edge types; which of
his tags and plans he still has (for a plan: with vertices or not) -/
structure Known where
  coords : Bool
  ghosts : Bool
  owners : Bool
  gweights : Bool
  types : Nat
  tags : List Bool
  plans : List (Option Bool)
deriving DecidableEq, Repr

/-- after the vertices, edges (`fresh`: which calls brought new ghosts) and ghosts have been constructed -/
def Known.rebuilt (k : Known) (coords : Bool) (fresh : List Bool) (many : Bool) : Known :=
  { k with coords, ghosts := fresh.any id, owners := fresh.any id, gweights := many, types := fresh.length }

def Known.after (k : Known) : Op → Known
  | .verts => { k with coords := false, ghosts := false, owners := false, gweights := false, types := 0 }
  | .edges b => { k with ghosts := k.ghosts || b, types := k.types + 1 }
  | .ghosts m n => { k with owners := k.ghosts, gweights := k.gweights || (m && n) }
  | .removeEdges t => { k with types := if t + 1 = k.types then k.types - 1 else k.types }
  | .setCoords => { k with coords := true }
  | .newTag => { k with tags := k.tags ++ [true] }
  | .freeTag i => { k with tags := k.tags.set i false }
  | .newPlan v => { k with plans := k.plans ++ [some v] }
  | .freePlan i => { k with plans := k.plans.set i none }
  | .migrate i _ c f n => { k.rebuilt c f n with plans := k.plans.set i none }
  | .migrateWeights i => { k with plans := k.plans.set i none }
  | .repartition _ c f n => k.rebuilt c f n
  | .load c f n => k.rebuilt c f n
  | _ => k

/-- the arguments make sense: edge types exist in the arrays, tags and plans are given back or used once -/
def Known.proper (k : Known) : Op → Prop
  | .removeEdges t => t < maxTypes
  | .vev t => t < maxTypes
  | .eve t => t < maxTypes
  | .freeTag i => k.tags[i]? = some true
  | .freePlan i => ∃ v, k.plans[i]? = some (some v)
  | .migrate i _ _ _ _ => ∃ v, k.plans[i]? = some (some v)
  | .migrateWeights i => ∃ v, k.plans[i]? = some (some v)
  | _ => True

/-- blocks the call loses: the coordinates when they are set again, the owners and weights of ghosts when ghosts are constructed again -/
def Known.loses (k : Known) : Op → Nat
  | .setCoords => if k.coords then 1 else 0
  | .ghosts m n => (if k.owners then 1 else 0) + (if k.gweights && (m && n) then 2 else 0)
  | _ => 0

def Known.begin : Maker → Known
  | .empty => ⟨false, false, false, false, 0, [], []⟩
  | .mesh n gh many => ⟨true, gh, gh, many, n, [], []⟩
  | .binary gh many => ⟨false, gh, gh, many, 1, [], []⟩

def Proper : Known → List Op → Prop
  | _, [] => True
  | k, o :: os => k.proper o ∧ Proper (k.after o) os

def lost : Known → List Op → Nat
  | _, [] => 0
  | k, o :: os => k.loses o + lost (k.after o) os

def known : Known → List Op → Known
  | k, [] => k
  | k, o :: os => known (k.after o) os

/-- a tag is an object and an array -/
def tagCost (b : Bool) : Nat := if b then 2 else 0

/-- a plan is an object, and a tag if the graph had vertices -/
def planCost : Option Bool → Nat
  | none => 0
  | some v => if v then 3 else 1

/-- blocks of the tags and plans the user still has -/
def Known.kept (k : Known) : Nat := (k.tags.map tagCost).sum + (k.plans.map planCost).sum

end Verif.Agi.Heap
