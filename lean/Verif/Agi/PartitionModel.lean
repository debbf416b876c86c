import Verif.Agi.MigrateModel
/-!
# Model of `getPartition`, `repartition` and `resetOwnership`
-/
namespace Verif.Agi

/-- what a part packs in `getPartition`, agi/agiMigrate.cpp:395-401: every local vertex to its original
owner -/
def Graph.partitionMsgs (g : Graph) : Outcome (List (Part × Gid)) :=
  iterLoop g.iterVertex (fun acc v => do
    let gid ← g.globalID v
    let o ← g.originalOwner v
    return (acc ++ [(o, gid)], false)) g.bound vertexBegin []

/-- `map->insert` of `std::unordered_map`: an existing entry is kept -/
def GMap.insertNew {α : Type} (m : GMap α) (k : Gid) (a : α) : GMap α :=
  match m k with
  | some _ => m
  | none => m.put k a

/-- `Ngraph::getPartition`, agi/agiMigrate.cpp:388-414, on all parts: the map each part gets -/
def getPartition (gs : List Graph) (order : Nat → List Nat) : Outcome (List (GMap Nat)) := do
  let out ← gs.mapM Graph.partitionMsgs
  let inb ← exchange out order
  return inb.map (fun ms => ms.foldl (fun m (x : Nat × Gid) => m.insertNew x.2 x.1) GMap.empty)

/-- filling the plan in `repartition`, agi/agiMigrate.cpp:418-425 -/
def Graph.repartPlan (g : Graph) (partition : List Part) : Outcome Plan := do
  let p ← g.newPlan
  let r ← iterLoop g.iterVertex (fun (s : Plan × Nat) v => do
    let d ← rd partition s.2
    let r ← g.planInsert s.1 v d
    return ((r.1, s.2 + 1), false)) g.bound vertexBegin (p, 0)
  return r.1

/-- `Ngraph::repartition`, agi/agiMigrate.cpp:417-428, on all parts -/
def repartition (gs : List Graph) (parts : List (List Part)) (env : MigrateEnv) : Outcome (List Graph) := do
  let plans ← (gs.zip parts).mapM (fun x => x.1.repartPlan x.2)
  migrate (gs.map Graph.setOriginalOwners) plans env

/-- `resetOwnership`, agi/agiVertex.cpp:106-118 -/
def Graph.resetOwnership (g : Graph) : Graph := Graph.setOriginalOwners { g with originalOwners := none }

end Verif.Agi
