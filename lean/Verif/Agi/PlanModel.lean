import Verif.Agi.IterModel
/-!
# Model of the migration plan, `agi/agiMigration.h`, `agi/agiMigration.cpp`
-/
namespace Verif.Agi

/-- `class Migration`, agi/agiMigration.h:11-33: `dest` is a long tag on the local vertices, NULL when the
part has none; `sending` is the vector of planned vertices -/
structure Plan where
  dest : Option (Mem Int)
  sending : List Handle

/-- the constructor, agi/agiMigration.cpp:5-16: every vertex gets -1 -/
def Graph.newPlan (g : Graph) : Outcome Plan :=
  if g.numLocal ≠ 0 then do
    let tag ← iterLoop g.iterVertex (fun tag v => do
      let tag ← Graph.setVtxTag tag v (-1)
      return (tag, false)) g.bound vertexBegin (Mem.alloc g.numLocal)
    return ⟨some tag, []⟩
  else .ok ⟨none, []⟩

/-- `has(v)`, agi/agiMigration.cpp:25-27 (a NULL handle would index the tag with -1) -/
def Graph.planHas (g : Graph) (p : Plan) (v : Handle) : Outcome Bool := do
  let l ← vidx v
  if l < g.numLocal then do
    let tag ← deref p.dest
    let d ← g.getVtxTag tag v
    return decide (d ≠ -1)
  else return false

/-- `get(v)`, agi/agiMigration.cpp:28-30 -/
def Graph.planGet (g : Graph) (p : Plan) (v : Handle) : Outcome Int := do
  let tag ← deref p.dest
  g.getVtxTag tag v

/-- setting the destination -/
def Plan.setDest (p : Plan) (v : Handle) (d : Int) : Outcome Plan := do
  let tag ← deref p.dest
  let tag ← Graph.setVtxTag tag v d
  return { p with dest := some tag }

/-- `insert({v,d})`, agi/agiMigration.cpp:32-40; also tells whether the vertex was new -/
def Graph.planInsert (g : Graph) (p : Plan) (v : Handle) (d : Int) : Outcome (Plan × Bool) := do
  let h ← g.planHas p v
  if h then do
    let p ← p.setDest v d
    return (p, false)
  else do
    let p ← Plan.setDest { p with sending := p.sending ++ [v] } v d
    return (p, true)

/-- `clear()`, agi/agiMigration.cpp:42-47 -/
def Graph.planClear (p : Plan) : Outcome Plan := do
  let p ← p.sending.foldlM (fun p v => p.setDest v (-1)) p
  return { p with sending := [] }

end Verif.Agi
