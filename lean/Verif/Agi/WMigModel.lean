import Verif.Agi.DistModel
/-!
# Model of weight migration: `agi/agiWeightMigration.cpp`, `agi/agiMigration.h:40-105`,
`agi/agiWeightMigrate.cpp`
-/
namespace Verif.Agi

/-- `WMPlan`, agi/agiMigration.h:40-41: an `unordered_map` from vertex to an `unordered_map` from vertex to
weight, listed in iteration order -/
abbrev WPlan := List (Handle × List (Handle × Wgt))

/-- `sending[v][u]` of the inner map: `inner[u] += w` (a new entry starts at 0) -/
def innerAdd (u : Handle) (w : Wgt) : List (Handle × Wgt) → List (Handle × Wgt)
  | [] => [(u, 0 + w)]
  | (u', x) :: r => if u' = u then (u', x + w) :: r else (u', x) :: innerAdd u w r

/-- `WeightMigration::insert`, agi/agiWeightMigration.cpp:27-30 (the counter `s` is left out); a new key goes
last here, any other position is a rearrangement -/
def WPlan.insert (v u : Handle) (w : Wgt) : WPlan → WPlan
  | [] => [(v, innerAdd u w [])]
  | (v', inner) :: r => if v' = v then (v', innerAdd u w inner) :: r else (v', inner) :: WPlan.insert v u w r

/-- `WeightMigration::has(v)`, agi/agiWeightMigration.cpp:15-17 -/
def WPlan.hasV (p : WPlan) (v : Handle) : Bool := (p.lookup v).isSome

/-- `WeightMigration::has(v,u)`, agi/agiWeightMigration.cpp:18-21 -/
def WPlan.has (p : WPlan) (v u : Handle) : Bool :=
  match p.lookup v with
  | none => false
  | some inner => (inner.lookup u).isSome

/-- `WeightMigration::get(v,u)`, agi/agiWeightMigration.cpp:22-24: an absent key dereferences `end()` -/
def WPlan.get (p : WPlan) (v u : Handle) : Outcome Wgt := do
  let inner ← Outcome.ofOption (p.lookup v)
  Outcome.ofOption (inner.lookup u)

/-- the loop `for (itr = plan->begin(); itr != plan->end(); itr++)` of `WMIterator`,
agi/agiMigration.h:44-89: the inner iterator starts at the beginning of each inner map and is read before
it is compared, so an empty inner map is undefined behaviour -/
def wmLoop {β : Type} (body : β → Handle → Handle → Wgt → Outcome β) : WPlan → β → Outcome β
  | [], b => .ok b
  | (v, inner) :: rest, b =>
    if inner = [] then .ub
    else do
      let b ← inner.foldlM (fun (b : β) (x : Handle × Wgt) => body b v x.1 x.2) b
      wmLoop body rest b

/-- `wp_map`, agi/ngraph.h: absent entries read as 0 (`operator[]`) -/
abbrev WpMap := Gid → Gid → Wgt

/-- `wp_map[a][b] += w` -/
def WpMap.add (m : WpMap) (a b : Gid) (w : Wgt) : WpMap := fun x y => if x = a ∧ y = b then m x y + w else m x y

/-- a message: gid of the sending vertex, gid of the receiving vertex, weight -/
abbrev WMsg := Gid × Gid × Wgt

/-- state of the sending loop -/
structure WSend where
  vw : Mem Wgt
  out : List (Part × WMsg)
  wp : WpMap

/-- copying the weights, agi/agiWeightMigrate.cpp:13-19 -/
def Graph.copyWeights (g : Graph) : Outcome (Mem Wgt) := do
  let (m, _) ← iterLoop g.iterVertex (fun (s : Mem Wgt × Nat) v => do
    let x ← g.weight v
    let m ← s.1.store s.2 x
    return ((m, s.2 + 1), false)) g.bound vertexBegin (Mem.alloc g.numLocal, 0)
  return m

/-- one entry of the plan, agi/agiWeightMigrate.cpp:25-37 -/
def Graph.wSendOne (g : Graph) (s : WSend) (mine peer : Handle) (w : Wgt) : Outcome WSend := do
  let mg ← g.globalID mine
  let gid ← g.globalID peer
  let l ← vidx mine
  let x ← s.vw.load l
  let vw ← s.vw.store l (x - w)
  let o ← g.owner peer
  return { vw := vw, out := s.out ++ [(o, (mg, gid, w))], wp := s.wp.add mg gid w }

/-- one received message, agi/agiWeightMigrate.cpp:41-49: the weight is added to the last local vertex
(`mine` is computed and not used; an unknown gid dereferences `end()`) -/
def Graph.wRecvOne (g : Graph) (s : Mem Wgt × WpMap) (m : Nat × WMsg) : Outcome (Mem Wgt × WpMap) := do
  let (other, gid, w) := m.2
  let _mine ← g.findGID gid
  if g.numLocal = 0 then .ub
  else do
    let x ← s.1.load (g.numLocal - 1)
    let vw ← s.1.store (g.numLocal - 1) (x + w)
    return (vw, s.2.add gid other (-w))

/-- a part before the weight migration -/
structure WPart where
  g : Graph
  plan : WPlan
  wp : WpMap

/-- lines 11-38 on one part -/
def WPart.send (p : WPart) : Outcome WSend := do
  let vw ← p.g.copyWeights
  wmLoop p.g.wSendOne p.plan ⟨vw, [], p.wp⟩

/-- lines 39-53 on one part: receive, then `setWeights` (agi/agiVertex.cpp:29-34: `memcpy` of the block) -/
def Graph.wFinish (g : Graph) (s : WSend) (msgs : List (Nat × WMsg)) : Outcome (Graph × WpMap) := do
  let (vw, wp) ← msgs.foldlM g.wRecvOne (s.vw, s.wp)
  return ({ g with weights := vw }, wp)

/-- `migrate(WeightMigration*)`, agi/agiWeightMigrate.cpp:11-54, on all parts -/
def migrateW (ps : List WPart) (ord : Nat → List Nat) : Outcome (List (Graph × WpMap)) := do
  let ss ← ps.mapM WPart.send
  let ins ← exchange (ss.map WSend.out) ord
  ((ps.zip ss).zip ins).mapM (fun x => x.1.1.g.wFinish x.1.2 x.2)

end Verif.Agi
