import Verif.Agi.IterModel
/-!
# Model of the collective operations of the graph

A run of all parts is modelled phase by phase (`PCU_Comm_Begin … PCU_Comm_Send … PCU_Comm_Receive`):
every part packs records `(destination, record)`, and then every part receives the records sent to it,
grouped by sender, in the order they were packed, the senders in an arbitrary order.  This is what C25
(buffers), C27/C28 (phases) prove about the PCU library, and it is the only thing used of it here.
`PCU_Add_*` gives every part the sum (C30).
-/
namespace Verif.Agi

/-- the stream of records part `q` unpacks in a phase (`PCU_Comm_Receive` loop, pcu/pcu.c:578-584: keep
unpacking the current buffer, then listen for the next one); `order` is the order in which the senders'
buffers are delivered.  Each record comes with its sender (`PCU_Comm_Sender`). -/
def inbox {M : Type} (outs : List (List (Part × M))) (order : List Nat) (q : Nat) : List (Nat × M) :=
  order.flatMap (fun p => ((outs.getD p []).filter (fun m => decide (m.1 = (q : Int)))).map (fun m => (p, m.2)))

/-- a whole phase.  Packing for a rank that does not exist fails (`PCU_Comm_Pack`, pcu/pcu.c:135-143). -/
def exchange {M : Type} (outs : List (List (Part × M))) (orders : Nat → List Nat) :
    Outcome (List (List (Nat × M))) :=
  if ∀ o ∈ outs, ∀ m ∈ o, 0 ≤ m.1 ∧ m.1 < (outs.length : Int) then
    .ok ((List.range outs.length).map (fun q => inbox outs (orders q) q))
  else .fail

/-- delivery orders: on every part each sender's buffer is delivered once -/
def Orders (n : Nat) (orders : Nat → List Nat) : Prop := ∀ q, q < n → (orders q).Perm (List.range n)

/-! ## ghost tags -/

/-- `vtx_mapping[gid]` (`operator[]`): an absent gid gives 0 (the insertion of that entry is left out) -/
def Graph.lookup0 (g : Graph) (v : Gid) : Nat := (g.vtxMap v).getD 0

/-- first phase of `create*GhostTag`, agi/agiTag.cpp:104-109 (141-146, 177-182): a request for every ghost
to its owner -/
def Graph.ghostRequests (g : Graph) : Outcome (List (Part × Gid)) :=
  iterLoop g.iterGhost (fun acc v => do
    let gid ← g.globalID v
    let o ← g.owner v
    return (acc ++ [(o, gid)], false)) g.bound g.ghostBegin []

/-- answering, agi/agiTag.cpp:111-125 (148-162, 184-197) -/
def Graph.ghostReplies {α : Type} (g : Graph) (cb : Graph → Handle → Outcome α) (msgs : List (Nat × Gid)) :
    Outcome (List (Part × (Gid × α))) :=
  msgs.mapM (fun m => do
    let val ← cb g (getVertex (g.lookup0 m.2))
    return ((m.1 : Int), (m.2, val)))

/-- storing an answer, agi/agiTag.cpp:127-134 (164-171, 199-206): index `localID - num_local`; a negative
index is outside the block -/
def Graph.ghostStore {α : Type} (g : Graph) (tag : Mem α) (m : Nat × (Gid × α)) : Outcome (Mem α) :=
  if g.lookup0 m.2.1 < g.numLocal then .ub
  else tag.store (g.lookup0 m.2.1 - g.numLocal) m.2.2

/-- `createIntGhostTag` / `createLongGhostTag` / `createDoubleGhostTag`, agi/agiTag.cpp:100-210, on all
parts at once; `o1`, `o2` are the delivery orders of the two phases.  The tag is a block of
`num_ghost_verts` cells (agi/agiInfo.h:12). -/
def createGhostTag {α : Type} (gs : List Graph) (cb : Graph → Handle → Outcome α)
    (o1 o2 : Nat → List Nat) : Outcome (List (Mem α)) := do
  let reqs ← gs.mapM Graph.ghostRequests
  let ins ← exchange reqs o1
  let reps ← (gs.zip ins).mapM (fun p => p.1.ghostReplies cb p.2)
  let ins2 ← exchange reps o2
  (gs.zip ins2).mapM (fun p => p.2.foldlM p.1.ghostStore (Mem.alloc p.1.numGhost))

/-! ## constructGhosts on all parts -/

/-- the counting loop of `constructGhosts` for one type on all parts, agi/agiConstruct.cpp:388-415 -/
def countType (gs : List Graph) (t : Nat) : Outcome (List Graph) := do
  let cs ← gs.mapM (fun g => g.ownedCounts t)
  gs.mapM (fun g => g.setGlobalCounts t (cs.map (fun c => c.1)).sum (cs.map (fun c => c.2)).sum)

/-- all types; the parts must agree on the number of types (otherwise the collective calls do not match,
undefined behaviour) -/
def countTypes (gs : List Graph) : Outcome (List Graph) :=
  match gs with
  | [] => .ok []
  | g0 :: _ =>
    if ∀ g ∈ gs, g.numTypes = g0.numTypes then (List.range g0.numTypes).foldlM countType gs
    else .ub

/-- `weightTag`, agi/agiConstruct.cpp:369-371, and the creation of `ghost_weights`,
agi/agiConstruct.cpp:417-419: only with more than one part -/
def setGhostWeights (gs : List Graph) (o1 o2 : Nat → List Nat) : Outcome (List Graph) :=
  if 1 < gs.length then do
    let tags ← createGhostTag gs (fun g h => g.weight h) o1 o2
    return (gs.zip tags).map (fun p => { p.1 with ghostWeights := some p.2 })
  else .ok gs

/-- `constructGhosts(std::unordered_map)`, agi/agiConstruct.cpp:373-422, on all parts -/
def constructGhosts (gs : List Graph) (owns : List (GMap Part)) (o1 o2 : Nat → List Nat) :
    Outcome (List Graph) := do
  let gs ← (gs.zip owns).mapM (fun p => p.1.fillOwners p.2)
  let gs ← countTypes gs
  setGhostWeights gs o1 o2

/-- `constructGhosts(lid_t, gid_t*, part_t*)`, agi/agiConstruct.cpp:423-471, on all parts: no ghost
weights are created -/
def constructGhostsA (gs : List Graph) (owns : List (List (Gid × Part))) : Outcome (List Graph) := do
  let gs ← (gs.zip owns).mapM (fun p => p.1.fillOwnersA p.2)
  countTypes gs

end Verif.Agi
