import Verif.Agi.PlanModel
import Verif.Agi.DistModel
/-!
# Model of `Ngraph::migrate`, agi/agiMigrate.cpp

All parts run together, phase by phase (see `DistModel`).  The iteration order of the
`std::unordered_set` of affected edges is a parameter (`shuffle`); that of the other unordered sets does
not influence anything (membership tests, or one record per destination).  Parallel vectors
(`ownedVerts`/`vertWeights`/`old_owners`) are lists of records.  Timers and logging are left out.
-/
namespace Verif.Agi

/-- fuel for the iteration over the vertices adjacent to a vertex -/
def Graph.adjFuel (g : Graph) : Nat := g.bound * g.bound

/-- `cleanup`, agi/agiMigrate.cpp:14-25: drop the vertices that stay -/
def Graph.cleanup (g : Graph) (plan : Plan) : Outcome Plan := do
  let p0 ← g.newPlan
  plan.sending.foldlM (fun np v => do
    let d ← g.planGet plan v
    if d ≠ g.self then do
      let r ← g.planInsert np v d
      return r.1
    else return np) p0

/-! ## ghost owners -/

/-- lines 35-44: one adjacent vertex -/
def Graph.updateBody (g : Graph) (gid : Gid) (d : Part) (acc : List (Part × (Gid × Part))) (other : Handle) :
    Outcome (List (Part × (Gid × Part)) × Bool) := do
  let own ← g.owner other
  if own ≠ g.self then return (acc ++ [(own, (gid, d))], false)
  else return (acc, false)

/-- the messages of `updateGhostOwners`, agi/agiMigrate.cpp:27-45: `adjacent(v)` is of type 0 -/
def Graph.ownerUpdates (g : Graph) (plan : Plan) : Outcome (List (Part × (Gid × Part))) :=
  plan.sending.foldlM (fun acc v => do
    let gid ← g.globalID v
    let d ← g.planGet plan v
    let it ← g.adjacent v 0
    iterLoop g.iterAdj (g.updateBody gid d) g.adjFuel it acc) []

/-- receiving one of them, agi/agiMigrate.cpp:46-55 -/
def Graph.applyOwner (g : Graph) (m : Nat × (Gid × Part)) : Outcome Graph :=
  if g.lookup0 m.2.1 < g.numLocal then .ok g
  else do
    let o ← deref g.owners
    let o ← o.store (g.lookup0 m.2.1 - g.numLocal) m.2.2
    return { g with owners := some o }

/-! ## affected vertices and edges -/

/-- `iterate(gitr)` followed by `edge(gitr)`, agi/agiMigrate.cpp:83-84: the edge the step is on -/
def Graph.iterAdjEdge (g : Graph) (it : AdjIt) : Outcome (Handle × AdjIt) := do
  let (v, it') ← g.iterAdj it
  return (if v = 0 then 0 else it'.edge, it')

/-- `std::unordered_set::insert` -/
def setInsert (s : List Handle) (e : Handle) : List Handle := if e ∈ s then s else s ++ [e]

/-- the vertices of `getAffected`, agi/agiMigrate.cpp:64-72 -/
def Graph.affectedVerts (g : Graph) (plan : Plan) : Outcome (List Handle) :=
  plan.sending.foldlM (fun acc v => do
    let d ← g.planGet plan v
    return (if d ≠ g.self then setInsert acc v else acc)) []

/-- the edges of `getAffected` stored under a type, agi/agiMigrate.cpp:75-90.  `old` is never set, so every
edge is inserted; `adjacent(*itr)` is of type 0 whatever the type -/
def Graph.affectedEdges (g : Graph) (verts : List Handle) : Outcome (List Handle) :=
  verts.foldlM (fun acc v => do
    let it ← g.adjacent v 0
    iterLoop g.iterAdjEdge (fun s e => .ok (setInsert s e, false)) g.adjFuel it acc) []

/-! ## what stays -/

/-- a vertex as it is sent or kept: gid, weight, original owner -/
structure VRec where
  gid : Gid
  w : Wgt
  oo : Part
deriving DecidableEq

/-- `originalOwner(vtx)`, agi/agiVertex.cpp:72-80 -/
def Graph.originalOwner (g : Graph) (h : Handle) : Outcome Part :=
  match g.originalOwners with
  | none => .fail
  | some o => do
    let l ← vidx h
    if g.numLocal + g.numGhost ≤ l then return -1 else o.load l

/-- `coord(vtx)`, agi/agiVertex.cpp:46-57 -/
def Graph.coord (g : Graph) (h : Handle) : Outcome Coord := do
  let l ← vidx h
  if g.numLocal ≤ l then .fail
  else do
    let c ← deref g.coords
    c.load l

/-- gid, weight and original owner, agi/agiMigrate.cpp:100-102, 157-159 -/
def Graph.vrec (g : Graph) (v : Handle) : Outcome VRec := do
  let gid ← g.globalID v
  let w ← g.weight v
  let o ← g.originalOwner v
  return ⟨gid, w, o⟩

/-- `addVertices`, agi/agiMigrate.cpp:93-105; `addCoords`, lines 106-118 (with `f = coord`): the values of
the vertices that are not sent, in order -/
def Graph.keep {α : Type} (g : Graph) (verts : List Handle) (f : Handle → Outcome α) : Outcome (List α) :=
  iterLoop g.iterVertex (fun acc v => do
    if v ∈ verts then return (acc, false)
    else do
      let r ← f v
      return (acc ++ [r], false)) g.bound vertexBegin []

/-- the vectors of one edge type being filled (`ownedEdges[t]`, `edgeWeights[t]`, `degrees[t]`, `pins[t]`,
`addedEdges[t]`) and `ghost_owners` -/
structure EAcc where
  ids : List Gid
  wgts : List Wgt
  degs : List Nat
  pins : List Gid
  added : List Gid
  ghosts : GMap Part

def EAcc.empty (ghosts : GMap Part) : EAcc := ⟨[], [], [], [], [], ghosts⟩

/-- lines 128-131: is a pin of the edge planned? -/
def Graph.hasPlanned (g : Graph) (plan : Plan) (e : Handle) : Outcome Bool := do
  let it ← g.pins e
  iterLoop g.iterPin (fun (_ : Bool) v => do
    let h ← g.planHas plan v
    return (h, h)) g.bound it false

/-- lines 141-149: one pin of a kept edge -/
def Graph.keepPin (g : Graph) (acc : List Gid × GMap Part) (v : Handle) :
    Outcome ((List Gid × GMap Part) × Bool) := do
  let gid ← g.globalID v
  let o ← g.owner v
  return ((acc.1 ++ [gid], if o ≠ g.self then acc.2.put gid o else acc.2), false)

/-- lines 126-150: one edge of `addEdges` -/
def Graph.keepEdge (g : Graph) (plan : Plan) (acc : EAcc) (e : Handle) : Outcome (EAcc × Bool) := do
  let h ← g.hasPlanned plan e
  if h then return (acc, false)
  else do
    let gid ← g.globalIDE e
    let w ← g.weightE e
    let d ← g.degreeE e
    let it ← g.pins e
    let r ← iterLoop g.iterPin g.keepPin g.bound it (acc.pins, acc.ghosts)
    return (⟨acc.ids ++ [gid], acc.wgts ++ [w], acc.degs ++ [d.toNat], r.1, acc.added ++ [gid], r.2⟩, false)

/-- `addEdges`, agi/agiMigrate.cpp:119-153, for type `t` -/
def Graph.keepEdges (g : Graph) (plan : Plan) (ghosts : GMap Part) (t : Nat) : Outcome EAcc := do
  let it ← g.edgeBegin t
  iterLoop g.iterEdge (g.keepEdge plan) g.bound it (EAcc.empty ghosts)

/-- all types (lines 319-321); `ghost_owners` is shared -/
def Graph.keepAllEdges (g : Graph) (plan : Plan) (nt : Nat) : Outcome (List EAcc × GMap Part) :=
  (List.range nt).foldlM (fun (s : List EAcc × GMap Part) t => do
    let a ← g.keepEdges plan s.2 t
    return (s.1 ++ [a], a.ghosts)) ([], GMap.empty)

/-! ## sending and receiving -/

/-- lines 327-329 (`sendVertex`, 155-163) and 341-344 (`sendCoord`): a value of every planned vertex to its
destination -/
def Graph.sendEach {α : Type} (g : Graph) (plan : Plan) (f : Handle → Outcome α) :
    Outcome (List (Part × α)) :=
  plan.sending.mapM (fun v => do
    let d ← g.planGet plan v
    let r ← f v
    return (d, r))

/-- an edge as it is sent: id, weight, pins, owners of the pins -/
structure EMsg where
  id : Gid
  w : Wgt
  pins : List Gid
  owners : List Part

/-- `degree(e)` rounds of `iterate(pitr)`, lines 207-215 -/
def Graph.pinHandles (g : Graph) (e : Handle) : Outcome (List Handle) := do
  let it ← g.pins e
  let d ← g.degreeE e
  let r ← (List.range d.toNat).foldlM (fun (s : List Handle × PinIt) _ => do
    let (v, it') ← g.iterPin s.2
    return (s.1 ++ [v], it')) ([], it)
  return r.1

/-- the new owner of a pin, lines 209-211 (225-227) -/
def Graph.newOwner (g : Graph) (plan : Plan) (v : Handle) : Outcome Part := do
  let o ← g.owner v
  let h ← g.planHas plan v
  if h then g.planGet plan v else return o

/-- the record of a hyperedge and the parts it goes to, lines 202-217 -/
def Graph.packHyper (g : Graph) (plan : Plan) (e : Handle) : Outcome (EMsg × List Part) := do
  let w ← g.weightE e
  let id ← g.globalIDE e
  let vs ← g.pinHandles e
  let os ← vs.mapM (g.newOwner plan)
  let ps ← vs.mapM g.globalID
  return (⟨id, w, ps, os⟩, os.foldl (fun s p => Peers.insert p s) [])

/-- the record of a traditional edge and the part it goes to, lines 218-235; the assertion of line 232 -/
def Graph.packTrad (g : Graph) (plan : Plan) (e : Handle) : Outcome (EMsg × List Part) := do
  let w ← g.weightE e
  let (_, l) ← g.decodeEdge e
  let source ← g.uEdge e
  let gu ← g.globalID source
  let dest ← g.vOf e
  let od ← g.newOwner plan dest
  let gd ← g.globalID dest
  let h ← g.planHas plan source
  if h then do
    let os ← g.planGet plan source
    return (⟨l, w, [gu, gd], [os, od]⟩, [os])
  else .fail

/-- `sendEdges`, agi/agiMigrate.cpp:191-249 -/
def Graph.sendEdges (g : Graph) (plan : Plan) (es : List Handle) : Outcome (List (Part × EMsg)) := do
  let packs ← es.mapM (fun e => if g.isHyper then g.packHyper plan e else g.packTrad plan e)
  return packs.flatMap (fun x => x.2.map (fun p => (p, x.1)))

/-- one record in `recvEdges`, agi/agiMigrate.cpp:256-286.  (`edge_mapping[t][id]=0` is wiped by the
rebuild.) -/
def recvEdge (me : Part) (hyper : Bool) (acc : EAcc) (m : Nat × EMsg) : EAcc :=
  if hyper ∧ m.2.id ∈ acc.added then acc
  else ⟨acc.ids ++ [m.2.id], acc.wgts ++ [m.2.w], acc.degs ++ [m.2.pins.length], acc.pins ++ m.2.pins,
    acc.added ++ [m.2.id],
    (m.2.pins.zip m.2.owners).foldl (fun gh x => if x.2 ≠ me then gh.put x.1 x.2 else gh) acc.ghosts⟩

/-! ## rebuilding -/

/-- `&v[0]`: treated as NULL for an empty vector (no element is read then) -/
def ptrOf {α : Type} (l : List α) : Option (List α) := match l with | [] => none | _ => some l

/-- `setCoords(cs)`, agi/agiVertex.cpp:39-44 -/
def Graph.setCoords (g : Graph) (cs : List Coord) : Outcome Graph := do
  let m ← (List.range' 0 g.numLocal).foldlM (fun (m : Mem Coord) i => do
    let c ← rd cs i
    m.store i c) (Mem.alloc g.numLocal)
  return { g with coords := some m }

/-- `setOriginalOwners(std::vector)`, agi/agiVertex.cpp:99-104 -/
def Graph.setOriginalOwnersV (g : Graph) (oos : List Part) : Outcome Graph :=
  match g.originalOwners with
  | some _ => .fail
  | none => do
    let m ← (List.range' 0 g.numLocal).foldlM (fun (m : Mem Part) i => do
      let c ← rd oos i
      m.store i c) (Mem.alloc g.numLocal)
    return { g with originalOwners := some m }

/-- `setOriginalOwners()`, agi/agiVertex.cpp:82-97 -/
def Graph.setOriginalOwners (g : Graph) : Graph :=
  match g.originalOwners with
  | some _ => g
  | none => { g with originalOwners := some (Mem.ofList (List.replicate g.numLocal g.self)) }

/-- lines 366-374: `constructVerts`, `constructEdges` for every type, `setCoords`; `total` is the sum of
the vertex counts.  (`setCoords` is called before `constructEdges` in the code; neither touches what the
other does.) -/
def Graph.rebuild (g : Graph) (hyper : Bool) (vs : List VRec) (es : List EAcc) (cs : Option (List Coord))
    (total : Int) : Outcome Graph := do
  let g ← constructVertsA g hyper vs.length (vs.map VRec.gid) (ptrOf (vs.map VRec.w)) total
  let g ← es.foldlM (fun g e => constructEdgesA g e.ids e.degs e.pins (ptrOf e.wgts)) g
  match cs with
  | none => return g
  | some cs => g.setCoords cs

/-! ## all parts -/

/-- delivery orders of the phases and iteration orders of the edge sets -/
structure MigrateEnv where
  upd : Nat → List Nat
  verts : Nat → List Nat
  coords : Nat → List Nat
  edges : Nat → Nat → List Nat
  tag1 : Nat → List Nat
  tag2 : Nat → List Nat
  shuffle : Nat → Nat → List Handle → List Handle

/-- the coordinates, lines 333-353: `cs` has room for all vertices of the part, the count is asserted -/
def migrateCoords (gs : List Graph) (plans : List Plan) (affs : List (List Handle)) (counts : List Nat)
    (order : Nat → List Nat) : Outcome (List (Option (List Coord))) :=
  if gs.any (fun g => g.coords.isSome) then do
    let kc ← (gs.zip affs).mapM (fun x => x.1.keep x.2 x.1.coord)
    let out ← (gs.zip plans).mapM (fun x => x.1.sendEach x.2 x.1.coord)
    let inb ← exchange out order
    let cs := (kc.zip inb).map (fun x => x.1 ++ x.2.map Prod.snd)
    if ∀ x ∈ cs.zip counts, x.1.length ≤ x.2 then
      if ∀ x ∈ cs.zip counts, x.1.length = x.2 then return cs.map some else .fail
    else .ub
  else return gs.map (fun _ => none)

/-- sending and receiving the edges of type `t`, lines 354-361 -/
def migrateEdges (gs : List Graph) (plans : List Plan) (affs : List (List Handle)) (hyper : Bool)
    (env : MigrateEnv) (st : List (List EAcc × GMap Part)) (t : Nat) :
    Outcome (List (List EAcc × GMap Part)) := do
  let out ← ((gs.zip plans).zip affs.zipIdx).mapM (fun x => do
    let es ← (if t < x.1.1.numTypes then x.1.1.affectedEdges x.2.1 else .ok [])
    x.1.1.sendEdges x.1.2 (env.shuffle x.2.2 t es))
  let inb ← exchange out (env.edges t)
  ((gs.zip st).zip inb).mapM (fun x => do
    let a ← rd x.1.2.1 t
    let a := x.2.foldl (recvEdge x.1.1.self hyper) { a with ghosts := x.1.2.2 }
    return (x.1.2.1.set t a, a.ghosts))

/-- `Ngraph::migrate(Migration*)`, agi/agiMigrate.cpp:289-386, on all parts -/
def migrate (gs : List Graph) (plans : List Plan) (env : MigrateEnv) : Outcome (List Graph) := do
  let hyper := gs.any (fun g => g.isHyper)
  let nt := gs.foldl (fun m g => max m g.numTypes) 0
  let gs := gs.map (fun g => { g with isHyper := hyper })
  let plans ← (gs.zip plans).mapM (fun x => x.1.cleanup x.2)
  let upd ← (gs.zip plans).mapM (fun x => x.1.ownerUpdates x.2)
  let inb ← exchange upd env.upd
  let gs ← (gs.zip inb).mapM (fun x => x.2.foldlM Graph.applyOwner x.1)
  let affs ← (gs.zip plans).mapM (fun x => x.1.affectedVerts x.2)
  let kv ← (gs.zip affs).mapM (fun x => x.1.keep x.2 x.1.vrec)
  let st ← (gs.zip plans).mapM (fun x => x.1.keepAllEdges x.2 nt)
  let out ← (gs.zip plans).mapM (fun x => x.1.sendEach x.2 x.1.vrec)
  let inb ← exchange out env.verts
  let vs := (kv.zip inb).map (fun x => x.1 ++ x.2.map Prod.snd)
  let cs ← migrateCoords gs plans affs (vs.map List.length) env.coords
  let st ← (List.range nt).foldlM (migrateEdges gs plans affs hyper env) st
  let total : Int := (vs.map (fun v => (v.length : Int))).sum
  let gs ← ((gs.zip vs).zip (st.zip cs)).mapM (fun x => x.1.1.rebuild hyper x.1.2 x.2.1.1 x.2.2 total)
  let gs ← constructGhosts gs (st.map Prod.snd) env.tag1 env.tag2
  (gs.zip vs).mapM (fun x => x.1.setOriginalOwnersV (x.2.map VRec.oo))

end Verif.Agi
