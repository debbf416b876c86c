import Verif.Agi.MigWorld
/-!
# Specification for migration: the calls a user makes, and what can be observed afterwards
-/
namespace Verif.Agi

/-! ## what a user can read back from a part -/

/-- iterate over the vertices and collect their global ids -/
def Graph.localGids (g : Graph) : Outcome (List Gid) :=
  iterLoop g.iterVertex (fun acc v => do
    let gid ← g.globalID v
    return (acc ++ [gid], false)) g.bound vertexBegin []

/-- iterate over the pins of an edge and collect their global ids and owners -/
def Graph.pinView (g : Graph) (e : Handle) : Outcome (List (Gid × Part)) := do
  let it ← g.pins e
  iterLoop g.iterPin (fun acc v => do
    let gid ← g.globalID v
    let o ← g.owner v
    return (acc ++ [(gid, o)], false)) g.bound it []

/-- an edge as seen from a part: its id, its weight, its pins and who owns them -/
structure EdgeView where
  id : Gid
  w : Wgt
  pins : List (Gid × Part)
deriving DecidableEq

def Graph.edgeView (g : Graph) (e : Handle) : Outcome EdgeView := do
  let id ← g.globalIDE e
  let w ← g.weightE e
  let ps ← g.pinView e
  return ⟨id, w, ps⟩

/-- iterate over the edges of a type -/
def Graph.edgeViews (g : Graph) (t : Nat) : Outcome (List EdgeView) := do
  let it ← g.edgeBegin t
  iterLoop g.iterEdge (fun acc e => do
    let x ← g.edgeView e
    return (acc ++ [x], false)) g.bound it []

/-- weight of the vertex with a gid -/
def Graph.weightG (g : Graph) (v : Gid) : Outcome Wgt := do
  let h ← g.findGID v
  g.weight h

def Graph.origG (g : Graph) (v : Gid) : Outcome Part := do
  let h ← g.findGID v
  g.originalOwner h

def Graph.coordG (g : Graph) (v : Gid) : Outcome Coord := do
  let h ← g.findGID v
  g.coord h

/-! ## the calls -/

/-- `setCoords` with the coordinates `co` of the part's vertices, if there are any -/
def Graph.giveCoords (g : Graph) (vs : List Gid) (co : Option (Gid → Coord)) : Outcome Graph :=
  match co with
  | none => .ok g
  | some c => g.setCoords (vs.map c)

/-- every part builds its graph, sets coordinates and ghosts, and remembers the original owners -/
def setupAll (ins : List Input) (co : Option (Gid → Coord)) (owns : List (GMap Part)) (o1 o2 : Nat → List Nat) :
    Outcome (List Graph) := do
  let gs ← buildAll ins
  let gs ← (gs.zip ins).mapM (fun x => x.1.giveCoords x.2.verts co)
  let gs ← constructGhosts gs owns o1 o2
  return gs.map Graph.setOriginalOwners

/-- the same, without remembering the original owners -/
def setupBare (ins : List Input) (co : Option (Gid → Coord)) (owns : List (GMap Part)) (o1 o2 : Nat → List Nat) :
    Outcome (List Graph) := do
  let gs ← buildAll ins
  let gs ← (gs.zip ins).mapM (fun x => x.1.giveCoords x.2.verts co)
  constructGhosts gs owns o1 o2

/-- a call on a plan, the vertex given by its global id -/
inductive GOp where
  | insert (v : Gid) (d : Part)
  | clear

def Graph.planOpG (g : Graph) (p : Plan) : GOp → Outcome Plan
  | .insert v d => do
    let h ← g.findGID v
    let r ← g.planInsert p h d
    return r.1
  | .clear => Graph.planClear p

/-- a new plan after some calls -/
def Graph.planG (g : Graph) (ops : List GOp) : Outcome Plan := do
  let p ← g.newPlan
  ops.foldlM g.planOpG p

/-- one migration: the calls that fill the plan on each part, and the schedule -/
structure Round where
  ops : Nat → List GOp
  env : MigrateEnv

def migrateRound (gs : List Graph) (r : Round) : Outcome (List Graph) := do
  let plans ← gs.zipIdx.mapM (fun x => x.1.planG (r.ops x.2))
  migrate gs plans r.env

/-- a sequence of migrations -/
def migrateRounds (gs : List Graph) (rs : List Round) : Outcome (List Graph) := rs.foldlM migrateRound gs

/-! ## what is expected -/

/-- the destination last inserted for `v` since the last clear; newest call first -/
def plannedG (v : Gid) : List GOp → Option Part
  | [] => none
  | .clear :: _ => none
  | .insert v' d :: older => if v = v' then some d else plannedG v older

/-- where a vertex lives after a round: where the plan of its part sent it, or where it was -/
def place (own : Gid → Nat) (ops : Nat → List GOp) (v : Gid) : Nat :=
  match plannedG v (ops (own v)).reverse with
  | some d => d.toNat
  | none => own v

/-- where the vertices live after a sequence of rounds -/
def placeAll (own : Gid → Nat) (rs : List Round) : Gid → Nat := rs.foldl (fun o r => place o r.ops) own

/-- the plans only name vertices of the part that fills them and existing parts; the schedule is possible -/
structure RoundOk (V : List Gid) (n : Nat) (hasCoords : Bool) (own : Gid → Nat) (r : Round) : Prop where
  ops : ∀ p, p < n → ∀ v d, GOp.insert v d ∈ r.ops p → (v ∈ V ∧ own v = p) ∧ 0 ≤ d ∧ d < (n : Int)
  env : EnvOk n hasCoords r.env

def RoundsOk (V : List Gid) (n : Nat) (hasCoords : Bool) : (Gid → Nat) → List Round → Prop
  | _, [] => True
  | own, r :: rs => RoundOk V n hasCoords own r ∧ RoundsOk V n hasCoords (place own r.ops) rs

/-- the starting situation: a hypergraph with hyperedges `es` (one type), distributed over the parts -/
structure Start (es : List HEdge) (ins : List Input) (own : Gid → Nat) (owns : List (GMap Part))
    (o1 o2 : Nat → List Nat) : Prop where
  dist : HDist [es] ins own
  ids : (es.map HEdge.id).Nodup
  some_vertex : ∃ i ∈ ins, i.verts ≠ []
  maps : OwnMaps ins own owns
  o1 : Orders ins.length o1
  o2 : Orders ins.length o2

/-- all vertices -/
def allVerts (ins : List Input) : List Gid := (ins.map Input.verts).flatten

/-- a hyperedge as it should be seen when the vertices are placed by `own` -/
def HEdge.viewed (own : Gid → Nat) (E : HEdge) : EdgeView := ⟨E.id, E.w, E.pins.map (fun v => (v, (own v : Int)))⟩

end Verif.Agi
