import Verif.Mesh.MeshModel
import Verif.Agi.MigSpec
import Mathlib.Data.List.Dedup
/-!
# C59: specification of the graph of a mesh
-/
namespace Verif.Mesh
open Verif.Agi

/-- what part `p` sees of the mesh -/
def part (ms : List MeshPart) (p : Nat) : MeshPart := ms.getD p ⟨[], []⟩

/-- the primary entities a part owns -/
def MeshPart.verts (m : MeshPart) : List Gid := (m.elms.filter (fun x => x.owned)).map Elm.gid

/-- the entities of edge type `t` on a part -/
def MeshPart.entsOf (m : MeshPart) (t : Nat) : List Ent := m.ents.getD t []

/-- the owned primary entities of a part next to entity `e` of type `t` -/
def pinsFrom (m : MeshPart) (t : Nat) (e : Gid) : List Gid :=
  (m.entsOf t).flatMap (fun x => if x.gid = e then x.mine else [])

/-- the primary entities next to entity `e` of type `t` in the whole mesh, with the parts that own them -/
def pinsIn (ms : List MeshPart) (t : Nat) (e : Gid) : List (Gid × Part) :=
  (List.range ms.length).flatMap (fun q => (pinsFrom (part ms q) t e).map (fun v => (v, (q : Int))))

/-- a consistent distributed mesh seen with `T` edge types, where `own v` is the part that owns the primary entity `v`:
* numbers are unique on a part, and the mesh is not empty;
* an entity has a copy on the parts of its residence, and is shared if there is another such part;
* one of the copies of an entity is owned;
* adjacency names entities of the part, without repetition, and is the same in both directions. -/
structure MeshOk (ms : List MeshPart) (T : Nat) (own : Gid → Nat) : Prop where
  some_vertex : ∃ m ∈ ms, m.verts ≠ []
  few : T ≤ maxTypes
  elms : ∀ p, p < ms.length → ((part ms p).elms.map Elm.gid).Nodup ∧
    ∀ x ∈ (part ms p).elms, (x.owned = true ↔ own x.gid = p)
  ents : ∀ p, p < ms.length → (part ms p).ents.length = T ∧ ∀ t, t < T → (((part ms p).entsOf t).map Ent.gid).Nodup
  copies : ∀ p, p < ms.length → ∀ t, t < T → ∀ x ∈ (part ms p).entsOf t, x.res.Nodup ∧
    (∀ q, q ∈ x.res ↔ q < ms.length ∧ ∃ y ∈ (part ms q).entsOf t, y.gid = x.gid) ∧
    (x.shared = true ↔ ∃ q ∈ x.res, q ≠ p)
  one_owned : ∀ p, p < ms.length → ∀ t, t < T → ∀ x ∈ (part ms p).entsOf t,
    ∃ q, (q < ms.length ∧ ∃ y ∈ (part ms q).entsOf t, y.gid = x.gid ∧ y.owned = true) ∧
      ∀ r, r < ms.length → (∃ y ∈ (part ms r).entsOf t, y.gid = x.gid ∧ y.owned = true) → r = q
  adj : ∀ p, p < ms.length → ∀ t, t < T → ∀ x ∈ (part ms p).entsOf t, (x.adj.map Prod.fst).Nodup ∧
    ∀ v ∈ x.adj, ∃ y ∈ (part ms p).elms, y.gid = v.1 ∧ y.owned = v.2
  down : ∀ p, p < ms.length → ∀ y ∈ (part ms p).elms, y.owned = true → y.down.length = T ∧ ∀ t, t < T →
    (y.down.getD t []).Nodup ∧
    ∀ e, e ∈ y.down.getD t [] ↔ ∃ x ∈ (part ms p).entsOf t, x.gid = e ∧ y.gid ∈ x.adj.map Prod.fst

/-- the entities of type `t` in the whole mesh -/
def allEnts (ms : List MeshPart) (t : Nat) : List Gid :=
  ((List.range ms.length).flatMap (fun p => ((part ms p).entsOf t).map Ent.gid)).dedup

/-- dimensions a graph can be made of: both exist and differ, and on several parts the vertices are the elements -/
def DimsOk (n : Nat) (dim primary second : Int) : Prop :=
  0 ≤ primary ∧ primary ≤ dim ∧ 0 ≤ second ∧ second ≤ dim ∧ primary ≠ second ∧ (1 < n → primary = dim)

/-- all deliveries are possible -/
structure MeshEnv.Ok (n T : Nat) (env : MeshEnv) : Prop where
  counts : ∀ t, t < T → Orders n (env.counts t)
  pins : ∀ t, t < T → Orders n (env.pins t)
  ask : Orders n env.ask
  answer : Orders n env.answer

/-! ## what can be read back -/

/-- iterate over the edges of a vertex and collect their ids -/
def edgesOf (g : Graph) (v : Gid) (t : Nat) : Outcome (List Gid) := do
  let h ← g.findGID v
  let it ← g.edges h t
  iterLoop g.iterEdge (fun acc e => do
    let id ← g.globalIDE e
    return (acc ++ [id], false)) g.bound it []

/-- iterate over the ghosts and collect id, owner and weight -/
def ghostViews (g : Graph) : Outcome (List (Gid × Part × Wgt)) :=
  iterLoop g.iterGhost (fun acc v => do
    let gid ← g.globalID v
    let o ← g.owner v
    let w ← g.weight v
    return (acc ++ [(gid, o, w)], false)) g.bound g.ghostBegin []

/-- `numGlobalPins`, agi/ngraph.h:134 -/
def numGlobalPins (g : Graph) (t : Nat) : Outcome Int := do let e ← g.slot t; return e.globalPins

/-- what a user reads from the graph of part `p`: the mesh.
* the vertices are the owned primary entities, with weight 1 and their centroids;
* the edges of type `t` are the entities of that dimension on the part, with weights `wt`, and each has as pins the
  primary entities next to it in the whole mesh, wherever they are, with their owners;
* the edges of a vertex are the entities of that dimension next to it;
* `numGlobalEdges` is `ge`, and the numbers of vertices and pins are those of the mesh;
* the ghosts are the primary entities of other parts that are pins of an edge of this part. -/
structure ReadsMesh (ms : List MeshPart) (T : Nat) (wt : Ent → Wgt) (ge : Nat → Int) (p : Nat) (g : Graph) : Prop where
  verts : g.localGids = .ok (part ms p).verts
  vert : ∀ x ∈ (part ms p).elms, x.owned = true → g.weightG x.gid = .ok 1 ∧ g.coordG x.gid = .ok x.centroid
  globalVerts : g.globalVerts = (((List.range ms.length).flatMap (fun q => (part ms q).verts)).length : Int)
  numTypes : g.numTypes = T
  edges : ∀ t, t < T → ∃ l : List EdgeView, g.edgeViews t = .ok l ∧
    l.map (fun e => (e.id, e.w)) = ((part ms p).entsOf t).map (fun x => (x.gid, wt x)) ∧
    ∀ e ∈ l, e.pins.Perm (pinsIn ms t e.id)
  incident : ∀ t, t < T → ∀ x ∈ (part ms p).elms, x.owned = true → edgesOf g x.gid t = .ok (x.down.getD t [])
  globalEdges : ∀ t, t < T → g.numGlobalEdges t = .ok (ge t)
  globalPins : ∀ t, t < T →
    numGlobalPins g t = .ok ((((allEnts ms t).map (fun e => (pinsIn ms t e).length)).sum : Nat) : Int)
  ghosts : 1 < ms.length → ∃ l : List (Gid × Part × Wgt), ghostViews g = .ok l ∧ (l.map Prod.fst).Nodup ∧
    ∀ v o w, (v, o, w) ∈ l ↔ w = 1 ∧ o ≠ (p : Int) ∧ ∃ t, t < T ∧ ∃ x ∈ (part ms p).entsOf t, (v, o) ∈ pinsIn ms t x.gid
  noGhosts : ms.length = 1 → g.numGhost = 0

end Verif.Mesh
