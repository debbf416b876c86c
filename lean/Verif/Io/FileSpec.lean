import Verif.Io.FileModel
/-!
# Specification: two graphs a user cannot tell apart (for C23)

Everything is observed through the public queries: iteration, `globalID`, `weight`, `owner`, `coord`, pins.
-/
namespace Verif.Io
open Verif.Agi

/-- iterate over the ghosts and collect their global ids -/
def ghostGids (g : Graph) : Outcome (List Gid) :=
  iterLoop g.iterGhost (fun acc v => do
    let gid ← g.globalID v
    return (acc ++ [gid], false)) g.bound g.ghostBegin []

/-- the ids of the edges of type `t` of a vertex, in iteration order -/
def edgeIdsOf (g : Graph) (v : Gid) (t : Nat) : Outcome (List Gid) := do
  let h ← g.findGID v
  let it ← g.edges h t
  iterLoop g.iterEdge (fun acc e => do
    let x ← g.globalIDE e
    return (acc ++ [x], false)) g.bound it []

/-- owner of the vertex with a gid -/
def ownerG (g : Graph) (v : Gid) : Outcome Part := do
  let h ← g.findGID v
  g.owner h

/-- both calls succeed with the same result -/
def Agree {α : Type} (a b : Outcome α) : Prop := ∃ x, a = .ok x ∧ b = .ok x

/-- `g'` is the same graph as `g`: the same kind, number of types, vertices in the same order with the same
weights, owners, coordinates and incident edges, the same ghosts (in any order) with the same owners and
weights, and for each type the same edges in the same order with the same ids, weights, pins and owners of
pins; the same global counts -/
structure Same (g g' : Graph) : Prop where
  kind : g'.isHyper = g.isHyper
  types : g'.numTypes = g.numTypes
  hasCoords : g'.coords.isSome = g.coords.isSome
  vertices : ∃ vs, g.localGids = .ok vs ∧ g'.localGids = .ok vs ∧ ∀ v ∈ vs,
    Agree (g.weightG v) (g'.weightG v) ∧ Agree (ownerG g v) (ownerG g' v) ∧
    (g.coords.isSome = true → Agree (g.coordG v) (g'.coordG v)) ∧
    ∀ t, t < g.numTypes → Agree (edgeIdsOf g v t) (edgeIdsOf g' v t)
  ghosts : ∃ vs vs', ghostGids g = .ok vs ∧ ghostGids g' = .ok vs' ∧ vs.Perm vs' ∧ ∀ v ∈ vs,
    Agree (g.weightG v) (g'.weightG v) ∧ Agree (ownerG g v) (ownerG g' v)
  edges : ∀ t, t < g.numTypes → Agree (g.edgeViews t) (g'.edgeViews t) ∧
    Agree (g.numLocalEdges t) (g'.numLocalEdges t) ∧ Agree (g.numGlobalEdges t) (g'.numGlobalEdges t)
  count : g'.globalVerts = g.globalVerts

/-- a number that fits an `unsigned int` -/
def U32 (x : Int) : Prop := 0 ≤ x ∧ x < 2 ^ 32

/-- a number with an exact `double` -/
def Codec.Exact (c : Codec) (w : Wgt) : Prop := c.enc w < 2 ^ 64 ∧ c.dec (c.enc w) = w

/-- the data of all parts fit the file format: 32 bit ids and counts, weights and coordinates are doubles -/
structure FileOk (c : Codec) (ins : List Input) (co : Option (Gid → Coord)) : Prop where
  parts : ins.length < 2 ^ 32
  verts : ∀ i ∈ ins, i.verts.length < 2 ^ 32 ∧ (∀ v ∈ i.verts, U32 v) ∧ ∀ w ∈ vertWeights i.verts i.wgts, c.Exact w
  edges : ∀ i ∈ ins, ∀ e ∈ i.types, e.pins.length < 2 ^ 32 ∧ (∀ x ∈ e.ids, U32 x) ∧ ∀ w ∈ e.weights, c.Exact w
  pins : ∀ i ∈ ins, i.allPins.length < 2 ^ 32
  coords : ∀ f, co = some f → ∀ i ∈ ins, ∀ v ∈ i.verts, c.Exact (f v).1 ∧ c.Exact (f v).2.1 ∧ c.Exact (f v).2.2

/-- traditional graphs: every edge starts at a vertex of the part and is not a self-loop -/
def SourcesLocal (i : Input) : Prop := ∀ e ∈ i.types, ∀ x ∈ e.pins, ∃ u ∈ i.verts, ∃ w, u ≠ w ∧ x = [u, w]

end Verif.Io
