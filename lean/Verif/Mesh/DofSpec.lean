import Verif.Mesh.MeshSpec
/-!
# C60: specification of the graph of degrees of freedom of a mesh
-/
namespace Verif.Mesh
open Verif.Agi

/-- the entities of every dimension are numbered from zero over all parts -/
def Numbered (ms : List MeshPart) (D : Nat) : Prop :=
  ∀ p, p < ms.length → ∀ d, d < D → ∀ x ∈ (part ms p).entsOf d, 0 ≤ x.gid ∧ x.gid < ((allEnts ms d).length : Int)

/-- the dimensions that hold degrees of freedom: corners, edges from order 2, faces from order 4, below the mesh's own -/
def holders (order : Int) (D : Nat) : List Nat :=
  (if 0 < D then [0] else []) ++ (if 1 < D ∧ 2 ≤ order then [1] else []) ++ (if 2 < D ∧ 4 ≤ order then [2] else [])

/-- the number of degrees of freedom of a holder -/
def dofs (order : Int) (d : Nat) : Int := if d = 0 then 1 else if d = 1 then order - 1 else order - 3

/-- what part `p` reads from the graph: one edge type whose edges are the holders of degrees of freedom.  `num d e` is
the number in the graph of the entity with number `e` in dimension `d`. -/
structure ReadsDofs (order : Int) (D : Nat) (ms : List MeshPart) (num : Nat → Gid → Gid) (p : Nat) (g : Graph) : Prop where
  verts : g.localGids = .ok (part ms p).verts
  vert : ∀ x ∈ (part ms p).elms, x.owned = true → g.weightG x.gid = .ok 1 ∧ g.coordG x.gid = .ok x.centroid
  globalVerts : g.globalVerts = (((List.range ms.length).flatMap (fun q => (part ms q).verts)).length : Int)
  numTypes : g.numTypes = 1
  edges : ∃ l : List EdgeView, g.edgeViews 0 = .ok l ∧
    l.map (fun e => (e.id, e.w)) =
      (holders order D).flatMap (fun d => ((part ms p).entsOf d).map (fun x => (num d x.gid, (dofs order d : Rat)))) ∧
    ∀ d ∈ holders order D, ∀ x ∈ (part ms p).entsOf d, ∀ e ∈ l, e.id = num d x.gid → e.pins.Perm (pinsIn ms d x.gid)
  incident : ∀ x ∈ (part ms p).elms, x.owned = true →
    edgesOf g x.gid 0 = .ok ((holders order D).flatMap (fun d => (x.down.getD d []).map (num d)))
  globalPins : numGlobalPins g 0 = .ok (((((holders order D).map (fun d =>
    ((allEnts ms d).map (fun e => (pinsIn ms d e).length)).sum)).sum : Nat)) : Int)
  ghosts : 1 < ms.length → ∃ l : List (Gid × Part × Wgt), ghostViews g = .ok l ∧ (l.map Prod.fst).Nodup ∧
    ∀ v o w, (v, o, w) ∈ l ↔ w = 1 ∧ o ≠ (p : Int) ∧
      ∃ d ∈ holders order D, ∃ x ∈ (part ms p).entsOf d, (v, o) ∈ pinsIn ms d x.gid
  noGhosts : ms.length = 1 → g.numGhost = 0

end Verif.Mesh
