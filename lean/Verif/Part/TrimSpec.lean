import Verif.Part.TargetProps
import Verif.Agi.MigSetup
/-!
# Specification for property C35: the load of a part
-/
namespace Verif.Part
open Verif.Agi

/-! ## specification -/

/-- total weight of the vertices that part `q` has when the vertices are placed by `own'` -/
def vertexLoad (ins : List Input) (own own' : Gid → Nat) (q : Nat) : Rat :=
  (((allVerts ins).filter (fun v => decide (own' v = q))).map (weightOf ins own)).sum

/-- total weight of the hyperedges that touch part `q` when the vertices are placed by `own'` -/
def edgeLoad (es : List HEdge) (own' : Gid → Nat) (q : Nat) : Rat :=
  ((es.filter (fun e => decide (Touches own' (q : Int) e))).map HEdge.w).sum

/-- the weight of part `q` in dimension `dim` (-1: vertices, otherwise an edge type) when the vertices are placed
by `own'` -/
def partWeight (H : List (List HEdge)) (ins : List Input) (own own' : Gid → Nat) (dim : Int) (q : Nat) : Rat :=
  if dim = -1 then vertexLoad ins own own' q else edgeLoad (H.getD dim.toNat []) own' q

/-- what the vertices `us` (of one part) weigh for part `q` in dimension `dim`: the vertices themselves, or the
hyperedges they bring along that do not touch `q` yet -/
def bringWeight (H : List (List HEdge)) (ins : List Input) (own : Gid → Nat) (dim : Int) (q : Nat) (us : List Gid) : Rat :=
  if dim = -1 then (us.map (weightOf ins own)).sum
  else (((H.getD dim.toNat []).filter (fun e => decide ((∃ v ∈ us, v ∈ e.pins) ∧ ¬ Touches own (q : Int) e))).map HEdge.w).sum

/-- vertex and edge weights are not negative -/
structure NonNeg (H : List (List HEdge)) (ins : List Input) (own : Gid → Nat) : Prop where
  verts : ∀ v ∈ allVerts ins, 0 ≤ weightOf ins own v
  edges : ∀ es ∈ H, ∀ e ∈ es, 0 ≤ e.w

end Verif.Part
