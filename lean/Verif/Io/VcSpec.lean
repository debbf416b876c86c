import Verif.Io.VcModel
/-!
# What `binGraph::migrate` is to do: the specification for C64
-/
namespace Verif.Io
open Verif.Agi

/-- edge `l` of the part goes from `F[l].1` to `F[l].2`, both on the part -/
def VcShows (g : Graph) (F : List (Nat × Nat)) : Prop :=
  ∀ l (hl : l < F.length), ∃ u v : Nat, u < g.numLocal ∧ v < g.numLocal ∧
    g.uEdge (g.getEdge l 0) = .ok (getVertex u) ∧ g.globalID (getVertex u) = .ok (F[l].1 : Int) ∧
    g.vOf (g.getEdge l 0) = .ok (getVertex v) ∧ g.globalID (getVertex v) = .ok (F[l].2 : Int)

/-- the edges the maps send to part `q` -/
def assigned (Fs : List (List (Nat × Nat))) (maps : List (List (Nat × Part))) (q : Nat) : List (Nat × Nat) :=
  (List.range maps.length).flatMap (fun p => ((maps.getD p []).filter (fun x => decide (x.2 = (q : Int)))).map
    (fun x => (Fs.getD p []).getD x.1 (0, 0)))

/-- graphs without ghosts, showing the edges `Fs`, with ids below `n`, and maps that name edges and parts -/
structure VcStart (gs : List Graph) (Fs : List (List (Nat × Nat))) (maps : List (List (Nat × Part))) (n : Nat) : Prop where
  lenF : Fs.length = gs.length
  lenM : maps.length = gs.length
  total : (gs.map (fun g => g.globalVerts)).sum = (n : Int)
  ids : ∀ F ∈ Fs, ∀ e ∈ F, e.1 < n ∧ e.2 < n
  trad : ∀ g ∈ gs, g.isHyper = false ∧ g.numGhost = 0 ∧ g.numTypes ≤ 1 ∧ g.types.length = maxTypes
  one : ∀ p (h : p < gs.length), Fs.getD p [] ≠ [] → gs[p].numTypes = 1
  shows_ : ∀ p (h : p < gs.length), VcShows gs[p] (Fs.getD p [])
  keys : ∀ p, p < gs.length → ∀ x ∈ maps.getD p [], x.1 < (Fs.getD p []).length ∧ 0 ≤ x.2 ∧ x.2 < (gs.length : Int)

end Verif.Io
