import Verif.Color.ColorModel
/-!
# What is assumed of Kokkos, and what a colouring is
-/
namespace Verif.Color
open Verif.Agi Verif.Part

/-- a graph given by the rows of its neighbours: no loops, both directions -/
def Simple (n : Nat) (rows : List (List Nat)) : Prop :=
  rows.length = n ∧ ∀ k, k < n → ∀ j ∈ rows.getD k [], j < n ∧ j ≠ k ∧ k ∈ rows.getD j []

/-- neighbours have different colours -/
def Proper (n : Nat) (rows : List (List Nat)) (c : List Nat) : Prop :=
  c.length = n ∧ ∀ k, k < n → ∀ j ∈ rows.getD k [], c.getD k 0 ≠ c.getD j 0

/-- what is assumed: the map has room for as many keys as hinted and keeps each key in one slot; the iteration order of a set
is some order; `graph_color` colours every simple graph properly -/
structure Env.Ok (E : Env) : Prop where
  cap : ∀ n, n ≤ E.cap n
  slots : ∀ l, ((E.slots l).filterMap id).Perm l
  ord : ∀ x l, (E.ord x l).Perm l
  color : ∀ n rows, Simple n rows → Proper n rows (E.color n rows)

/-- offsets and list of an adjacency -/
def Rows (offs lists : Mem Nat) (rows : List (List Nat)) : Prop :=
  offs = Mem.ofList ((List.range (rows.length + 1)).map (fun k => (rows.take k).flatten.length)) ∧ lists = Mem.ofList rows.flatten

end Verif.Color
