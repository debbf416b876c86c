import Verif.Agi.AnyProps
/-!
# C17, C19: hypergraphs with two edge types: a legal migration that aborts, and one after which an owner is wrong

`updateGhostOwners` (agi/agiMigrate.cpp:27-55) tells the new owner of a moving vertex only to the parts it is joined to by
edges of type 0.
-/
namespace Verif.Agi

/-- three parts with one vertex each; type 0 has only edges with one pin, type 1 joins 2 and 4 -/
def farTypes : List Input :=
  [{ hyper := true, verts := [4], wgts := [], types := [⟨[101], [[4]], []⟩, ⟨[200], [[2, 4]], []⟩] },
   { hyper := true, verts := [2], wgts := [], types := [⟨[102], [[2]], []⟩, ⟨[200], [[2, 4]], []⟩] },
   { hyper := true, verts := [5], wgts := [], types := [⟨[103], [[5]], []⟩, ⟨[], [], []⟩] }]
/-- the same, with one more vertex on part 1 -/
def farTypes' : List Input :=
  [{ hyper := true, verts := [4], wgts := [], types := [⟨[101], [[4]], []⟩, ⟨[200], [[2, 4]], []⟩] },
   { hyper := true, verts := [6, 2], wgts := [7, 9], types := [⟨[102], [[2]], []⟩, ⟨[200], [[2, 4]], []⟩] },
   { hyper := true, verts := [5], wgts := [], types := [⟨[103], [[5]], []⟩, ⟨[], [], []⟩] }]
def farOwns : List (GMap Part) := List.replicate 3 (fun v => if v = 4 then some 0 else if v = 2 then some 1 else some 2)
/-- vertex 2 goes from part 1 to part 2 -/
def farMove : List Round := [⟨fun p => if p = 1 then [.insert 2 2] else [], ⟨up, up, up, fun _ => up, up, up, fun _ _ l => l⟩⟩]

/-- **with two edge types a legal migration can abort**: part 0, which holds the edge {2, 4} of type 1, is not told that 2
moves, and asks the old owner, which has no vertex left, for its weight -/
theorem c17_two_types_abort :
    (do let gs ← setupAll farTypes none farOwns up up
        gs.mapM Graph.localGids) = .ok [[4], [2], [5]] ∧
    (do let gs ← setupAll farTypes none farOwns up up
        let gs ← migrateRounds gs farMove
        gs.mapM Graph.localGids) = .fail := by
  decide +kernel

/-- **or return with a wrong owner and a wrong weight**: 2 is on part 2 with weight 9, part 0 says it is on part 1 and
weighs 7, which is the weight of another vertex; and part 2 has got the edge 102, of type 0, among its edges of type 1,
instead of the edge 200 -/
theorem c19_two_types_stale :
    (do let gs ← setupAll farTypes' none farOwns up up
        let gs ← migrateRounds gs farMove
        gs.mapM Graph.localGids) = .ok [[4], [6], [5, 2]] ∧
    (do let gs ← setupAll farTypes' none farOwns up up
        let gs ← migrateRounds gs farMove
        gs.mapM (fun (g : Graph) => g.edgeViews 1)) =
      .ok [[⟨200, 1, [(2, 1), (4, 0)]⟩], [], [⟨102, 1, [(2, 2)]⟩]] ∧
    (do let gs ← setupAll farTypes' none farOwns up up
        let gs ← migrateRounds gs farMove
        let g ← rd gs 0
        let h ← g.findGID 2
        g.weight h) = .ok 7 := by
  decide +kernel

end Verif.Agi
