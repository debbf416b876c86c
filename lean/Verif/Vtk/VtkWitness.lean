import Verif.Vtk.VtkProps
import Verif.Io.FileWitness
/-!
# C61: the hypotheses are met, and where the property fails
-/
namespace Verif.Vtk
open Verif.Agi

def lineCo (v : Gid) : Coord := (v, 2 * v, 0)

/-- build, give coordinates, write -/
def written (ins : List Input) (c : Option (Gid → Coord)) (owns : List (GMap Part)) (tags : List (Option (Mem Int))) (t : TagOn) :
    Outcome (List File) := do
  let gs ← setupAll ins c owns twoOrder flipOrder
  writeVTK gs tags t flipOrder twoOrder

example : ∃ gs, setupAll sampleWorld (some lineCo) sampleOwns twoOrder flipOrder = .ok gs ∧
    ∀ vals t, TagsFit gs vals t → ∃ fs es, writeVTK gs (vals.map (Option.map Mem.ofList)) t flipOrder twoOrder = .ok fs ∧
      FilesH sampleHG[0] sampleOwn lineCo vals t gs fs (fun p => (sampleWorld.getD p ⟨true, [], [], []⟩).verts) es :=
  c61_hypergraph sampleWorld_dist (by decide) sampleStart.maps orders_two.1 orders_two.2 orders_two.2 orders_two.1

/-- the two files of the sample with the tag 7 on vertex 1, 8 and 9 on vertices 2 and 3: the cut hyperedge 100 lies on both at
the same place, halfway between vertex 1 and vertex 2 -/
example : written sampleWorld (some lineCo) sampleOwns [some (Mem.ofList [7]), some (Mem.ofList [8, 9])] .vtx = .ok
    [{ numPoints := 3, numCells := 2, points := [some (1, 2, 0), some (3/2, 3, 0), some (1, 2, 0)], connectivity := [1, 0, 2, 0],
       offsets := [2, 4], types := [3, 3], part := [0, 0, 0], vorE := some [0, 1, 1], tag := some [7, -1, -1] },
     { numPoints := 4, numCells := 3, points := [some (2, 4, 0), some (3, 6, 0), some (5/2, 5, 0), some (3/2, 3, 0)],
       connectivity := [2, 0, 2, 1, 3, 0], offsets := [2, 4, 6], types := [3, 3, 3], part := [1, 1, 1, 1],
       vorE := some [0, 0, 1, 1], tag := some [8, 9, -1, -1] }] := by
  decide +kernel

/-- the tag fits -/
example : ∀ gs, setupAll sampleWorld (some lineCo) sampleOwns twoOrder flipOrder = .ok gs → gs.length = 2 →
    TagsFit gs [none, none] .none := by
  intro gs _ hl
  exact ⟨by rw [hl]; rfl, fun p h h' ne _ d hd => by
    simp only [List.length_cons, List.length_nil] at h'
    have : p = 0 ∨ p = 1 := by omega
    rcases this with rfl | rfl <;> simp at hd⟩

example : ∃ gs0 gs, setupAll sampleWorld (some lineCo) sampleOwns twoOrder flipOrder = .ok gs0 ∧
    migrateRounds gs0 sampleRounds = .ok gs ∧ ∀ vals t, TagsFit gs vals t →
      ∃ fs vs es', writeVTK gs (vals.map (Option.map Mem.ofList)) t flipOrder twoOrder = .ok fs ∧
        (∀ p, p < 2 → (vs p).Nodup ∧ ∀ v, v ∈ vs p ↔ v ∈ allVerts sampleWorld ∧ placeAll sampleOwn sampleRounds v = p) ∧
        FilesH [⟨100, [1, 2], 1⟩, ⟨101, [1], 1⟩, ⟨102, [2, 3], 1⟩] (placeAll sampleOwn sampleRounds) lineCo vals t gs fs vs es' :=
  c61_after_migration sampleStart sampleRounds Io.sampleRounds_ok orders_two.2 orders_two.1

theorem fileT_maps : OwnMaps Io.fileT sampleOwn sampleOwns :=
  ⟨rfl, by
    intro p hp h' v _ _
    have h1 : p = 0 ∨ p = 1 := by simp [Io.fileT] at hp; omega
    rcases h1 with rfl | rfl <;> rfl⟩

example : ∃ gs, setupAll Io.fileT (some lineCo) sampleOwns twoOrder flipOrder = .ok gs ∧ ∀ vals t, TagsFit gs vals t →
      ∃ fs, writeVTK gs (vals.map (Option.map Mem.ofList)) t flipOrder twoOrder = .ok fs ∧ fs.length = gs.length ∧
        ∀ p (h : p < gs.length) (h' : p < fs.length), ∃ vs ghosts es, gs[p].localGids = .ok vs ∧ Io.ghostGids gs[p] = .ok ghosts ∧
          gs[p].edgeViews 0 = .ok es ∧ ShowsT fs[p] lineCo (vals.getD p none) t p vs ghosts es ∧
          (fs[p].WF ↔ ∀ e ∈ es, ∀ x ∈ e.pins, x.2 = (p : Int)) :=
  c61_traditional_partial (T := 2) Io.fileT_dist ⟨by decide, by decide⟩ (by decide) fileT_maps Io.fileT_sources
    orders_two.1 orders_two.2 orders_two.2 orders_two.1

/-! ## where it fails -/

/-- **the lines of cut edges dangle** (agi/agiVTK.cpp:136-145: the ends are printed with their local numbers, but a traditional
graph's ghosts get no points): vertex 1 on part 0 with the edge 1→2, vertices 2 and 3 on part 1.  Both files have a line to
a point that is not in the file; neither is a proper grid. -/
theorem c61_dangling :
    (do let fs ← written Io.fileT (some lineCo) sampleOwns [none, none] .none
        return fs.map (fun f : File => (f.numPoints, f.cells, decide f.WF))) =
      .ok [(1, [[0, 1]], false), (2, [[0, 2], [1, 0], [1, 2]], false)] := by
  decide +kernel

/-- **a hyperedge without pins** has no position: 0/0 is printed (agi/agiVTK.cpp:78-81) -/
theorem c61_empty_edge :
    (do let fs ← written [⟨true, [1], [], [⟨[100, 101], [[1], []], []⟩]⟩] (some lineCo) [fun _ => some 0] [none] .none
        return fs.map (fun f : File => f.points)) = .ok [[some (1, 2, 0), some (1, 2, 0), none]] := by
  decide +kernel

/-- **without coordinates** the array read is NULL (agi/agiVTK.cpp:14, agi/agiVertex.cpp `coord`): undefined behaviour -/
theorem c61_no_coords_ub : written sampleWorld none sampleOwns [none, none] .none = .ub := by
  decide +kernel

/-- **a tag on edges of another type than 0** is taken and shows -1 everywhere (agi/agiVTK.cpp:198-208) -/
theorem c61_other_type_tag :
    (do let fs ← written sampleWorld (some lineCo) sampleOwns [some (Mem.ofList [7]), some (Mem.ofList [8, 9])] (.edge 1)
        return fs.map (fun f : File => f.tag)) = .ok [some [-1, -1, -1], some [-1, -1, -1, -1]] := by
  decide +kernel

end Verif.Vtk
