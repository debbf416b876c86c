import Verif.Agi.MigProps
/-!
# Migration: a concrete case of the theorems, and where the properties fail

The theorems of `MigProps` are about hypergraphs with one edge type; here is what the code does outside
that case.
-/
namespace Verif.Agi

/-! ## the hypotheses are met -/

def sampleOwns : List (GMap Part) := [fun v => some (sampleOwn v : Int), fun v => some (sampleOwn v : Int)]
def twoOrder : Nat → List Nat := fun q => if q = 0 then [0, 1] else [1, 0]
def flipOrder : Nat → List Nat := fun q => if q = 0 then [1, 0] else [0, 1]

theorem orders_two : Orders 2 twoOrder ∧ Orders 2 flipOrder := by
  constructor <;>
  · intro q hq
    have h1 : q = 0 ∨ q = 1 := by omega
    rcases h1 with rfl | rfl <;> decide

/-- different orders in different phases, edge sets visited backwards -/
def sampleEnv : MigrateEnv :=
  ⟨twoOrder, flipOrder, flipOrder, fun _ => twoOrder, flipOrder, twoOrder, fun _ _ l => l.reverse⟩

/-- first part 1 sends vertex 2 to part 0; then part 0 sends vertices 1 and 2 to part 1, after a plan that
was filled otherwise and cleared, and part 1 sends 3 to part 0 -/
def sampleRounds : List Round :=
  [⟨fun p => if p = 1 then [.insert 2 0] else [], sampleEnv⟩,
   ⟨fun p => if p = 0 then [.insert 1 0, .clear, .insert 1 0, .insert 2 1, .insert 1 1]
     else if p = 1 then [.insert 3 0] else [], sampleEnv⟩]

theorem sampleEnv_ok (b : Bool) : EnvOk 2 b sampleEnv :=
  ⟨orders_two.1, orders_two.2, fun _ _ _ => rfl, fun _ => orders_two.1, orders_two.2, orders_two.1,
    fun _ _ l => List.reverse_perm l⟩

theorem sampleStart : Start [⟨100, [1, 2], 1⟩, ⟨101, [1], 1⟩, ⟨102, [2, 3], 1⟩] sampleWorld sampleOwn sampleOwns
    twoOrder flipOrder :=
  ⟨sampleWorld_dist, by decide, ⟨sampleWorld[0], List.getElem_mem _, by decide⟩, ⟨rfl, by
    intro p hp h' v _ _
    have h1 : p = 0 ∨ p = 1 := by simp [sampleWorld] at hp; omega
    rcases h1 with rfl | rfl <;> rfl⟩, orders_two.1, orders_two.2⟩

theorem sampleRounds_ok : RoundsOk (allVerts sampleWorld) sampleWorld.length true sampleOwn sampleRounds := by
  refine ⟨⟨?_, sampleEnv_ok _⟩, ⟨?_, sampleEnv_ok _⟩, trivial⟩
  · intro p hp v d hv
    have h1 : p = 0 ∨ p = 1 := by simp [sampleWorld] at hp; omega
    rcases h1 with rfl | rfl
    · simp at hv
    · simp at hv
      obtain ⟨rfl, rfl⟩ := hv
      decide
  · intro p hp v d hv
    have h1 : p = 0 ∨ p = 1 := by simp [sampleWorld] at hp; omega
    rcases h1 with rfl | rfl
    · simp at hv
      have : (v = 1 ∧ d = 0) ∨ (v = 2 ∧ d = 1) ∨ (v = 1 ∧ d = 1) := by omega
      rcases this with ⟨rfl, rfl⟩ | ⟨rfl, rfl⟩ | ⟨rfl, rfl⟩ <;> decide
    · simp at hv
      obtain ⟨rfl, rfl⟩ := hv
      decide

/-- and the rounds do move things -/
example : [(1 : Int), 2, 3].map (placeAll sampleOwn sampleRounds) = [1, 1, 0] := by decide

/-! ## where the properties fail -/

/-- the calls of a whole run, then an observation of every part -/
def observe {α : Type} (ins : List Input) (co : Option (Gid → Coord)) (owns : List (GMap Part)) (rs : List Round)
    (f : Graph → Outcome α) : Outcome (List α) := do
  let gs ← setupAll ins co owns twoOrder twoOrder
  let gs ← migrateRounds gs rs
  gs.mapM f

/-- vertices 1 and 2 on part 0, 3 on part 1; type 0 joins 2 and 3, type 1 joins 1 and 2 -/
def twoTypes : List Input :=
  [{ hyper := true, verts := [1, 2], wgts := [], types := [⟨[100], [[2, 3]], []⟩, ⟨[200], [[1, 2]], []⟩] },
   { hyper := true, verts := [3], wgts := [], types := [⟨[100], [[2, 3]], []⟩, ⟨[], [], []⟩] }]
def twoTypesOwns : List (GMap Part) := [fun v => if v = 3 then some 1 else some 0, fun v => if v = 3 then some 1 else some 0]
/-- part 0 sends vertex 1 to part 1 -/
def sendOne : List Round := [⟨fun p => if p = 0 then [.insert 1 1] else [], sampleEnv⟩]

/-- **C19 fails with two edge types** (agi/agiMigrate.cpp:75-90: the affected edges of every type are looked
up through the adjacency of type 0).  Both parts have edges of both types; vertex 1 goes from part 0 to
part 1; its only edge, of type 1, is afterwards on no part at all. -/
theorem c19_second_type_lost :
    observe twoTypes none twoTypesOwns [] (fun g => g.edgeViews 1) =
      .ok [[⟨200, 1, [(1, 0), (2, 0)]⟩], []] ∧
    observe twoTypes none twoTypesOwns sendOne Graph.localGids = .ok [[2], [3, 1]] ∧
    observe twoTypes none twoTypesOwns sendOne (fun g => g.edgeViews 1) = .ok [[], []] := by
  decide +kernel

/-- **a graph without edges cannot be migrated** (agi/agiMigrate.cpp:34: `adjacent(v)` reads
`degree_list[0]`, which is NULL): undefined behaviour -/
theorem c17_no_edge_type_ub :
    observe [{ hyper := true, verts := [1, 2], wgts := [], types := [] },
             { hyper := true, verts := [3], wgts := [], types := [] }] none twoTypesOwns sendOne Graph.localGids = .ub := by
  decide +kernel

/-- three parts; vertex `k` on part `k` -/
def threeParts : List Input :=
  [{ hyper := true, verts := [0], wgts := [], types := [⟨[100], [[0, 1, 2]], []⟩] },
   { hyper := true, verts := [1], wgts := [], types := [⟨[100], [[0, 1, 2]], []⟩] },
   { hyper := true, verts := [2], wgts := [], types := [⟨[100], [[0, 1, 2]], []⟩] }]
def threeOwns : List (GMap Part) := List.replicate 3 (fun v => some v)
def up : Nat → List Nat := fun _ => [0, 1, 2]
def down : Nat → List Nat := fun _ => [2, 1, 0]

/-- parts 1 and 2 send their vertices to part 0; the vertex phase delivers in one order, the coordinate
phase in the other -/
def crossed : List Round :=
  [⟨fun p => if p = 0 then [] else [.insert p 0], ⟨up, up, down, fun _ => up, up, up, fun _ _ l => l⟩⟩]

/-- **C18 needs the coordinate phase to deliver in the order of the vertex phase** (agi/agiMigrate.cpp:333-353:
coordinates carry no vertex id, they are matched by arrival order).  If two senders' messages arrive in
different orders in the two phases, their vertices' coordinates are exchanged. -/
theorem c18_coordinates_crossed :
    (do let gs ← setupAll threeParts (some (fun v => (v, 0, 0))) threeOwns up up
        let gs ← migrateRounds gs crossed
        let g ← rd gs 0
        let vs ← g.localGids
        let c1 ← g.coordG 1
        let c2 ← g.coordG 2
        return (vs, c1, c2)) = .ok ([0, 1, 2], ((2 : Rat), (0 : Rat), (0 : Rat)), ((1 : Rat), (0 : Rat), (0 : Rat))) := by
  decide +kernel

/-- a traditional graph: vertices 1 and 2 on part 0, edge 1→2; part 1 has vertex 3 and edge 3→1 -/
def tradPair : List Input :=
  [{ hyper := false, verts := [1, 2], wgts := [], types := [⟨[0], [[1, 2]], []⟩] },
   { hyper := false, verts := [3], wgts := [], types := [⟨[0], [[3, 1]], []⟩] }]

def Graph.arcs (g : Graph) : Outcome (List (List Gid)) := do
  let vs ← g.edgeViews 0
  return vs.map (fun e => e.pins.map Prod.fst)

/-- part 0 sends vertex 2, the far end of the edge 1→2, to part 1 -/
def sendTwo : List Round := [⟨fun p => if p = 0 then [.insert 2 1] else [], sampleEnv⟩]

/-- **C20 fails**: an edge whose source stays while its destination moves disappears (agi/agiMigrate.cpp:126-133
drops every edge with a planned pin, 62-91 only collects the edges leaving planned vertices). -/
theorem c20_edge_to_moving_vertex_lost :
    observe tradPair none twoTypesOwns [] Graph.arcs = .ok [[[1, 2]], [[3, 1]]] ∧
    observe tradPair none twoTypesOwns sendTwo Graph.localGids = .ok [[1], [3, 2]] ∧
    observe tradPair none twoTypesOwns sendTwo Graph.arcs = .ok [[], [[3, 1]]] := by
  decide +kernel

end Verif.Agi
