import Verif.Part.SplitProps
/-!
# Splitting: a concrete case of the theorems, and what goes wrong
-/
namespace Verif.Part
open Verif.Agi

/-- the vertices of part `p` are dealt to the parts, starting with `p + 1` -/
def dealer : Partitioner := fun As k p =>
  match As[p]? with
  | none => []
  | some A => (List.range A.vwgts.length).map (fun u => Int.ofNat ((p + 1 + u) % k))

theorem dealer_ok : PartitionerOk dealer := by
  intro As k p A hA hk
  unfold dealer
  simp only [hA]
  refine ⟨by simp, ?_⟩
  intro d hd
  obtain ⟨u, -, rfl⟩ := List.mem_map.mp hd
  have := Nat.mod_lt (p + 1 + u) hk
  simp only [Int.ofNat_eq_natCast]
  omega

def fourOrder : Nat → List Nat := fun q => if q = 0 then [2, 0, 3, 1] else [3, 1, 0, 2]

theorem orders_four : Orders 4 fourOrder := by
  intro q _
  unfold fourOrder
  split <;> decide

def fourEnv : MigrateEnv :=
  ⟨fourOrder, fourOrder, fourOrder, fun _ => fourOrder, fourOrder, fourOrder, fun _ _ l => l.reverse⟩

theorem fourEnv_ok (b : Bool) : EnvOk 4 b fourEnv :=
  ⟨orders_four, orders_four, fun _ _ _ => rfl, fun _ => orders_four, orders_four, orders_four, fun _ _ l => List.reverse_perm l⟩

/-- two parts, which are the ranks 0 and 2 of four; the local method splits each in two -/
def splitSample : SplitInput :=
  ⟨0, some 2, fun p => some (if p = 0 then [0, 1] else [2, 3]), twoOrder, fun _ _ l => l.reverse, fourEnv⟩

theorem splitSample_ok (meth : SplitMethod) (b : Bool) : SplitOk 4 2 [0, 2] meth b splitSample := by
  refine ⟨rfl, by decide, by decide, rfl, fun _ => ⟨2, rfl, by decide, ?_⟩, orders_two.1, fun _ _ l => List.reverse_perm l,
    fourEnv_ok _⟩
  intro p _
  refine ⟨_, rfl, ?_, ?_⟩
  · split <;> decide
  · split <;> decide

set_option synthInstance.maxSize 1024

/-- what every rank has after the split: its vertices, their original owners, and the ids of its hyperedges with the
owners of their pins -/
def splitShow (bare : Bool) (meth : SplitMethod) (s : SplitInput) :
    Outcome (List (List Gid × List Part × List (Gid × List (Gid × Part)))) := do
  let gs ← if bare then setupBare sampleWorld none sampleOwns twoOrder flipOrder else setupAll sampleWorld none sampleOwns twoOrder flipOrder
  let gs ← split 4 [0, 2] gs meth s dealer
  gs.mapM (fun g => do
    let vs ← g.localGids
    let os ← vs.mapM g.origG
    let es ← g.edgeViews 0
    return (vs, os, es.map (fun e => (e.id, e.pins))))

/-- the hypotheses of `c54_split_partial`, `c54_fresh_partial` and `c55_wrong_rank` are met: vertex 1 on part 0, vertices
2 and 3 on part 1 -/
example : Start [⟨100, [1, 2], 1⟩, ⟨101, [1], 1⟩, ⟨102, [2, 3], 1⟩] sampleWorld sampleOwn sampleOwns twoOrder flipOrder ∧
    SplitOk 4 sampleWorld.length [0, 2] .globalParmetis false splitSample ∧
    SplitOk 4 sampleWorld.length [0, 2] .localParmetis false splitSample ∧ PartitionerOk dealer ∧
    ([0, 2] : List Nat)[1]? = some 2 ∧ (2 : Gid) ∈ sampleWorld[1].verts :=
  ⟨sampleStart, splitSample_ok _ _, splitSample_ok _ _, dealer_ok, rfl, by decide⟩

/-- the global method sends 1 to rank 1, 2 to rank 2 and 3 to rank 3; their original owners are then ranks 0 and 2 -/
example : splitShow true .globalParmetis splitSample = .ok
    [([], [], []), ([1], [0], [(101, [(1, 1)]), (100, [(1, 1), (2, 2)])]),
     ([2], [2], [(100, [(1, 1), (2, 2)]), (102, [(2, 2), (3, 3)])]), ([3], [2], [(102, [(2, 2), (3, 3)])])] := by
  decide +kernel

/-- the local method sends 1 to rank 1, 2 to rank 3 and 3 to rank 2 -/
example : splitShow false .localParmetis splitSample = .ok
    [([], [], []), ([1], [0], [(101, [(1, 1)]), (100, [(1, 1), (2, 3)])]),
     ([3], [1], [(102, [(2, 3), (3, 2)])]), ([2], [1], [(100, [(1, 1), (2, 3)]), (102, [(2, 3), (3, 2)])])] := by
  decide +kernel

/-- **C54** needs as many `other_ranks` as the split factor: with fewer the local method reads beyond the array -/
theorem c54_short_others : splitShow true .localParmetis { splitSample with others := fun _ => some [0] } = .ub := by
  decide +kernel

/-- the local method insists on a split factor and on `other_ranks`; an input made for the global method has neither -/
theorem c54_local_needs : splitShow true .localParmetis { splitSample with factor := none } = .fail ∧
    splitShow true .localParmetis { splitSample with others := fun _ => none } = .fail := by
  constructor <;> decide +kernel

end Verif.Part
