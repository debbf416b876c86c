import Verif.Part.SplitZoltanTrad
/-!
# Splitting with Zoltan: concrete cases of the theorems, and what goes wrong
-/
namespace Verif.Part
open Verif.Agi

set_option synthInstance.maxSize 1024

/-- Zoltan exports the last vertex of rank `r` to the next rank, and nothing else -/
def lastOne : ZoltanLib := fun D n r =>
  match D[r]? with
  | none => []
  | some d => if d.count = 0 ∨ n = 0 then [] else [(d.count - 1, (((r + 1) % n : Nat) : Int))]

theorem lastOne_ok : ZoltanOk lastOne := by
  intro D n r d hd hn
  unfold lastOne
  simp only [hd]
  by_cases hc : d.count = 0 ∨ n = 0
  · rw [if_pos hc]; simp
  · rw [if_neg hc]
    push Not at hc
    have := Nat.mod_lt (r + 1) hn
    refine ⟨?_, by simp⟩
    intro x hx
    simp only [List.mem_singleton] at hx
    subst hx
    refine ⟨by show d.count - 1 < d.count; omega, ?_, ?_⟩ <;> dsimp only <;> omega

theorem apart_hdist : HDist [[⟨10, [1], 1⟩, ⟨11, [2, 3, 3], 5⟩, ⟨12, [3], 6⟩]] apartWorld sampleOwn := by
  refine ⟨apart_dist.wf, by decide, apart_dist.verts, ?_, by decide, by decide, ?_⟩
  · intro es hes e he v hv
    simp only [List.mem_singleton] at hes
    subst hes
    simp only [List.mem_cons, List.not_mem_nil, or_false] at he
    rcases he with rfl | rfl | rfl <;> simp only [List.mem_cons, List.not_mem_nil, or_false] at hv
    · subst hv; decide
    · rcases hv with rfl | rfl | rfl <;> decide
    · subst hv; decide
  · intro p hp t ht ht'
    have h1 : p = 0 ∨ p = 1 := by simp [apartWorld] at hp; omega
    have h2 : t = 0 := by simpa using ht'
    subst h2
    rcases h1 with rfl | rfl <;> decide +kernel +revert

theorem apart_start : Start [⟨10, [1], 1⟩, ⟨11, [2, 3, 3], 5⟩, ⟨12, [3], 6⟩] apartWorld sampleOwn sampleOwns twoOrder flipOrder :=
  ⟨apart_hdist, by decide, ⟨apartWorld[0], List.getElem_mem _, by decide⟩, two_owns rfl, orders_two.1, orders_two.2⟩

/-- the hypotheses of `c54_zoltan_hyper_exact` are met, with both cases: two parts without a common hyperedge that change
their ranks, and two parts with one -/
example : Start [⟨10, [1], 1⟩, ⟨11, [2, 3, 3], 5⟩, ⟨12, [3], 6⟩] apartWorld sampleOwn sampleOwns twoOrder flipOrder ∧
    RanksOk 2 apartWorld.length [1, 0] ∧ EnvOk 2 false sampleEnv ∧ ZoltanOk lastOne ∧
    (∀ p, p < apartWorld.length → ∃ v ∈ allVerts apartWorld, sampleOwn v = p) ∧
    (∀ E ∈ ([⟨10, [1], 1⟩, ⟨11, [2, 3, 3], 5⟩, ⟨12, [3], 6⟩] : List HEdge), ∀ v ∈ E.pins, ∀ w ∈ E.pins, sampleOwn v = sampleOwn w) ∧
    Start [⟨100, [1, 2], 1⟩, ⟨101, [1], 1⟩, ⟨102, [2, 3], 1⟩] sampleWorld sampleOwn sampleOwns twoOrder flipOrder ∧
    RanksOk 4 sampleWorld.length [0, 2] := by
  refine ⟨apart_start, ⟨rfl, by decide, by decide⟩, sampleEnv_ok _, lastOne_ok, ?_, by decide, sampleStart, ⟨rfl, by decide, by decide⟩⟩
  intro p hp
  have h1 : p = 0 ∨ p = 1 := by simp [apartWorld] at hp; omega
  rcases h1 with rfl | rfl
  · exact ⟨1, by decide, rfl⟩
  · exact ⟨2, by decide, rfl⟩

/-- the parts are ranks 1 and 0; 1 goes from rank 1 to rank 0, 3 from rank 0 to rank 1, and 2 stays -/
example : (do
    let gs ← setupAll apartWorld none sampleOwns twoOrder flipOrder
    let gs ← splitZoltan 2 [1, 0] gs id lastOne sampleEnv
    gs.mapM (fun g => do
      let vs ← g.localGids
      let es ← g.edgeViews 0
      return (vs, es.map (fun e => (e.id, e.pins))))) = Outcome.ok
      [([2, 1], [(11, [(2, 0), (3, 1), (3, 1)]), (10, [(1, 0)])]), ([3], [(12, [(3, 1)]), (11, [(2, 0), (3, 1), (3, 1)])])] := by
  decide +kernel

/-- **C54 fails with Zoltan**: a split of a hypergraph onto more ranks than there are parts -/
theorem c54_zoltan_undefined : (do
    let gs ← setupAll apartWorld none sampleOwns twoOrder flipOrder
    let gs ← splitZoltan 4 [0, 2] gs id lastOne fourEnv
    return gs.length) = .ub := by
  decide +kernel

/-- the hypotheses of `c54_zoltan_trad_partial` and `c51_split_owners` are met -/
example : TradStart symThree symOwn ∧ symThree ≠ [] ∧ OwnMaps symThree symOwn symOwns ∧ Orders symThree.length twoOrder ∧
    Orders symThree.length flipOrder ∧ SymArcs (allArcs symThree) ∧ RanksOk 4 symThree.length [0, 2] ∧
    EnvOk 4 false fourEnv ∧ ZoltanOk lastOne :=
  ⟨symThree_start, by decide, symThree_owns, orders_two.1, orders_two.2, by decide, ⟨rfl, by decide, by decide⟩,
    fourEnv_ok _, lastOne_ok⟩

/-- 2 goes to rank 1 and 3 to rank 3, 1 stays: the edge 1→2 is lost as in `c54_trad_loses` -/
example : (do
    let gs ← setupAll symThree none symOwns twoOrder flipOrder
    let gs ← splitZoltan 4 [0, 2] gs id lastOne fourEnv
    gs.mapM (fun g => do
      let vs ← g.localGids
      let es ← g.arcViews 0
      return (vs, es))) = Outcome.ok [([1], []), ([2], [[(2, 1), (3, 3)], [(2, 1), (1, 0)]]), ([], []), ([3], [[(3, 3), (2, 1)]])] := by
  decide +kernel

/-- **C51 fails in a split**: vertex 3 is on the part with rank 2; Zoltan is told rank 1 for it, which has no vertices -/
theorem c51_split_wrong_owner : (do
    let gs ← setupAll symThree none symOwns twoOrder flipOrder
    let all ← (List.range 4).mapM (onRank 4 [0, 2] gs)
    let g ← rd all 0
    let h ← rd all 1
    let l ← zEdges g id 1
    let vs ← h.localGids
    return (l, vs)) = Outcome.ok ([(1, 0, 1), (3, 1, 1)], []) := by
  decide +kernel

end Verif.Part
