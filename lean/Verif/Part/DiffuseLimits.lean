import Verif.Part.DiffuseWitness
import Verif.Part.SplitTrad
/-!
# C52 outside hypergraphs with one edge type: what balancing does to traditional graphs and to a second edge type
-/
namespace Verif.Part
open Verif.Agi

set_option synthInstance.maxSize 1024

/-- the path 0 - 1 - 2 - 3 - 4 - 5 with both directions of every edge; vertex 0 on part 0, the others on part 1 -/
def road : List Input :=
  [{ hyper := false, verts := [0], wgts := [], types := [⟨[0], [[0, 1]], []⟩] },
   { hyper := false, verts := [1, 2, 3, 4, 5], wgts := [],
     types := [⟨[0, 1, 2, 3, 4, 5, 6, 7, 8], [[1, 0], [1, 2], [2, 1], [2, 3], [3, 2], [3, 4], [4, 3], [4, 5], [5, 4]], []⟩] }]

/-- balancing by vertices with the iteration queue: the vertices and edges of every part, the weights at the end and the
imbalances reported by the steps -/
def runRoad : Outcome (List (List Gid × List (List (Gid × Part))) × List (List Rat × List (Option Rat × Int))) := do
  let gs ← setupAll road none (road.map (fun _ => fun v => some (chainOwn v : Int))) twoOrder flipOrder
  let r ← balance (diffMoves { defaultPar with queue := iterQ } (fun _ => sampleStepEnv)) (defaultIn [-1]) gs
  let l ← r.1.gs.mapM (fun (g : Graph) => do
    let vs ← g.localGids
    let es ← g.arcViews 0
    return (vs, es))
  return (l, r.2.1.map (fun c => (c.ends, c.steps.map (fun s => (s.imb, s.rc)))))

/-- **C52 and C53 fail on traditional graphs**, even with all opposite edges: the same path that is balanced to 3:3 as a
hypergraph.  The first step moves vertex 1 to part 0 and loses the edge from 2 to 1, so part 1 no longer knows that it is
next to part 0 and does not tell it its weight; part 0, for which part 1 then weighs nothing, sends vertex 1 back, which
loses the edge from 0 to 1.  The parts weigh 1 and 5 as before, two edges are gone, and no step can change that. -/
theorem c52_trad_loses : SymArcs (allArcs road) ∧ (allArcs road).length = 10 ∧
    runRoad = .ok ([([0], []),
      ([2, 3, 4, 5, 1], [[(2, 1), (3, 1)], [(3, 1), (2, 1)], [(3, 1), (4, 1)], [(4, 1), (3, 1)], [(4, 1), (5, 1)], [(5, 1), (4, 1)],
        [(1, 1), (0, 0)], [(1, 1), (2, 1)]])],
      [([1, 5], [(some (5 / 3), 0), (some (4 / 3), 0), (some (5 / 3), 2)])]) := by
  decide +kernel

/-- vertex 0 on part 0, the others on part 1; hyperedge 0 of type 0 joins 0 and 1, hyperedge 7 of type 1 joins 1 and 2 -/
def twoKinds : List Input :=
  [{ hyper := true, verts := [0], wgts := [], types := [⟨[0], [[0, 1]], []⟩, ⟨[], [], []⟩] },
   { hyper := true, verts := [1, 2, 3], wgts := [], types := [⟨[0], [[0, 1]], []⟩, ⟨[7], [[1, 2]], []⟩] }]

/-- **C52 fails with two edge types**: balancing moves vertex 1; the hyperedge of type 1 is then on no part, and part 0 has
hyperedge 0 also as one of type 1 -/
theorem c52_two_types_lost : (do
    let gs ← setupAll twoKinds none (twoKinds.map (fun _ => fun v => some (chainOwn v : Int))) twoOrder flipOrder
    let r ← balance (diffMoves defaultPar (fun _ => sampleStepEnv)) (defaultIn [-1]) gs
    r.1.gs.mapM (fun (g : Graph) => do
      let vs ← g.localGids
      let es ← g.edgeViews 0
      let fs ← g.edgeViews 1
      return (vs, es.map (fun e => (e.id, e.pins)), fs.map (fun e => (e.id, e.pins)))) :
      Outcome (List (List Gid × List (Gid × List (Gid × Part)) × List (Gid × List (Gid × Part))))) =
    .ok [([0, 1], [(0, [(0, 0), (1, 0)])], [(0, [(0, 0), (1, 0)])]), ([2, 3], [], [])] := by
  decide +kernel

/-- **C54 fails with two edge types**: the four vertices go to four ranks; the hyperedge of type 1 is then on none, and two ranks
have hyperedge 0 also as one of type 1 -/
theorem c54_two_types_lost : (do
    let gs ← setupAll twoKinds none (twoKinds.map (fun _ => fun v => some (chainOwn v : Int))) twoOrder flipOrder
    let gs ← split 4 [0, 2] gs .globalParmetis splitSample dealer
    gs.mapM (fun (g : Graph) => do
      let vs ← g.localGids
      let es ← g.edgeViews 0
      let fs ← g.edgeViews 1
      return (vs, es.map (fun e => (e.id, e.pins)), fs.map (fun e => (e.id, e.pins)))) :
      Outcome (List (List Gid × List (Gid × List (Gid × Part)) × List (Gid × List (Gid × Part))))) =
    .ok [([3], [], []), ([0], [(0, [(0, 1), (1, 2)])], [(0, [(0, 1), (1, 2)])]),
      ([1], [(0, [(0, 1), (1, 2)])], [(0, [(0, 1), (1, 2)])]), ([2], [], [])] := by
  decide +kernel

end Verif.Part
