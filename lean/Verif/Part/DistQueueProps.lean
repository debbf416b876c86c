import Verif.Part.DistQueuePart
/-!
# C56: the distance queue shows the boundary edges, the ones farthest from the core of the part first
-/
namespace Verif.Part
open Verif.Agi

/-- **C56**: on every part of a distributed hypergraph, with either traversal, the construction of the distance queue
reads and writes only valid memory and ends; the queue shows exactly the edges of type 0 that leave the part, each once
(the same edges as the queue of C42); and of two edges in one connected component of the part, the one shown earlier is
at least as far from the core of the component — its edges farthest from the boundary — as the one shown later.  The
distance of every edge shown is defined (so the order is not vacuous).

Partial: a part without ghosts must not have exactly one or two edges of type 0 (`c56_small_part_ub`); traditional
graphs are not covered (`c56_traditional_ub`). -/
theorem c56_distance_queue_partial (H : List (List HEdge)) (ins : List Input) (own : Gid → Nat) (hd : HDist H ins own)
    (owns : List (GMap Part)) (ho : OwnMaps ins own owns) (o1 o2 : Nat → List Nat) (ho1 : Orders ins.length o1)
    (ho2 : Orders ins.length o2) (p : Nat) (hp : p < ins.length) (ht : 0 < ins[p].types.length) (push : Bool)
    (hsmall : Touched own p ins[p] ∨ ins[p].types[0].pins.length = 0 ∨ 3 ≤ ins[p].types[0].pins.length) :
    ∃ (gs gs' : List Graph) (g : Graph) (q : Queue) (L : List Nat),
      buildAll ins = .ok gs ∧ constructGhosts gs owns o1 o2 = .ok gs' ∧ gs'[p]? = some g ∧
      distanceQueue push g = .ok q ∧ Shows q (L.map (fun e => g.getEdge e 0)) ∧
      L.Perm ((List.range ins[p].types[0].pins.length).filter (fun e => decide (Leaves own p ins[p].types[0].pins e))) ∧
      L.Pairwise (fun a b => NoFarther (Share ins[p].verts ins[p].types[0].pins) (Leaves own p ins[p].types[0].pins) b a) ∧
      ∀ a ∈ L, ∃ d, IsDist (Share ins[p].verts ins[p].types[0].pins)
        (Core (Share ins[p].verts ins[p].types[0].pins) (Leaves own p ins[p].types[0].pins) a) a d := by
  obtain ⟨gs, e1, hb⟩ := buildAll_spec ins hd.wf
  obtain ⟨gs', e2, hw, -⟩ := constructGhosts_spec hb hd.dist (hdist_uniform hd) ho ho1 ho2
  have hg : p < gs'.length := by rw [hw.1]; exact hp
  obtain ⟨ghosts, hr⟩ := hw.2 p hg hp
  obtain ⟨q, cap, L, h1, h2, -, h4, h5, h6, -⟩ := distQueue_part push hd hp hr ht hsmall
  exact ⟨gs, gs', gs'[p], q, L, e1, e2, List.getElem?_eq_getElem hg, h1, h2.shows, h4, h5, h6⟩

/-- **C57**: on every part of a distributed hypergraph, with either traversal, the distance queue shows the boundary edges
of one connected component of the part after those of another: between two edges of a component only edges of that
component are shown; the components whose core is nearer to the boundary come first, and of two components equally deep
the one with fewer edges.  Depth and size of the component of every edge shown are defined.

Partial: for the same parts as `c56_distance_queue_partial`. -/
theorem c57_components_partial (H : List (List HEdge)) (ins : List Input) (own : Gid → Nat) (hd : HDist H ins own)
    (owns : List (GMap Part)) (ho : OwnMaps ins own owns) (o1 o2 : Nat → List Nat) (ho1 : Orders ins.length o1)
    (ho2 : Orders ins.length o2) (p : Nat) (hp : p < ins.length) (ht : 0 < ins[p].types.length) (push : Bool)
    (hsmall : Touched own p ins[p] ∨ ins[p].types[0].pins.length = 0 ∨ 3 ≤ ins[p].types[0].pins.length) :
    ∃ (gs gs' : List Graph) (g : Graph) (q : Queue) (L : List Nat),
      buildAll ins = .ok gs ∧ constructGhosts gs owns o1 o2 = .ok gs' ∧ gs'[p]? = some g ∧
      distanceQueue push g = .ok q ∧ Shows q (L.map (fun e => g.getEdge e 0)) ∧
      L.Perm ((List.range ins[p].types[0].pins.length).filter (fun e => decide (Leaves own p ins[p].types[0].pins e))) ∧
      Grouped (Share ins[p].verts ins[p].types[0].pins) L ∧
      L.Pairwise (Shallower (Share ins[p].verts ins[p].types[0].pins) (Leaves own p ins[p].types[0].pins)) ∧
      ∀ a ∈ L, ∃ d n, CompDepth (Share ins[p].verts ins[p].types[0].pins) (Leaves own p ins[p].types[0].pins) a d ∧
        CompSize (Share ins[p].verts ins[p].types[0].pins) a n := by
  obtain ⟨gs, e1, hb⟩ := buildAll_spec ins hd.wf
  obtain ⟨gs', e2, hw, -⟩ := constructGhosts_spec hb hd.dist (hdist_uniform hd) ho ho1 ho2
  have hg : p < gs'.length := by rw [hw.1]; exact hp
  obtain ⟨ghosts, hr⟩ := hw.2 p hg hp
  obtain ⟨q, cap, L, h1, h2, -, h4, -, -, h7⟩ := distQueue_part push hd hp hr ht hsmall
  exact ⟨gs, gs', gs'[p], q, L, e1, e2, List.getElem?_eq_getElem hg, h1, h2.shows, h4, h7⟩

/-- the distance queue, as a user sees it after construction on part `p` -/
def distShown (ins : List Input) (own : Gid → Nat) (p : Nat) (push : Bool) : Outcome (List Handle) := do
  let gs ← buildAll ins
  let o := fun _ : Nat => List.range ins.length
  let gs ← constructGhosts gs (ins.map (fun _ => fun v => some (own v : Int))) o o
  let g ← rd gs p
  let q ← distanceQueue push g
  (List.range q.start.size).mapM q.start.get

/-- part 0 has the boundary edges {1, 2, 12} and {1, 11}, and the inner edge {2, 3} -/
def coreWorld : List Input :=
  [{ hyper := true, verts := [1, 2, 3], wgts := [], types := [⟨[0, 1, 2], [[1, 2, 12], [1, 11], [2, 3]], []⟩] },
   { hyper := true, verts := [11], wgts := [], types := [⟨[1], [[1, 11]], []⟩] },
   { hyper := true, verts := [12], wgts := [], types := [⟨[0], [[1, 2, 12]], []⟩] }]
def coreOwn : Gid → Nat := fun v => if v = 11 then 1 else if v = 12 then 2 else 0
def coreHG : List (List HEdge) := [[⟨0, [1, 2, 12], 1⟩, ⟨1, [1, 11], 1⟩, ⟨2, [2, 3], 1⟩]]

theorem coreWorld_dist : HDist coreHG coreWorld coreOwn := by
  refine ⟨?_, by decide, ?_, ?_, by decide, ?_, ?_⟩
  · intro i hi
    simp only [coreWorld, List.mem_cons, List.not_mem_nil, or_false] at hi
    rcases hi with rfl | rfl | rfl
    all_goals
      refine ⟨by decide, by decide, ?_⟩
      intro e he
      simp only [List.mem_cons, List.not_mem_nil, or_false] at he
      subst he; exact ⟨by decide, by decide, by decide⟩
  · decide
  · decide
  · decide
  · intro p hp t ht ht'
    have h1 : p = 0 ∨ p = 1 ∨ p = 2 := by simp [coreWorld] at hp; omega
    have h2 : t = 0 := by simp [coreHG] at ht'; exact ht'
    subst h2
    rcases h1 with rfl | rfl | rfl <;> decide +revert

/-- the hypotheses hold of a concrete part with ghosts; the edge {1, 11} (index 1, handle 2), two steps from the core
{2, 3}, is shown before {1, 2, 12} (index 0, handle 1), one step from it: not the index order -/
example : HDist coreHG coreWorld coreOwn ∧ Touched coreOwn 0 (coreWorld[0]'(by decide)) ∧
    Leaves coreOwn 0 [[1, 2, 12], [1, 11], [2, 3]] 0 ∧ Leaves coreOwn 0 [[1, 2, 12], [1, 11], [2, 3]] 1 ∧
    ¬ Leaves coreOwn 0 [[1, 2, 12], [1, 11], [2, 3]] 2 ∧
    distShown coreWorld coreOwn 0 true = .ok [2, 1] ∧ distShown coreWorld coreOwn 0 false = .ok [2, 1] :=
  ⟨coreWorld_dist, ⟨_, List.mem_cons_self, [1, 11], by decide, 11, by decide, by decide⟩, by decide, by decide, by decide,
    by decide +kernel, by decide +kernel⟩

/-- the distances of the example: {2, 3} is the core of the component of {1, 2, 12} and {1, 11} -/
example : IsDist (Share [1, 2, 3] [[1, 2, 12], [1, 11], [2, 3]]) (fun x => x = 2) 0 1 ∧
    IsDist (Share [1, 2, 3] [[1, 2, 12], [1, 11], [2, 3]]) (fun x => x = 2) 1 2 := by
  have h1 : Share [1, 2, 3] [[1, 2, 12], [1, 11], [2, 3]] 2 0 := ⟨2, by decide, by decide, by decide⟩
  have h2 : Share [1, 2, 3] [[1, 2, 12], [1, 11], [2, 3]] 0 1 := ⟨1, by decide, by decide, by decide⟩
  have h3 : ¬ Share [1, 2, 3] [[1, 2, 12], [1, 11], [2, 3]] 2 1 := by
    rintro ⟨v, -, a, b⟩
    simp at a b
    omega
  refine ⟨⟨Or.inr ⟨2, rfl, h1⟩, ?_⟩, ⟨Or.inr ⟨0, Or.inr ⟨2, rfl, h1⟩, h2⟩, ?_⟩⟩
  · intro m hm
    have : m = 0 := by omega
    subst this
    simp [Within]
  · intro m hm
    have : m = 0 ∨ m = 1 := by omega
    rcases this with rfl | rfl
    · simp [Within]
    · rintro (h | ⟨f, hf, hs⟩)
      · simp [Within] at h
      · have : f = 2 := hf
        subst this
        exact h3 hs

/-- part 0 has three components: {1, 11} and {1, 2}; {3, 11}; {4, 11} and {4, 12} -/
def compWorld : List Input :=
  [{ hyper := true, verts := [1, 2, 3, 4], wgts := [], types := [⟨[0, 1, 2, 3, 4], [[4, 11], [1, 11], [3, 11], [4, 12], [1, 2]], []⟩] },
   { hyper := true, verts := [11, 12], wgts := [], types := [⟨[0, 1, 2, 3], [[4, 11], [1, 11], [3, 11], [4, 12]], []⟩] }]
def compOwn : Gid → Nat := fun v => if v = 11 ∨ v = 12 then 1 else 0
def compHG : List (List HEdge) := [[⟨0, [4, 11], 1⟩, ⟨1, [1, 11], 1⟩, ⟨2, [3, 11], 1⟩, ⟨3, [4, 12], 1⟩, ⟨4, [1, 2], 1⟩]]

theorem compWorld_dist : HDist compHG compWorld compOwn := by
  refine ⟨?_, by decide, ?_, ?_, by decide, ?_, ?_⟩
  · intro i hi
    simp only [compWorld, List.mem_cons, List.not_mem_nil, or_false] at hi
    rcases hi with rfl | rfl
    all_goals
      refine ⟨by decide, by decide, ?_⟩
      intro e he
      simp only [List.mem_cons, List.not_mem_nil, or_false] at he
      subst he; exact ⟨by decide, by decide, by decide⟩
  · decide
  · decide
  · decide
  · intro p hp t ht ht'
    have h1 : p = 0 ∨ p = 1 := by simp [compWorld] at hp; omega
    have h2 : t = 0 := by simp [compHG] at ht'; exact ht'
    subst h2
    rcases h1 with rfl | rfl <;> decide +revert

/-- C57 on a concrete part (handles are indices plus 1): the single edge {3, 11} (index 2) first, then {4, 12} and {4, 11} (3 and 0), equally near
the boundary but two, then {1, 11} (1), whose core {1, 2} is one step from the boundary -/
example : HDist compHG compWorld compOwn ∧ Touched compOwn 0 (compWorld[0]'(by decide)) ∧
    distShown compWorld compOwn 0 true = .ok [3, 4, 1, 2] ∧ distShown compWorld compOwn 0 false = .ok [3, 4, 1, 2] :=
  ⟨compWorld_dist, ⟨_, List.mem_cons_self, [1, 11], by decide, 11, by decide, by decide⟩, by decide +kernel, by decide +kernel⟩

/-- **Defect** (C56): a part without ghosts starts the first search from "edge 2" (engpar_queue.cpp:260-262).  If the part
has exactly one or two edges of type 0, `visited[2]` is out of bounds, for every such part of every hypergraph and for
both traversals. -/
theorem c56_small_part_ub (H : List (List HEdge)) (ins : List Input) (own : Gid → Nat) (hd : HDist H ins own)
    (owns : List (GMap Part)) (ho : OwnMaps ins own owns) (o1 o2 : Nat → List Nat) (ho1 : Orders ins.length o1)
    (ho2 : Orders ins.length o2) (p : Nat) (hp : p < ins.length) (ht : 0 < ins[p].types.length) (push : Bool)
    (h0 : ¬ Touched own p ins[p]) (h1 : ins[p].types[0].pins.length = 1 ∨ ins[p].types[0].pins.length = 2) :
    ∃ (gs gs' : List Graph) (g : Graph), buildAll ins = .ok gs ∧ constructGhosts gs owns o1 o2 = .ok gs' ∧
      gs'[p]? = some g ∧ distanceQueue push g = .ub := by
  obtain ⟨gs, e1, hb⟩ := buildAll_spec ins hd.wf
  obtain ⟨gs', e2, hw, -⟩ := constructGhosts_spec hb hd.dist (hdist_uniform hd) ho ho1 ho2
  have hg : p < gs'.length := by rw [hw.1]; exact hp
  obtain ⟨ghosts, hr⟩ := hw.2 p hg hp
  exact ⟨gs, gs', gs'[p], e1, e2, List.getElem?_eq_getElem hg, distQueue_small push hd hp hr ht h0 h1⟩

/-- two parts that share nothing -/
def asunderWorld : List Input :=
  [{ hyper := true, verts := [1, 2], wgts := [], types := [⟨[0], [[1, 2]], []⟩] },
   { hyper := true, verts := [11], wgts := [], types := [⟨[1], [[11]], []⟩] }]

example : HDist [[⟨0, [1, 2], 1⟩, ⟨1, [11], 1⟩]] asunderWorld coreOwn ∧ ¬ Touched coreOwn 0 (asunderWorld[0]'(by decide)) ∧
    distShown asunderWorld coreOwn 0 true = .ub ∧ distShown asunderWorld coreOwn 0 false = .ub := by
  refine ⟨⟨?_, by decide, by decide, by decide, by decide, by decide, ?_⟩, ?_, by decide +kernel, by decide +kernel⟩
  · intro i hi
    simp only [asunderWorld, List.mem_cons, List.not_mem_nil, or_false] at hi
    rcases hi with rfl | rfl
    all_goals
      refine ⟨by decide, by decide, ?_⟩
      intro e he
      simp only [List.mem_cons, List.not_mem_nil, or_false] at he
      subst he; exact ⟨by decide, by decide, by decide⟩
  · intro p hp t ht ht'
    have h1 : p = 0 ∨ p = 1 := by simp [asunderWorld] at hp; omega
    have h2 : t = 0 := by simp at ht'; exact ht'
    subst h2
    rcases h1 with rfl | rfl <;> decide +revert
  · rintro ⟨t, ht, ps, hps, v, hv, hne⟩
    simp only [asunderWorld, List.getElem_cons_zero, List.mem_cons, List.not_mem_nil, or_false] at ht
    subst ht
    simp only [List.mem_cons, List.not_mem_nil, or_false] at hps
    subst hps
    simp only [List.mem_cons, List.not_mem_nil, or_false] at hv
    rcases hv with rfl | rfl <;> exact hne rfl

/-- a traditional graph on two parts; part 0 holds 1 → 11, 1 → 2, 2 → 3 and 2 → 4 -/
def tradFork : List Input :=
  [{ hyper := false, verts := [1, 2, 3, 4], wgts := [], types := [⟨[0, 1, 2, 3], [[1, 11], [1, 2], [2, 3], [2, 4]], []⟩] },
   { hyper := false, verts := [11], wgts := [], types := [⟨[4], [[11, 1]], []⟩] }]

/-- **Defect** (C56): with the distance queue switched on for a traditional graph (`useDistanceQueue` is a public field of
the input), both traversals read out of bounds on this part: the first because edges of earlier rounds, reached again
along directed edges, still carry labels of sets that no longer exist (engpar_queue.cpp:120-137), the second because it
takes the neighbouring vertices in the edge list for edges (engpar_queue.cpp:222-234). -/
theorem c56_traditional_ub : (∀ i ∈ tradFork, i.WF ∧ i.hyper = false) ∧
    distShown tradFork coreOwn 0 true = .ub ∧ distShown tradFork coreOwn 0 false = .ub := by
  refine ⟨?_, by decide +kernel, by decide +kernel⟩
  intro i hi
  simp only [tradFork, List.mem_cons, List.not_mem_nil, or_false] at hi
  rcases hi with rfl | rfl
  all_goals
    refine ⟨⟨by decide, by decide, ?_⟩, rfl⟩
    intro e he
    simp only [List.mem_cons, List.not_mem_nil, or_false] at he
    subst he; exact ⟨by decide, by decide, by decide⟩

/-- **C56, no edges.**  A graph whose type 0 was never constructed, or that has no edges of it, gives an empty queue: nothing else is
looked at. -/
theorem c56_no_edges (push : Bool) {g : Graph} (h : g.types[0]? = some none ∨ ∃ e, g.types[0]? = some (some e) ∧ e.numEdges = 0) :
    ∃ q, distanceQueue push g = .ok q ∧ Shows q [] := by
  refine ⟨Queue.new 0, ?_, (QRep.new 0).shows⟩
  rcases h with h | ⟨e, h, h0⟩
  · unfold distanceQueue edgeCount; rw [h]; rfl
  · unfold distanceQueue edgeCount; rw [h]; simp only [h0]; rfl

example : ∃ q, distanceQueue true (emptyGraph 0 2) = .ok q ∧ Shows q [] := c56_no_edges true (Or.inl rfl)

end Verif.Part
