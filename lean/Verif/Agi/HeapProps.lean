import Verif.Agi.HeapInv
/-!
# C82: a graph gives its memory back

The heap is a list of allocated blocks; releasing a block that is not in it, or with the wrong form of `delete`, is undefined.  A history
is a constructor and any list of calls.  What the user may do (`Proper`), what he still holds (`Known.kept`) and what the calls lose
(`lost`) are read off the calls alone (HeapSpec.lean).
-/
namespace Verif.Agi.Heap

theorem tags_length (l : List (Option Tag)) : (tagsBlocks l).length = ((l.map Option.isSome).map tagCost).sum := by
  unfold tagsBlocks
  induction l with
  | nil => rfl
  | cons a l ih =>
    rw [List.flatMap_cons, List.length_append, ih, List.map_cons, List.map_cons, List.sum_cons]
    cases a <;> rfl

theorem plans_length (l : List (Option Plan)) : (plansBlocks l).length =
    ((l.map (Option.map fun p => p.tag.isSome)).map planCost).sum := by
  unfold plansBlocks
  induction l with
  | nil => rfl
  | cons a l ih =>
    rw [List.flatMap_cons, List.length_append, ih, List.map_cons, List.map_cons, List.sum_cons]
    cases a with
    | none => rfl
    | some p =>
      obtain ⟨o, t⟩ := p
      cases t <;> rfl

/-- No proper history releases anything twice or with the wrong form of `delete`. -/
theorem c82_no_ub (m : Maker) (ops : List Op) (hp : Proper (Known.begin m) ops) : run m ops ≠ .ub := by
  have h := run_inv m ops hp
  intro e
  rw [e] at h
  exact h

/-- After any proper history the graph can be destroyed, and then exactly the blocks the calls lost and the tags and plans the user still
holds are allocated. -/
theorem c82_memory (m : Maker) (ops : List Op) (hp : Proper (Known.begin m) ops) (s : St) (hs : run m ops = .ok s) :
    ∃ s', destroyGraph s = .ok s' ∧ s'.live.length = lost (Known.begin m) ops + (known (Known.begin m) ops).kept := by
  have h := run_inv m ops hp
  rw [hs] at h
  obtain ⟨l, hg, hl, ht, hpl⟩ := h
  obtain ⟨s', e, o, n, _⟩ := own_destroy hg.own
  refine ⟨s', e, ?_⟩
  have := o.length_eq
  rw [held_none n, List.nil_append, List.length_append, List.length_append, tags_length, plans_length, ht, hpl, hl] at this
  rw [this]
  unfold Known.kept
  omega

/-- A user who gives back his tags, gives back or uses his plans, sets coordinates once and constructs ghosts once per graph leaves nothing.
Missing from the property: with `setCoords` or `constructGhosts` called again on the same graph, blocks are lost (`c82_coords_leak`,
`c82_ghosts_leak`). -/
theorem c82_clean_partial (m : Maker) (ops : List Op) (hp : Proper (Known.begin m) ops) (s : St) (hs : run m ops = .ok s)
    (hk : ∀ b ∈ (known (Known.begin m) ops).tags, b = false) (hq : ∀ p ∈ (known (Known.begin m) ops).plans, p = none)
    (hl : lost (Known.begin m) ops = 0) : ∃ s', destroyGraph s = .ok s' ∧ s'.live = [] := by
  obtain ⟨s', e, h⟩ := c82_memory m ops hp s hs
  refine ⟨s', e, List.eq_nil_of_length_eq_zero ?_⟩
  have h1 : ∀ l : List Bool, (∀ b ∈ l, b = false) → (l.map tagCost).sum = 0 := by
    intro l
    induction l with
    | nil => intro _; rfl
    | cons a l ih =>
      intro hx
      rw [List.map_cons, List.sum_cons, ih fun b hb => hx b (List.mem_cons_of_mem _ hb), hx a List.mem_cons_self]
      rfl
  have h2 : ∀ l : List (Option Bool), (∀ b ∈ l, b = none) →
      (l.map planCost).sum = 0 := by
    intro l
    induction l with
    | nil => intro _; rfl
    | cons a l ih =>
      intro hx
      rw [List.map_cons, List.sum_cons, ih fun b hb => hx b (List.mem_cons_of_mem _ hb), hx a List.mem_cons_self]
      rfl
  rw [h, hl]
  unfold Known.kept
  rw [h1 _ hk, h2 _ hq]

/-- The arrays of a graph that exists are as many as its user knows: nothing stays behind while it is used.  At every moment the blocks are
those the pointers of the graph hold, those of the user and the lost ones. -/
theorem c82_during (m : Maker) (ops : List Op) (hp : Proper (Known.begin m) ops) (s : St) (hs : run m ops = .ok s) :
    s.live.length = (held s.g fields).length + (known (Known.begin m) ops).kept + lost (Known.begin m) ops := by
  have h := run_inv m ops hp
  rw [hs] at h
  obtain ⟨l, hg, hl, ht, hpl⟩ := h
  have := hg.own.length_eq
  rw [List.length_append, List.length_append, List.length_append, tags_length, plans_length, ht, hpl, hl] at this
  rw [this]
  unfold Known.kept
  omega

/-! ## Where the code does not keep the property -/

def liveAfter (m : Maker) (ops : List Op) : Outcome Nat := do
  let s ← run m ops
  let s ← destroyGraph s
  return s.live.length

/-- coordinates set twice: the first array is lost (`setCoords` on a mesh graph, which has coordinates, is enough) -/
theorem c82_coords_leak : liveAfter .empty [.verts, .setCoords, .setCoords] = .ok 1 ∧ liveAfter (.mesh 1 true true) [.setCoords] = .ok 1 := by
  constructor <;> decide +kernel

/-- ghosts constructed twice after one `constructVerts`: the owners, the object and the array of the ghost weights are lost -/
theorem c82_ghosts_leak : liveAfter .empty [.verts, .edges true, .ghosts true true, .edges true, .ghosts true true] = .ok 3 := by
  decide +kernel

/-- `migrate` takes the plan: deleting it afterwards releases it twice -/
theorem c82_plan_twice : run (.binary true true) [.newPlan true, .migrate 0 true false [true] true, .freePlan 0] = .ub := by
  rfl

/-- the same with the object itself: without the user's book-keeping -/
theorem c82_plan_twice_heap : (do
    let s ← make (.binary true true)
    let (p, s) := newPlan true s
    let s ← migrate p true false [true] true s
    freePlan p s) = (.ub : Outcome St) := by
  rfl

/-- vertex cuts: `delete` of an array, on every graph that has edges of type 0 -/
theorem c82_vertex_cut (gh many : Bool) : (do
    let s ← make (.binary gh many)
    vertexCutBegin s) = (.ub : Outcome St) := by
  cases gh <;> cases many <;> rfl

/-! ## Non-vacuity: long histories -/

def busy : List Op :=
  [.verts, .setCoords, .edges true, .edges false, .ghosts true true, .newTag, .newPlan true, .vev 0, .vev 0, .eve 1,
   .migrate 0 true true [true, true] true, .removeEdges 1, .edges true, .setOriginal, .resetOwnership, .freeTag 0, .newPlan false,
   .migrateWeights 1, .repartition true false [true] true, .load true [true, false] true, .newPlan true, .freePlan 2, .setWeights]

example : Proper (Known.begin (.mesh 2 true true)) busy := by
  refine ⟨trivial, trivial, trivial, trivial, trivial, trivial, trivial, (by decide : 0 < 7), (by decide : 0 < 7), (by decide : 1 < 7), ⟨true, rfl⟩, (by decide : 1 < 7), trivial,
    trivial, trivial, rfl, trivial, ⟨false, rfl⟩, trivial, trivial, trivial, ⟨true, rfl⟩, trivial, trivial⟩

example : liveAfter (.mesh 2 true true) busy = .ok 0 ∧ lost (Known.begin (.mesh 2 true true)) busy = 0 ∧
    (known (Known.begin (.mesh 2 true true)) busy).kept = 0 := by
  refine ⟨by decide +kernel, by decide +kernel, by decide +kernel⟩

end Verif.Agi.Heap
