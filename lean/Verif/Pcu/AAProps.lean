import Verif.Pcu.AAContents
/-!
# C26 – the peer tree is an ordered set with logarithmic depth

The specification is a partial function from keys to entries.
-/
namespace Verif.Pcu.AA

variable {α : Type}

/-- operations on a tree -/
inductive Op (α : Type) where
  | insert (x : α)
  | find (k : Int)
  | remove (k : Int)

/-- **Specification**: a finite map from keys to entries; each operation returns an entry or NULL.
Inserting under an existing key keeps and returns the existing entry. -/
def specStep (key : α → Int) (m : Int → Option α) : Op α → Option α × (Int → Option α)
  | .insert x =>
    match m (key x) with
    | some y => (some y, m)
    | none => (some x, fun k => if k = key x then some x else m k)
  | .find k => (m k, m)
  | .remove k => (m k, fun k' => if k' = k then none else m k')

/-- outputs of a history under the specification, and the final map -/
def specRun (key : α → Int) : (Int → Option α) → List (Op α) → List (Option α) × (Int → Option α)
  | m, [] => ([], m)
  | m, o :: os =>
    let (r, m') := specStep key m o
    let (rs, m'') := specRun key m' os
    (r :: rs, m'')

/-- one operation of the model -/
def step (key : α → Int) (t : AA α) : Op α → Outcome (Option α × AA α)
  | .insert x => do
    let (r, t') ← insert key x t
    return (some r, t')
  | .find k => .ok (find key k t, t)
  | .remove k => remove key k t

/-- a history of the model -/
def run (key : α → Int) : AA α → List (Op α) → Outcome (List (Option α) × AA α)
  | t, [] => .ok ([], t)
  | t, o :: os => do
    let (r, t') ← step key t o
    let (rs, t'') ← run key t' os
    return (r :: rs, t'')

/-- well-formedness: balanced and sorted -/
def WF (key : α → Int) (t : AA α) : Prop := Inv t ∧ Sorted key t.toList

theorem step_refines (key : α → Int) (t : AA α) (h : WF key t) (o : Op α) :
    ∃ t', step key t o = .ok ((specStep key (fun k => lookupL key k t.toList) o).1, t') ∧
      WF key t' ∧
      (fun k => lookupL key k t'.toList) = (specStep key (fun k => lookupL key k t.toList) o).2 := by
  obtain ⟨hI, hS⟩ := h
  cases o with
  | insert x =>
    obtain ⟨res, t', e, hI', -⟩ := insert_inv key x t hI
    obtain ⟨hc, hres⟩ := insert_contents key x t hS e
    refine ⟨t', ?_, ⟨hI', ?_⟩, ?_⟩
    · simp only [step, e, Outcome.bind_ok, specStep, hres]
      cases lookupL key (key x) t.toList <;> simp
    · rw [hc]; exact sorted_insertL hS
    · funext k
      rw [hc, lookupL_insertL hS]
      simp only [specStep]
      by_cases hk : k = key x
      · subst hk; cases hlk : lookupL key (key x) t.toList <;> simp [hlk]
      · cases hlk : lookupL key (key x) t.toList <;> simp [hk]
  | find k =>
    exact ⟨t, by simp [step, specStep, find_eq key k t hS], ⟨hI, hS⟩, rfl⟩
  | remove k =>
    obtain ⟨t', e, hI', hc⟩ := remove_spec key k t hI hS
    refine ⟨t', by simp [step, specStep, e], ⟨hI', by rw [hc]; exact sorted_filter _ hS⟩, ?_⟩
    funext k'
    rw [hc, lookupL_filter]; rfl

theorem run_refines (key : α → Int) (ops : List (Op α)) (t : AA α) (h : WF key t) :
    ∃ t', run key t ops = .ok ((specRun key (fun k => lookupL key k t.toList) ops).1, t') ∧
      WF key t' ∧
      (fun k => lookupL key k t'.toList) = (specRun key (fun k => lookupL key k t.toList) ops).2 := by
  induction ops generalizing t with
  | nil => exact ⟨t, rfl, h, rfl⟩
  | cons o os ih =>
    obtain ⟨t1, e1, h1, m1⟩ := step_refines key t h o
    obtain ⟨t2, e2, h2, m2⟩ := ih t1 h1
    refine ⟨t2, ?_, h2, ?_⟩
    · simp only [run, e1, Outcome.bind_ok, e2, specRun]
      rw [m1]; rfl
    · simp only [specRun]; rw [m2, m1]

/-- **C26 (behaviour).**  Every history of inserts, finds and removes starting from the empty tree
runs without undefined behaviour (in particular the shared sentinel is never overwritten), every
operation returns what the map specification returns, and afterwards `find` agrees with the map on
every key. -/
theorem c26_history (key : α → Int) (ops : List (Op α)) :
    ∃ t, run key nil ops = .ok ((specRun key (fun _ => none) ops).1, t) ∧
      ∀ k, find key k t = (specRun key (fun _ => none) ops).2 k := by
  obtain ⟨t, e, h, hm⟩ := run_refines key ops nil ⟨trivial, List.Pairwise.nil⟩
  have h0 : (fun k => lookupL key k (nil : AA α).toList) = fun _ => none := rfl
  rw [h0] at e hm
  refine ⟨t, e, fun k => ?_⟩
  rw [find_eq key k t h.2, ← hm]

/-- **C26 (order and size).**  After any history the in-order traversal (used to deliver messages by
rank) lists exactly the entries of the map in strictly increasing key order, and `count` is their
number. -/
theorem c26_traversal (key : α → Int) (ops : List (Op α)) :
    ∃ rs t, run key nil ops = .ok (rs, t) ∧
      t.toList.Pairwise (fun a b => key a < key b) ∧
      (∀ x, x ∈ t.toList ↔ (specRun key (fun _ => none) ops).2 (key x) = some x) ∧
      t.count = t.toList.length := by
  obtain ⟨t, e, h, hm⟩ := run_refines key ops nil ⟨trivial, List.Pairwise.nil⟩
  have h0 : (fun k => lookupL key k (nil : AA α).toList) = fun _ => none := rfl
  rw [h0] at e hm
  refine ⟨_, t, e, h.2, fun x => ?_, count_eq t⟩
  rw [← hm]
  constructor
  · intro hx
    obtain ⟨A, B, hAB⟩ := List.append_of_mem hx
    have hs := h.2
    rw [hAB, sorted_append_cons] at hs
    show lookupL key (key x) t.toList = some x
    rw [hAB, lookupL_append, lookupL_none (fun a ha => by have := hs.2.2.1 a ha; omega), lookupL_cons]
    simp
  · intro hx
    exact List.mem_of_find?_eq_some hx

/-- **C26 (balance).**  After any history of inserts, finds and removes the depth of the tree – the
recursion depth and cost of every further operation – is at most `2·log₂(n+1)` for `n` entries. -/
theorem c26_depth (key : α → Int) (ops : List (Op α)) :
    ∃ rs t, run key nil ops = .ok (rs, t) ∧ t.depth ≤ 2 * Nat.log2 (t.toList.length + 1) := by
  obtain ⟨t, e, h, -⟩ := run_refines key ops nil ⟨trivial, List.Pairwise.nil⟩
  refine ⟨_, t, e, ?_⟩
  have hd := (depth_le h.1).1
  have hc := level_count h.1
  rw [count_eq] at hc
  have : t.level ≤ Nat.log2 (t.toList.length + 1) := (Nat.le_log2 (by omega)).mpr hc
  omega

/-- non-vacuity: a concrete history with rotations in both directions, a repeated key and removals
behaves as the specification says (the theorems above have no hypotheses) -/
example : ∃ t, run (fun p : Int × Nat => p.1) nil
    [.insert (3, 0), .insert (1, 1), .insert (2, 2), .insert (2, 9), .insert (7, 3), .insert (6, 4),
      .remove 2, .find 2, .remove 5, .find 7] =
    .ok ([some (3, 0), some (1, 1), some (2, 2), some (2, 2), some (7, 3), some (6, 4),
      some (2, 2), none, none, some (7, 3)], t) := ⟨_, rfl⟩

end Verif.Pcu.AA
