import Verif.Agi.GraphModel
import Mathlib.Data.List.Induction
import Mathlib.Data.List.Basic
/-!
# Numbering of vertices: the list of known gids

`known` lists the gids in local-id order: local vertices, then ghosts.  Pure helper functions for the
proofs about construction.
-/
namespace Verif.Agi

/-- local id of a gid in a list of known gids -/
def lookup (known : List Gid) : GMap Nat := fun v => if v ∈ known then some (known.idxOf v) else none

/-- adding the new gids of `pins` in order of first appearance -/
def extend (known : List Gid) (pins : List Gid) : List Gid :=
  pins.foldl (fun k v => if v ∈ k then k else k ++ [v]) known

theorem extend_append (k p q : List Gid) : extend k (p ++ q) = extend (extend k p) q := by
  simp [extend, List.foldl_append]

theorem extend_snoc (k p : List Gid) (v : Gid) :
    extend k (p ++ [v]) = if v ∈ extend k p then extend k p else extend k p ++ [v] := by
  rw [extend_append]; rfl

theorem extend_prefix (k p : List Gid) : k <+: extend k p := by
  induction p using List.reverseRecOn with
  | nil => exact List.prefix_rfl
  | append_singleton p v ih =>
    rw [extend_snoc]
    split
    · exact ih
    · exact ih.trans (List.prefix_append _ _)

theorem mem_extend (k p : List Gid) (v : Gid) : v ∈ extend k p ↔ v ∈ k ∨ v ∈ p := by
  induction p using List.reverseRecOn with
  | nil => simp [extend]
  | append_singleton p w ih =>
    rw [extend_snoc]
    split
    · rename_i h
      rw [ih]
      simp only [List.mem_append, List.mem_singleton]
      constructor
      · rintro (h | h) <;> simp [h]
      · rintro (h1 | h1 | rfl)
        · exact .inl h1
        · exact .inr h1
        · exact ih.mp h
    · simp [ih, or_assoc]

theorem nodup_extend {k : List Gid} (p : List Gid) (h : k.Nodup) : (extend k p).Nodup := by
  induction p using List.reverseRecOn with
  | nil => exact h
  | append_singleton p w ih =>
    rw [extend_snoc]
    split
    · exact ih
    · rename_i hw
      rw [List.nodup_append]
      refine ⟨ih, by simp, ?_⟩
      intro a ha b hb
      simp at hb; subst hb
      intro he; subst he; exact hw ha

theorem idxOf_prefix {k l : List Gid} {v : Gid} (h : k <+: l) (hv : v ∈ k) :
    l.idxOf v = k.idxOf v := by
  obtain ⟨r, rfl⟩ := h
  exact List.idxOf_append_of_mem hv

theorem getElem_prefix {α : Type} {k l : List α} (h : k <+: l) {i : Nat} (hi : i < k.length) :
    l[i]? = some k[i] := by
  obtain ⟨r, rfl⟩ := h
  rw [List.getElem?_append_left hi]; simp [hi]

theorem lookup_of_mem {k : List Gid} {v : Gid} (h : v ∈ k) : lookup k v = some (k.idxOf v) := by
  simp [lookup, h]

theorem lookup_of_not_mem {k : List Gid} {v : Gid} (h : v ∉ k) : lookup k v = none := by
  simp [lookup, h]

theorem lookup_snoc {k : List Gid} {v : Gid} (h : v ∉ k) :
    GMap.put (lookup k) v k.length = lookup (k ++ [v]) := by
  funext x
  simp only [GMap.put, lookup]
  split
  · subst_vars; simp [List.idxOf_append, h]
  · rename_i hx
    simp only [List.mem_append, List.mem_singleton, hx, or_false]
    split
    · rw [List.idxOf_append_of_mem ‹_›]
    · rfl

/-- for a vertex whose number is below the number of locals: it is that local vertex -/
theorem idxOf_lt_iff {verts rest : List Gid} {v : Gid} :
    (verts ++ rest).idxOf v < verts.length ↔ v ∈ verts := by
  by_cases h : v ∈ verts
  · simp [h, List.idxOf_append_of_mem h, List.idxOf_lt_length_of_mem h]
  · simp [h, List.idxOf_append]

end Verif.Agi
