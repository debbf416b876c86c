import Verif.Part.SidesModel
import Mathlib.Data.List.Nodup
import Mathlib.Algebra.Order.Ring.Rat
import Mathlib.Tactic.Ring
import Mathlib.Tactic.Linarith
/-!
# Lemmas about containers
-/
namespace Verif.Part

theorem lookup_putA {α : Type} (k : Int) (v : α) (x : Int) : ∀ (l : List (Int × α)),
    (putA k v l).lookup x = if x = k then some v else l.lookup x
  | [] => by
    by_cases h : x = k
    · subst h; simp [putA]
    · have : (x == k) = false := by simpa using h
      simp [putA, h, List.lookup_cons, this]
  | (a, b) :: l => by
    rw [putA]
    by_cases hak : a = k
    · subst hak
      rw [if_pos rfl, List.lookup_cons, List.lookup_cons]
      by_cases h : x = a
      · subst h; simp
      · have : (x == a) = false := by simpa using h
        simp [this, h]
    · rw [if_neg hak, List.lookup_cons, List.lookup_cons, lookup_putA k v x l]
      by_cases h : x = a
      · subst h; simp [hak]
      · have : (x == a) = false := by simpa using h
        simp [this]

theorem find_put {α : Type} (c : Cont α) (k : Int) (v : α) (x : Int) :
    (c.put k v).find x = if x = k then some v else c.find x := lookup_putA k v x c.d

theorem find_set {α : Type} [Zero α] [Sub α] [Add α] (c : Cont α) (k : Int) (v : α) (x : Int) :
    (c.set k v).find x = if x = k then some v else c.find x := lookup_putA k v x c.d

theorem find_new {α : Type} [Zero α] (x : Int) : (Cont.new : Cont α).find x = none := rfl

theorem keys_putA {α : Type} (k : Int) (v : α) : ∀ (l : List (Int × α)),
    (putA k v l).map Prod.fst = if k ∈ l.map Prod.fst then l.map Prod.fst else l.map Prod.fst ++ [k]
  | [] => by simp [putA]
  | (a, b) :: l => by
    rw [putA]
    by_cases hak : a = k
    · subst hak; simp
    · have ih := keys_putA k v l
      rw [if_neg hak, List.map_cons, ih, List.map_cons]
      by_cases hk : k ∈ l.map Prod.fst
      · rw [if_pos hk, if_pos (by simp [hk])]
      · rw [if_neg hk, if_neg (by simp only [List.mem_cons, not_or]; exact ⟨fun h => hak h.symm, hk⟩)]
        rfl

theorem nodup_putA {α : Type} (k : Int) (v : α) (l : List (Int × α)) (h : (l.map Prod.fst).Nodup) :
    ((putA k v l).map Prod.fst).Nodup := by
  rw [keys_putA]
  split
  · exact h
  · rename_i hk
    rw [List.nodup_append]
    refine ⟨h, by simp, ?_⟩
    intro a ha b hb
    simp at hb; subst hb
    rintro rfl
    exact hk ha

theorem lookup_iff_mem {α : Type} : ∀ (l : List (Int × α)), (l.map Prod.fst).Nodup → ∀ k v,
    (l.lookup k = some v ↔ (k, v) ∈ l)
  | [], _, k, v => by simp
  | (a, b) :: l, h, k, v => by
    rw [List.map_cons, List.nodup_cons] at h
    rw [List.lookup_cons]
    have ih := lookup_iff_mem l h.2 k v
    by_cases hk : k = a
    · subst hk
      simp only [beq_self_eq_true, List.mem_cons, Prod.mk.injEq, true_and, Option.some.injEq]
      constructor
      · intro h; exact .inl h.symm
      · rintro (h' | h')
        · exact h'.symm
        · exact absurd (List.mem_map.mpr ⟨_, h', rfl⟩) h.1
    · have : (k == a) = false := by simpa using hk
      simp [this, ih, hk]

theorem lookup_isSome {α : Type} (l : List (Int × α)) (k : Int) :
    (l.lookup k).isSome = true ↔ k ∈ l.map Prod.fst := by
  induction l with
  | nil => simp
  | cons p l ih =>
    obtain ⟨a, b⟩ := p
    rw [List.lookup_cons]
    by_cases hk : k = a
    · subst hk; simp
    · have : (k == a) = false := by simpa using hk
      simp only [this, Bool.false_eq_true, if_false, List.map_cons, List.mem_cons, hk, false_or]
      exact ih

theorem has_iff {α : Type} (c : Cont α) (k : Int) : c.has k = true ↔ k ∈ c.d.map Prod.fst :=
  lookup_isSome c.d k

theorem truncD_int (n : Int) : truncD (n : Rat) = n := by
  simp [truncD]

theorem truncD_add (a n : Int) : truncD ((a : Rat) + (n : Rat)) = a + n := by
  rw [show (a : Rat) + (n : Rat) = ((a + n : Int) : Rat) by push_cast; rfl, truncD_int]

/-- adding the weight of an edge to the sides of its parts -/
theorem foldl_addSide (me : Int) (n : Int) : ∀ (res : List Int) (s : Cont Int), res.Nodup →
    (s.d.map Prod.fst).Nodup →
    let s' := res.foldl (addSide me (n : Rat)) s
    (∀ q, s'.find q = if q ∈ res ∧ q ≠ me then some (s.get q + n) else s.find q) ∧
    s'.total = s.total ∧ (s'.d.map Prod.fst).Nodup
  | [], s, _, hk => by simp [hk]
  | p :: res, s, hnd, hk => by
    rw [List.nodup_cons] at hnd
    rw [List.foldl_cons]
    have hk' : ((addSide me (n : Rat) s p).d.map Prod.fst).Nodup := by
      unfold addSide
      split
      · exact nodup_putA _ _ _ hk
      · exact hk
    obtain ⟨h1, h2, h3⟩ := foldl_addSide me n res (addSide me n s p) hnd.2 hk'
    refine ⟨?_, ?_, h3⟩
    · intro q
      rw [h1 q]
      have hf : (addSide me (n : Rat) s p).find q =
          if q = p ∧ q ≠ me then some (s.get q + n) else s.find q := by
        unfold addSide
        by_cases hp : p ≠ me
        · rw [if_pos hp, find_put, truncD_add]
          by_cases hq : q = p
          · subst hq; simp [hp]
          · simp [hq]
        · rw [if_neg hp]
          push Not at hp
          subst hp
          by_cases hq : q = p
          · subst hq; simp
          · simp [hq]
      have hg : q ≠ p → (addSide me (n : Rat) s p).get q = s.get q := by
        intro hq
        unfold Cont.get
        rw [hf, if_neg (by simp [hq])]
      by_cases hq : q = p
      · subst hq
        rw [if_neg (by simp [hnd.1]), hf]
        by_cases hm : q = me
        · simp [hm]
        · simp [hm]
      · rw [hg hq, hf]
        simp [hq]
    · try dsimp only at h2 ⊢
      rw [h2]
      unfold addSide
      split <;> rfl

end Verif.Part
