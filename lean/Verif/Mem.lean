import Verif.Base
/-!
# Memory blocks

A block obtained with `new T[n]` / `malloc`: a list of cells, `none` = not written yet.
Reading outside the block or reading an unwritten cell is undefined behaviour, and so is
writing outside the block.  `rd` is a read of an array the caller supplied.
-/
namespace Verif

/-- a block of memory -/
abbrev Mem (α : Type) := List (Option α)

namespace Mem

/-- `new T[n]` -/
def alloc {α : Type} (n : Nat) : Mem α := List.replicate n none

/-- a block every cell of which holds the corresponding element of the list -/
def ofList {α : Type} (l : List α) : Mem α := l.map some

/-- reading cell `i` -/
def load {α : Type} (m : Mem α) (i : Nat) : Outcome α :=
  match m[i]? with
  | some (some a) => .ok a
  | _ => .ub

/-- writing cell `i` -/
def store {α : Type} (m : Mem α) (i : Nat) (a : α) : Outcome (Mem α) :=
  if i < m.length then .ok (m.set i (some a)) else .ub

end Mem

/-- reading an array (or `std::vector`) supplied by the caller -/
def rd {α : Type} (l : List α) (i : Nat) : Outcome α := Outcome.ofOption l[i]?

/-- a pointer that may be NULL: using NULL is undefined behaviour -/
def deref {α : Type} (p : Option α) : Outcome α := Outcome.ofOption p

/-! ## lemmas -/

namespace Mem
variable {α : Type}

theorem load_ok {m : Mem α} {i : Nat} {a : α} (h : m[i]? = some (some a)) : m.load i = .ok a := by
  simp [load, h]

theorem store_ok {m : Mem α} {i : Nat} (a : α) (h : i < m.length) :
    m.store i a = .ok (m.set i (some a)) := by simp [store, h]

@[simp] theorem length_alloc (n : Nat) : (alloc n : Mem α).length = n := by simp [alloc]
@[simp] theorem length_ofList (l : List α) : (ofList l).length = l.length := by simp [ofList]

theorem load_ofList {l : List α} {i : Nat} (h : i < l.length) : (ofList l).load i = .ok l[i] := by
  apply load_ok; simp [ofList, h]

theorem getElem?_set' (m : Mem α) (i j : Nat) (x : Option α) :
    (m.set i x)[j]? = if i = j then (if i < m.length then some x else none) else m[j]? := by
  rw [List.getElem?_set]

end Mem

theorem rd_ok {α : Type} {l : List α} {i : Nat} (h : i < l.length) : rd l i = .ok l[i] := by
  simp [rd, h]

instance : LawfulMonad Outcome := LawfulMonad.mk'
  (id_map := by intro α x; cases x <;> rfl)
  (pure_bind := by intros; rfl)
  (bind_assoc := by intro α β γ x f g; cases x <;> rfl)

theorem mapM_ok {α β : Type} {f : α → Outcome β} {g : α → β} {l : List α}
    (h : ∀ x ∈ l, f x = .ok (g x)) : l.mapM f = .ok (l.map g) := by
  induction l with
  | nil => rfl
  | cons a l ih =>
    rw [List.mapM_cons, h a (by simp), Outcome.bind_ok, ih (fun x hx => h x (by simp [hx]))]
    rfl

/-- Loops: a monadic fold with an invariant indexed by what has been processed. -/
theorem foldlM_inv {σ α : Type} (f : σ → α → Outcome σ) (I : List α → σ → Prop) (l : List α)
    (hstep : ∀ pre x s, pre ++ [x] <+: l → I pre s → ∃ s', f s x = .ok s' ∧ I (pre ++ [x]) s')
    (s : σ) (h0 : I [] s) : ∃ s', l.foldlM f s = .ok s' ∧ I l s' := by
  suffices H : ∀ suf pre s, pre ++ suf = l → I pre s →
      ∃ s', suf.foldlM f s = Outcome.ok s' ∧ I l s' from H l [] s rfl h0
  intro suf
  induction suf with
  | nil => intro pre s hp hI; simp at hp; subst hp; exact ⟨s, rfl, hI⟩
  | cons x suf ih =>
    intro pre s hp hI
    obtain ⟨s1, e1, h1⟩ := hstep pre x s ⟨suf, by simp [← hp]⟩ hI
    obtain ⟨s2, e2, h2⟩ := ih (pre ++ [x]) s1 (by simp [← hp]) h1
    exact ⟨s2, by simp [List.foldlM_cons, e1, e2], h2⟩

/-- Counting loops `for (k=0;k<n;k++)` (shifted by `lo`). -/
theorem range_inv {σ : Type} (f : σ → Nat → Outcome σ) (I : Nat → σ → Prop) (lo n : Nat)
    (hstep : ∀ k s, k < n → I k s → ∃ s', f s (lo + k) = .ok s' ∧ I (k + 1) s')
    (s : σ) (h0 : I 0 s) : ∃ s', (List.range' lo n).foldlM f s = .ok s' ∧ I n s' := by
  induction n generalizing lo s I with
  | zero => exact ⟨s, rfl, h0⟩
  | succ n ih =>
    obtain ⟨s1, e1, h1⟩ := hstep 0 s (by omega) h0
    obtain ⟨s2, e2, h2⟩ := ih (fun k s => I (k + 1) s) (lo + 1)
      (fun k s hk hI => by
        obtain ⟨s', e, h⟩ := hstep (k + 1) s (by omega) hI
        exact ⟨s', by rw [show lo + 1 + k = lo + (k + 1) by omega]; exact e, h⟩) s1 h1
    refine ⟨s2, ?_, h2⟩
    rw [List.range'_succ, List.foldlM_cons]
    simp only [Nat.add_zero] at e1
    rw [e1]; exact e2

theorem bind_ok_iff {α β : Type} {x : Outcome α} {f : α → Outcome β} {b : β} :
    (x >>= f) = .ok b ↔ ∃ a, x = .ok a ∧ f a = .ok b := by
  cases x <;> simp

end Verif
