import Verif.Vtk.XmlModel
import Verif.Vtk.XmlSpec
import Verif.Part.TextProps
/-!
# Lemmas for C87: characters, words, and elements
-/
namespace Verif.Vtk
open Verif.Agi Verif.Part.Text Verif.Names

/-! ## words -/

/-- no white space, no `<`, no `&` -/
def Plain (c : Char) : Prop := c.isWhitespace = false ∧ c ≠ '<' ∧ c ≠ '&' ∧ c ≠ '"'

theorem digit_plain {c : Char} (h : c.isDigit = true) : Plain c := by
  refine ⟨?_, ?_, ?_, ?_⟩
  · by_contra hc
    have hw : c.isWhitespace = true := by simpa using hc
    unfold Char.isWhitespace at hw
    simp only [Bool.or_eq_true, decide_eq_true_eq] at hw
    rcases hw with ((rfl | rfl) | rfl) | rfl <;> revert h <;> decide
  · rintro rfl; revert h; decide
  · rintro rfl; revert h; decide
  · rintro rfl; revert h; decide

theorem plain_minus : Plain '-' := by unfold Plain; decide
theorem plain_dot : Plain '.' := by unfold Plain; decide
theorem plain_n : Plain 'n' := by unfold Plain; decide
theorem plain_a : Plain 'a' := by unfold Plain; decide

theorem int_plain (i : Int) : (∀ c ∈ int i, Plain c) ∧ int i ≠ [] := by
  obtain ⟨a, e, h, -, hne, -⟩ := int_spells i
  rw [e]
  refine ⟨fun c hc => ?_, by simp [hne]⟩
  rcases List.mem_append.mp hc with h1 | h1
  · split at h1
    · rw [List.mem_singleton.mp h1]; exact plain_minus
    · cases h1
  · exact digit_plain (h c h1)

theorem fixed_plain (x : Rat) : (∀ c ∈ fixed 6 x, Plain c) ∧ fixed 6 x ≠ [] := by
  obtain ⟨a, b, e, hne, -, h, -⟩ := fixed_spells (k := 6) (by omega) x
  rw [e]
  refine ⟨fun c hc => ?_, by simp⟩
  rcases List.mem_append.mp hc with h1 | h1
  · rcases List.mem_append.mp h1 with h2 | h2
    · split at h2
      · rw [List.mem_singleton.mp h2]; exact plain_minus
      · cases h2
    · exact digit_plain (h c (List.mem_append_left _ h2))
  · rcases List.mem_cons.mp h1 with h2 | h2
    · rw [h2]; exact plain_dot
    · exact digit_plain (h c (List.mem_append_right _ h2))

theorem nan_plain : (∀ c ∈ ['-', 'n', 'a', 'n'], Plain c) ∧ (['-', 'n', 'a', 'n'] : List Char) ≠ [] := by
  refine ⟨fun c hc => ?_, by simp⟩
  simp only [List.mem_cons, List.not_mem_nil, or_false] at hc
  rcases hc with rfl | rfl | rfl | rfl
  · exact plain_minus
  · exact plain_n
  · exact plain_a
  · exact plain_n

theorem wordsFrom_plain (cur w t : List Char) (h : ∀ c ∈ w, Plain c) : wordsFrom cur (w ++ t) = wordsFrom (cur ++ w) t := by
  induction w generalizing cur with
  | nil => simp
  | cons c w ih =>
    rw [List.cons_append]
    show (if c.isWhitespace then _ else _) = _
    rw [(h c (by simp)).1, if_neg (by simp), ih _ (fun x hx => h x (by simp [hx]))]
    simp

theorem words_space (c : Char) (t : List Char) (h : c.isWhitespace = true) : words ([c] ++ t) = words t := by
  show (if c.isWhitespace then _ else _) = _
  rw [if_pos h, if_pos rfl]
  rfl

theorem words_word (w : List Char) (c : Char) (t : List Char) (h : (∀ c ∈ w, Plain c) ∧ w ≠ []) (hc : c.isWhitespace = true) :
    words (w ++ ([c] ++ t)) = w :: words t := by
  unfold words
  rw [wordsFrom_plain _ _ _ h.1, List.nil_append]
  show (if c.isWhitespace then _ else _) = _
  rw [if_pos hc, if_neg h.2]
  rfl

theorem words_nl : words nl = [] := by decide

/-- a text of lines -/
theorem words_lines {α : Type} {f : α → List Char} {g : α → List (List Char)} (h : ∀ x t, words (f x ++ t) = g x ++ words t) (xs : List α)
    (t : List Char) : words ((xs.map f).flatten ++ t) = (xs.map g).flatten ++ words t := by
  induction xs with
  | nil => rfl
  | cons x xs ih =>
    rw [List.map_cons, List.flatten_cons, List.append_assoc, h, ih, List.map_cons, List.flatten_cons, List.append_assoc]

def pointWords : Option Coord → List (List Char)
  | some c => [fixed 6 c.1, fixed 6 c.2.1, fixed 6 c.2.2]
  | none => List.replicate 3 ['-', 'n', 'a', 'n']

theorem words_point (p : Option Coord) (t : List Char) : words (pointLine p ++ t) = pointWords p ++ words t := by
  have h1 : (' ' : Char).isWhitespace = true := by decide
  have h2 : ('\n' : Char).isWhitespace = true := by decide
  cases p with
  | some c =>
    show words ([' '] ++ fixed 6 c.1 ++ [' '] ++ fixed 6 c.2.1 ++ [' '] ++ fixed 6 c.2.2 ++ ['\n'] ++ t) = [fixed 6 c.1, fixed 6 c.2.1, fixed 6 c.2.2] ++ words t
    simp only [List.append_assoc]
    rw [words_space _ _ h1, words_word _ _ _ (fixed_plain _) h1, words_word _ _ _ (fixed_plain _) h1, words_word _ _ _ (fixed_plain _) h2]
    rfl
  | none =>
    show words ([' '] ++ ['-', 'n', 'a', 'n'] ++ [' '] ++ ['-', 'n', 'a', 'n'] ++ [' '] ++ ['-', 'n', 'a', 'n'] ++ ['\n'] ++ t) = List.replicate 3 ['-', 'n', 'a', 'n'] ++ words t
    simp only [List.append_assoc]
    rw [words_space _ _ h1, words_word _ _ _ nan_plain h1, words_word _ _ _ nan_plain h1, words_word _ _ _ nan_plain h2]
    rfl

theorem words_points (ps : List (Option Coord)) : words (nl ++ (ps.map pointLine).flatten ++ nl) = (ps.map pointWords).flatten := by
  rw [List.append_assoc, nl, words_space _ _ (by decide)]
  have := words_lines words_point ps nl
  rw [words_nl, List.append_nil] at this
  exact this

theorem showsPoints (ps : List (Option Coord)) : ShowsPoints ps (ps.map pointWords).flatten := by
  induction ps with
  | nil => rfl
  | cons p ps ih =>
    refine ⟨pointWords p, _, rfl, ?_, ih⟩
    cases p with
    | some c => exact ⟨_, _, _, rfl, fixed_spells (by omega) _, fixed_spells (by omega) _, fixed_spells (by omega) _⟩
    | none =>
      show List.replicate 3 ['-', 'n', 'a', 'n'] = List.replicate 3 "-nan".toList
      decide

theorem words_pairs : ∀ (l : List Nat) (t : List Char), words (pairLines l ++ t) = l.map (fun (n : Nat) => int n) ++ words t
  | [], t => rfl
  | [a], t => by
    show words ((int a ++ ['\n']) ++ t) = _
    rw [List.append_assoc, words_word _ _ _ (int_plain a) (by decide)]
    rfl
  | a :: b :: l, t => by
    show words ((int a ++ [' '] ++ int b ++ ['\n'] ++ pairLines l) ++ t) = _
    simp only [List.append_assoc]
    rw [words_word _ _ _ (int_plain a) (by decide), words_word _ _ _ (int_plain b) (by decide), words_pairs l t]
    rfl

theorem words_spaceLines (l : List Nat) (t : List Char) : words (spaceLines l ++ t) = l.map (fun (n : Nat) => int n) ++ words t := by
  unfold spaceLines
  rw [words_lines (g := fun (n : Nat) => [int n]) (by
    intro n t
    show words ([' '] ++ int n ++ ['\n'] ++ t) = _
    simp only [List.append_assoc]
    rw [words_space _ _ (by decide), words_word _ _ _ (int_plain _) (by decide)]
    rfl)]
  congr 1
  induction l with
  | nil => rfl
  | cons a l ih => simp [ih]

theorem words_lines_int (l : List Int) : words (nl ++ lines l) = l.map int := by
  rw [nl, words_space _ _ (by decide)]
  have := words_lines (f := fun n => int n ++ nl) (g := fun (n : Int) => [int n]) (by
    intro n t
    show words ((int n ++ ['\n']) ++ t) = _
    rw [List.append_assoc, words_word _ _ _ (int_plain _) (by decide)]
    rfl) l []
  rw [List.append_nil] at this
  unfold lines
  rw [this]
  show (l.map (fun n => [int n])).flatten ++ [] = _
  rw [List.append_nil]
  clear this
  induction l with
  | nil => rfl
  | cons a l ih => simp [ih]

theorem showsInts (l : List Int) : ShowsInts l (l.map int) := by
  induction l with
  | nil => exact .nil
  | cons a l ih => exact .cons (int_spells a) ih

/-! ## no markup in the numbers -/

def Safe (t : List Char) : Prop := ∀ c ∈ t, c ≠ '<' ∧ c ≠ '&'

theorem safe_append {a b : List Char} (ha : Safe a) (hb : Safe b) : Safe (a ++ b) := by
  intro c hc
  rcases List.mem_append.mp hc with h | h
  · exact ha c h
  · exact hb c h

theorem safe_plain {a : List Char} (h : ∀ c ∈ a, Plain c) : Safe a := fun c hc => ⟨(h c hc).2.1, (h c hc).2.2.1⟩

theorem safe_nl : Safe nl := by unfold Safe nl; decide
theorem safe_sp : Safe [' '] := by unfold Safe; decide

theorem safe_flatten {α : Type} {f : α → List Char} (h : ∀ x, Safe (f x)) (xs : List α) : Safe (xs.map f).flatten := by
  induction xs with
  | nil => intro c hc; cases hc
  | cons x xs ih => exact safe_append (h x) ih

theorem safe_point (p : Option Coord) : Safe (pointLine p) := by
  cases p with
  | some c =>
    exact safe_append (safe_append (safe_append (safe_append (safe_append (safe_append safe_sp (safe_plain (fixed_plain _).1)) safe_sp)
      (safe_plain (fixed_plain _).1)) safe_sp) (safe_plain (fixed_plain _).1)) safe_nl
  | none => unfold Safe pointLine nl; decide

theorem safe_pairs : ∀ l, Safe (pairLines l)
  | [] => by intro c hc; cases hc
  | [a] => safe_append (safe_plain (int_plain _).1) safe_nl
  | a :: b :: l => safe_append (safe_append (safe_append (safe_append (safe_plain (int_plain _).1) safe_sp) (safe_plain (int_plain _).1)) safe_nl) (safe_pairs l)

theorem safe_spaceLines (l : List Nat) : Safe (spaceLines l) :=
  safe_flatten (f := fun (n : Nat) => [' '] ++ int n ++ nl) (fun _ => safe_append (safe_append safe_sp (safe_plain (int_plain _).1)) safe_nl) l

theorem safe_lines (l : List Int) : Safe (lines l) :=
  safe_flatten (f := fun n => int n ++ nl) (fun _ => safe_append (safe_plain (int_plain _).1) safe_nl) l

/-! ## elements -/

theorem reads_nl {t : List Char} {xs : List Xml} (h : Reads t xs) : Reads (nl ++ t) xs := Reads.space (by decide) h

theorem reads_elem {o c name at_ body t : List Char} {attrs : List (List Char × List Char)} {kids xs : List Xml} (ho : o = ['<'] ++ name ++ at_ ++ ['>'])
    (hc : c = ['<', '/'] ++ name ++ ['>']) (hn : IsName name) (ha : ReadsAttrs at_ attrs) (hb : Reads body kids) (ht : Reads t xs) :
    Reads (o ++ (body ++ (c ++ t))) (.elem name attrs kids :: xs) := by
  subst ho hc
  exact .elem hn ha hb ht

theorem reads_data {o c name at_ s t : List Char} {attrs : List (List Char × List Char)} {ws : List (List Char)} {xs : List Xml}
    (ho : o = ['<'] ++ name ++ at_ ++ ['>']) (hc : c = ['<', '/'] ++ name ++ ['>']) (hn : IsName name) (ha : ReadsAttrs at_ attrs)
    (hs : Safe s) (hw : words s = ws) (ht : Reads t xs) : Reads (o ++ (s ++ (c ++ t))) (.data name attrs ws :: xs) := by
  subst ho hc hw
  exact .data hn ha hs ht

theorem reads_empty {o name at_ t : List Char} {attrs : List (List Char × List Char)} {xs : List Xml}
    (ho : o = ['<'] ++ name ++ at_ ++ ['/', '>']) (hn : IsName name) (ha : ReadsAttrs at_ attrs) (ht : Reads t xs) :
    Reads (o ++ t) (.elem name attrs [] :: xs) := by
  subst ho
  exact .empty hn ha ht

/-- the text of attributes -/
def attrText : List (List Char × List Char) → List Char
  | [] => []
  | a :: as => [' '] ++ a.1 ++ ['=', '"'] ++ a.2 ++ ['"'] ++ attrText as

def attrsOk : List (List Char × List Char) → Bool
  | [] => true
  | a :: as => decide (IsName a.1) && a.2.all (fun c => decide (c ≠ '"') && (decide (c ≠ '<') && decide (c ≠ '&'))) && as.all (fun b => decide (b.1 ≠ a.1)) && attrsOk as

theorem reads_attrs {as : List (List Char × List Char)} (h : attrsOk as = true) : ReadsAttrs (attrText as) as := by
  induction as with
  | nil => exact .nil
  | cons a as ih =>
    unfold attrsOk at h
    simp only [Bool.and_eq_true, decide_eq_true_eq, List.all_eq_true] at h
    exact .cons h.1.1.1 h.1.1.2 h.1.2 (ih h.2)

end Verif.Vtk
