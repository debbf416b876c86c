import Verif.Io.BytesModel
import Verif.Mem
import Mathlib.Tactic.Conv
/-!
# Property C24: file numbers are portable between byte orders
-/
namespace Verif.Io

theorem leBytes_length (w x : Nat) : (leBytes w x).length = w := by
  induction w generalizing x with
  | zero => rfl
  | succ w ih => simp [leBytes, ih]

theorem ofLe_leBytes (w x : Nat) : ofLe (leBytes w x) = x % 256 ^ w := by
  induction w generalizing x with
  | zero => simp [leBytes, ofLe, Nat.mod_one]
  | succ w ih =>
    rw [leBytes, ofLe, ih, Nat.pow_succ, Nat.mul_comm (256 ^ w), Nat.mod_mul]

theorem memBytes_length (little : Bool) (w x : Nat) : (memBytes little w x).length = w := by
  unfold memBytes; split <;> simp [leBytes_length]

theorem ofMem_memBytes (little : Bool) (w x : Nat) : ofMem little (memBytes little w x) = x % 256 ^ w := by
  unfold ofMem memBytes
  cases little <;> simp [ofLe_leBytes]

theorem endianness_eq (little : Bool) : endianness little = little := by cases little <;> decide

/-! ## the swaps reverse the bytes of every element -/

theorem list4 {l : List Nat} (h : l.length = 4) : ∃ a b c d, l = [a, b, c, d] := by
  match l, h with
  | [a, b, c, d], _ => exact ⟨a, b, c, d, rfl⟩

theorem list8 {l : List Nat} (h : l.length = 8) : ∃ a b c d e f g i, l = [a, b, c, d, e, f, g, i] := by
  match l, h with
  | [a, b, c, d, e, f, g, i], _ => exact ⟨a, b, c, d, e, f, g, i, rfl⟩

theorem swapGroups_at (pre : List Nat) (a b rest : List Nat) {w : Nat} (ha : a.length = w) (hb : b.length = w) :
    swapGroups (pre ++ (a ++ (b ++ rest))) pre.length w = pre ++ (b ++ (a ++ rest)) := by
  unfold swapGroups
  have h1 : (pre ++ (a ++ (b ++ rest))).drop (pre.length + w) = b ++ rest := by
    rw [← List.drop_drop, List.drop_left, ← ha, List.drop_left]
  have h2 : (pre ++ (a ++ (b ++ rest))).drop (pre.length + 2 * w) = rest := by
    have : pre.length + 2 * w = pre.length + w + b.length := by omega
    rw [this, ← List.drop_drop, h1, List.drop_left]
  rw [h1, h2, List.take_left, List.drop_left]
  congr 1
  subst ha
  rw [List.take_left, ← hb, List.take_left]

theorem swap32_at (pre rest : List Nat) (a b c d : Nat) :
    swap32 (pre ++ ([a, b, c, d] ++ rest)) pre.length = pre ++ ([d, c, b, a] ++ rest) := by
  unfold swap32 swap16
  have h1 := swapGroups_at pre [a, b] [c, d] rest (w := 2) rfl rfl
  have h2 := swapGroups_at pre [c] [d] ([a, b] ++ rest) (w := 1) rfl rfl
  have h3 := swapGroups_at (pre ++ [d, c]) [a] [b] rest (w := 1) rfl rfl
  simp only [List.cons_append, List.nil_append, List.append_assoc, List.length_append, List.length_cons,
    List.length_nil] at h1 h2 h3 ⊢
  rw [h1, h2, h3]

theorem swap64_at (pre rest : List Nat) (a b c d e f g i : Nat) :
    swap64 (pre ++ ([a, b, c, d, e, f, g, i] ++ rest)) pre.length = pre ++ ([i, g, f, e, d, c, b, a] ++ rest) := by
  unfold swap64
  have h1 := swapGroups_at pre [a, b, c, d] [e, f, g, i] rest (w := 4) rfl rfl
  have h2 := swap32_at pre ([a, b, c, d] ++ rest) e f g i
  have h3 := swap32_at (pre ++ [i, g, f, e]) rest a b c d
  simp only [List.cons_append, List.nil_append, List.append_assoc, List.length_append, List.length_cons,
    List.length_nil] at h1 h2 h3 ⊢
  rw [h1, h2, h3]

theorem foldl_swap {w : Nat} {sw : List Nat → Nat → List Nat} (hsw : ∀ pre l rest : List Nat, l.length = w →
      sw (pre ++ (l ++ rest)) pre.length = pre ++ (l.reverse ++ rest)) :
    ∀ (ls : List (List Nat)) (pre : List Nat) (k : Nat), pre.length = w * k → (∀ l ∈ ls, l.length = w) →
      (List.range' k ls.length).foldl (fun p i => sw p (w * i)) (pre ++ ls.flatten) =
        pre ++ (ls.map List.reverse).flatten := by
  intro ls
  induction ls with
  | nil => intro pre k _ _; rfl
  | cons l ls ih =>
    intro pre k hp hl
    rw [List.length_cons, List.range'_succ, List.foldl_cons, List.flatten_cons, ← hp, hsw pre l _ (hl l (by simp))]
    have := ih (pre ++ l.reverse) (k + 1) (by simp [hl l (by simp), hp, Nat.mul_succ]) (fun x hx => hl x (by simp [hx]))
    simp only [List.append_assoc] at this
    rw [this]
    simp

theorem swapUnsigneds_eq (ls : List (List Nat)) (h : ∀ l ∈ ls, l.length = 4) :
    swapUnsigneds ls.flatten ls.length = (ls.map List.reverse).flatten := by
  unfold swapUnsigneds
  have := foldl_swap (w := 4) (sw := swap32) (by
    intro pre l rest hl
    obtain ⟨a, b, c, d, rfl⟩ := list4 hl
    exact swap32_at pre rest a b c d) ls [] 0 rfl h
  rw [List.range_eq_range']
  simpa using this

theorem swapDoubles_eq (ls : List (List Nat)) (h : ∀ l ∈ ls, l.length = 8) :
    swapDoubles ls.flatten ls.length = (ls.map List.reverse).flatten := by
  unfold swapDoubles
  have := foldl_swap (w := 8) (sw := swap64) (by
    intro pre l rest hl
    obtain ⟨a, b, c, d, e, f, g, i, rfl⟩ := list8 hl
    exact swap64_at pre rest a b c d e f g i) ls [] 0 rfl h
  rw [List.range_eq_range']
  simpa using this

/-! ## specification: most significant byte first -/

/-- `w` bytes, most significant first (network order) -/
def beBytes (w x : Nat) : List Nat := (leBytes w x).reverse

theorem memBytes_rev (w x : Nat) : (memBytes true w x).reverse = beBytes w x := by simp [memBytes, beBytes]

theorem memBytes_false (w : Nat) : memBytes false w = beBytes w := by
  funext x; simp [memBytes, beBytes]

theorem mem_len (little : Bool) (w : Nat) (xs : List Nat) : ∀ l ∈ xs.map (memBytes little w), l.length = w := by
  intro l hl
  obtain ⟨x, -, rfl⟩ := List.mem_map.mp hl
  exact memBytes_length _ _ _

theorem writeUnsigneds_eq (little : Bool) (xs : List Nat) :
    writeUnsigneds little xs = xs.flatMap (beBytes 4) := by
  unfold writeUnsigneds arrayBytes
  rw [endianness_eq, List.flatMap_def]
  cases little with
  | false => rw [if_neg (by simp [encodedEndian])]; rw [memBytes_false, List.flatMap_def]
  | true =>
    rw [if_pos (by simp [encodedEndian])]
    have := swapUnsigneds_eq (xs.map (memBytes true 4)) (mem_len _ _ _)
    rw [List.length_map] at this
    rw [this, List.map_map, List.flatMap_def]
    congr 1

theorem writeDoubles_eq (little : Bool) (xs : List Nat) :
    writeDoubles little xs = xs.flatMap (beBytes 8) := by
  unfold writeDoubles arrayBytes
  rw [endianness_eq, List.flatMap_def]
  cases little with
  | false => rw [if_neg (by simp [encodedEndian])]; rw [memBytes_false, List.flatMap_def]
  | true =>
    rw [if_pos (by simp [encodedEndian])]
    have := swapDoubles_eq (xs.map (memBytes true 8)) (mem_len _ _ _)
    rw [List.length_map] at this
    rw [this, List.map_map, List.flatMap_def]
    congr 1

theorem ofArray_eq (little : Bool) (w : Nat) : ∀ (xs : List Nat),
    ofArray little w xs.length (xs.map (memBytes little w)).flatten = xs.map (fun x => x % 256 ^ w) := by
  intro xs
  induction xs with
  | nil => rfl
  | cons x xs ih =>
    rw [List.length_cons, ofArray, List.map_cons, List.flatten_cons]
    have hl := memBytes_length little w x
    have h1 : (memBytes little w x ++ (xs.map (memBytes little w)).flatten).take w = memBytes little w x :=
      List.take_left' hl
    have h2 : (memBytes little w x ++ (xs.map (memBytes little w)).flatten).drop w =
        (xs.map (memBytes little w)).flatten :=
      List.drop_left' hl
    rw [h1, h2, ih, ofMem_memBytes]
    rfl

theorem be_length (w : Nat) (xs : List Nat) : (xs.flatMap (beBytes w)).length = w * xs.length := by
  induction xs with
  | nil => simp
  | cons x xs ih => simp [List.flatMap_cons, ih, beBytes, leBytes_length, Nat.mul_succ, Nat.add_comm]

theorem be_rev (w : Nat) (xs : List Nat) : ((xs.map (beBytes w)).map List.reverse) = xs.map (memBytes true w) := by
  rw [List.map_map]
  apply List.map_congr_left
  intro x _
  simp [beBytes, memBytes]

theorem be_len (w : Nat) (xs : List Nat) : ∀ l ∈ xs.map (beBytes w), l.length = w := by
  intro l hl
  obtain ⟨x, -, rfl⟩ := List.mem_map.mp hl
  simp [beBytes, leBytes_length]

theorem readUnsigneds_eq (little : Bool) (xs rest : List Nat) :
    readUnsigneds little xs.length (xs.flatMap (beBytes 4) ++ rest) = .ok (xs.map (fun x => x % 2 ^ 32), rest) := by
  unfold readUnsigneds readBytes
  have hl := be_length 4 xs
  rw [if_neg (by rw [List.length_append, hl]; omega), Outcome.bind_ok]
  have h1 : (xs.flatMap (beBytes 4) ++ rest).take (4 * xs.length) = xs.flatMap (beBytes 4) := by
    rw [← hl]; exact List.take_left
  have h2 : (xs.flatMap (beBytes 4) ++ rest).drop (4 * xs.length) = rest := by
    rw [← hl]; exact List.drop_left
  simp only [h1, h2, endianness_eq, Outcome.pure_eq]
  congr 2
  have he : (fun x => x % 2 ^ 32) = (fun x : Nat => x % 256 ^ 4) := rfl
  rw [he]
  cases little with
  | false =>
    rw [if_neg (by simp [encodedEndian])]
    rw [← ofArray_eq false 4 xs]
    rw [memBytes_false, List.flatMap_def]
  | true =>
    rw [if_pos (by simp [encodedEndian])]
    have := swapUnsigneds_eq (xs.map (beBytes 4)) (be_len _ _)
    rw [List.length_map] at this
    rw [List.flatMap_def, this, be_rev, ofArray_eq]

theorem readDoubles_eq (little : Bool) (xs rest : List Nat) :
    readDoubles little xs.length (xs.flatMap (beBytes 8) ++ rest) = .ok (xs.map (fun x => x % 2 ^ 64), rest) := by
  unfold readDoubles readBytes
  have hl := be_length 8 xs
  rw [if_neg (by rw [List.length_append, hl]; omega), Outcome.bind_ok]
  have h1 : (xs.flatMap (beBytes 8) ++ rest).take (8 * xs.length) = xs.flatMap (beBytes 8) := by
    rw [← hl]; exact List.take_left
  have h2 : (xs.flatMap (beBytes 8) ++ rest).drop (8 * xs.length) = rest := by
    rw [← hl]; exact List.drop_left
  simp only [h1, h2, endianness_eq, Outcome.pure_eq]
  congr 2
  have he : (fun x => x % 2 ^ 64) = (fun x : Nat => x % 256 ^ 8) := rfl
  rw [he]
  cases little with
  | false =>
    rw [if_neg (by simp [encodedEndian])]
    rw [← ofArray_eq false 8 xs]
    rw [memBytes_false, List.flatMap_def]
  | true =>
    rw [if_pos (by simp [encodedEndian])]
    have := swapDoubles_eq (xs.map (beBytes 8)) (be_len _ _)
    rw [List.length_map] at this
    rw [List.flatMap_def, this, be_rev, ofArray_eq]

theorem map_mod {xs : List Nat} {m : Nat} (h : ∀ x ∈ xs, x < m) : xs.map (fun x => x % m) = xs := by
  conv_rhs => rw [← List.map_id xs]
  apply List.map_congr_left
  intro x hx
  exact Nat.mod_eq_of_lt (h x hx)

/-- **C24, integers.**  The bytes written do not depend on the byte order of the writing machine (they are
the numbers, most significant byte first); whatever follows in the file, reading them back on a machine of
any byte order gives the same numbers and leaves the rest of the file. -/
theorem c24_unsigneds (writer reader : Bool) (xs rest : List Nat) (h : ∀ x ∈ xs, x < 2 ^ 32) :
    writeUnsigneds writer xs = xs.flatMap (beBytes 4) ∧
    readUnsigneds reader xs.length (writeUnsigneds writer xs ++ rest) = .ok (xs, rest) := by
  refine ⟨writeUnsigneds_eq writer xs, ?_⟩
  rw [writeUnsigneds_eq, readUnsigneds_eq, map_mod h]

/-- **C24, doubles** (as 64-bit patterns). -/
theorem c24_doubles (writer reader : Bool) (xs rest : List Nat) (h : ∀ x ∈ xs, x < 2 ^ 64) :
    writeDoubles writer xs = xs.flatMap (beBytes 8) ∧
    readDoubles reader xs.length (writeDoubles writer xs ++ rest) = .ok (xs, rest) := by
  refine ⟨writeDoubles_eq writer xs, ?_⟩
  rw [writeDoubles_eq, readDoubles_eq, map_mod h]

/-- **C24, truncated files** are detected: reading more than there is fails. -/
theorem c24_short_file (little : Bool) (n : Nat) (file : List Nat) :
    (file.length < 4 * n → readUnsigneds little n file = .fail) ∧
    (file.length < 8 * n → readDoubles little n file = .fail) := by
  constructor <;> intro h
  · unfold readUnsigneds readBytes; rw [if_pos h]; rfl
  · unfold readDoubles readBytes; rw [if_pos h]; rfl

/-- the bytes of 0x01020304 in a file -/
example : writeUnsigneds true [0x01020304, 5] = [1, 2, 3, 4, 0, 0, 0, 5] ∧
    writeUnsigneds false [0x01020304, 5] = [1, 2, 3, 4, 0, 0, 0, 5] ∧
    arrayBytes true 4 [0x01020304] = [4, 3, 2, 1] ∧ arrayBytes false 4 [0x01020304] = [1, 2, 3, 4] := by decide

example : ∀ x ∈ [0x01020304, 5], x < 2 ^ 32 := by decide
example : ∀ x ∈ [0x3ff0000000000000], x < 2 ^ 64 := by decide

end Verif.Io
