import Verif.Pcu.BufferModel
namespace Verif.Pcu.Buffer

theorem mapM_id_map_some (l : List α) : (l.map some).mapM id = some l := by
  induction l with
  | nil => rfl
  | cons a l ih => simp [List.mapM_cons, ih]

/-- a writing buffer whose packed content is `bs` -/
structure Holds (b : Buffer) (bs : List UInt8) : Prop where
  size_eq : b.size = bs.length
  fits : b.size ≤ b.mem.length
  pre : b.mem.take b.size = bs.map some

theorem holds_make : Holds make [] := ⟨rfl, Nat.le_refl _, rfl⟩

theorem length_realloc (m : List (Option UInt8)) (n : Nat) : (realloc m n).length = n := by
  simp [realloc]; omega

theorem take_realloc (m : List (Option UInt8)) (n k : Nat) (hk : k ≤ m.length) (hn : k ≤ n) :
    (realloc m n).take k = m.take k := by
  have h1 : k - n = 0 := by omega
  rw [realloc, List.take_append_of_le_length (by simp; omega), List.take_take]
  congr 1; omega

theorem push_spec (b : Buffer) (bs : List UInt8) (h : Holds b bs) (n : Nat) :
    ∃ b', b.push n = (b', bs.length) ∧ b'.size = bs.length + n ∧ b'.size ≤ b'.mem.length ∧
      b'.mem.take bs.length = bs.map some := by
  obtain ⟨hs, hf, hp⟩ := h
  rw [hs] at hp hf
  simp only [push, capacity, hs]
  by_cases hc : bs.length + n > b.mem.length
  · simp only [hc, if_true]
    refine ⟨_, Prod.ext rfl (by simp), rfl, ?_, ?_⟩
    · simp only [length_realloc]; split <;> omega
    · rw [take_realloc _ _ _ hf (by split <;> omega), hp]
  · simp only [hc, if_false]
    exact ⟨_, Prod.ext rfl (by simp), rfl, by show bs.length + n ≤ b.mem.length; omega, hp⟩

theorem pack_spec (b : Buffer) (bs d : List UInt8) (h : Holds b bs) :
    ∃ b', b.pack d = .ok b' ∧ Holds b' (bs ++ d) := by
  obtain ⟨b', he, hs, hf, hp⟩ := push_spec b bs h d.length
  have hle : bs.length + d.length ≤ b'.mem.length := by omega
  simp only [pack, he, write, hle, if_true]
  refine ⟨_, rfl, ⟨by simp [hs], ?_, ?_⟩⟩
  · simp only [List.length_append, List.length_take, List.length_map, List.length_drop]; omega
  · rw [hp]; simp [hs, List.take_append, List.take_of_length_le]

theorem packAll_spec (b : Buffer) (bs : List UInt8) (cs : List (List UInt8)) (h : Holds b bs) :
    ∃ b', packAll b cs = .ok b' ∧ Holds b' (bs ++ cs.flatten) := by
  induction cs generalizing b bs with
  | nil => exact ⟨b, rfl, by simpa using h⟩
  | cons c cs ih =>
    obtain ⟨b1, e1, h1⟩ := pack_spec b bs c h
    obtain ⟨b2, e2, h2⟩ := ih b1 _ h1
    exact ⟨b2, by simp [packAll, e1, e2], by simpa using h2⟩

theorem read_prefix (b : Buffer) (bs : List UInt8) (h : Holds b bs) :
    b.read 0 b.size = .ok bs := by
  have := h.fits
  have e : (List.take b.size (List.drop 0 b.mem)).mapM id = some bs := by
    rw [List.drop_zero, h.pre, mapM_id_map_some]
  simp only [read, Nat.zero_add, this, if_true, e]

/-- a reading buffer that holds message `msg` and whose cursor is at `k` -/
structure Reading (b : Buffer) (msg : List UInt8) (k : Nat) : Prop where
  mem_eq : b.mem = msg.map some
  size_eq : b.size = k
  le : k ≤ msg.length

theorem receive_spec (old : Buffer) (msg : List UInt8) :
    ∃ b, old.receiveBytes msg = .ok b ∧ Reading b msg 0 := by
  have hl : (old.resize msg.length).mem.length = msg.length := by
    unfold resize; split
    · rename_i h; exact h.2
    · simp [length_realloc]
  simp only [receiveBytes, write, hl, Nat.zero_add, Nat.le_refl, if_true]
  refine ⟨_, rfl, ⟨?_, rfl, Nat.zero_le _⟩⟩
  simp [begin', List.drop_of_length_le, hl]

theorem unpack_ok (b : Buffer) (msg : List UInt8) (k n : Nat) (h : Reading b msg k)
    (hn : k + n ≤ msg.length) :
    ∃ b', b.unpack n = .ok (b', (msg.drop k).take n) ∧ Reading b' msg (k + n) := by
  obtain ⟨hm, hs, hk⟩ := h
  have hcap : ¬ (k + n > msg.length) := by omega
  have e : (List.take n (List.drop k (List.map some msg))).mapM id =
      some (List.take n (List.drop k msg)) := by
    rw [← List.map_drop, ← List.map_take, mapM_id_map_some]
  refine ⟨⟨b.mem, k + n⟩, ?_, ⟨hm, rfl, hn⟩⟩
  simp [unpack, walk, capacity, hm, hs, read, hn, e, hcap]

theorem unpack_fail (b : Buffer) (msg : List UInt8) (k n : Nat) (h : Reading b msg k)
    (hn : k + n > msg.length) : b.unpack n = .fail := by
  obtain ⟨hm, hs, _⟩ := h
  simp only [unpack, walk, capacity, hm, hs, List.length_map, hn, if_true]
  rfl

/-- cut a byte list into consecutive pieces -/
def pieces : List UInt8 → List Nat → List (List UInt8)
  | _, [] => []
  | bs, n :: ns => bs.take n :: pieces (bs.drop n) ns

theorem pieces_map_length (cs : List (List UInt8)) (rest : List UInt8) :
    pieces (cs.flatten ++ rest) (cs.map List.length) = cs := by
  induction cs with
  | nil => rfl
  | cons c cs ih =>
    have h1 : (c ++ (cs.flatten ++ rest)).take c.length = c := by simp
    have h2 : (c ++ (cs.flatten ++ rest)).drop c.length = cs.flatten ++ rest := by simp
    simp only [List.map_cons, pieces, List.flatten_cons, List.append_assoc, h1, h2, ih]

theorem unpackAll_ok (b : Buffer) (msg : List UInt8) (k : Nat) (ns : List Nat)
    (h : Reading b msg k) (hn : k + ns.sum ≤ msg.length) :
    ∃ b', b.unpackAll ns = .ok (b', pieces (msg.drop k) ns) ∧ Reading b' msg (k + ns.sum) := by
  induction ns generalizing b k with
  | nil => exact ⟨b, rfl, by simpa using h⟩
  | cons n ns ih =>
    simp only [List.sum_cons] at hn ⊢
    obtain ⟨b1, e1, h1⟩ := unpack_ok b msg k n h (by omega)
    obtain ⟨b2, e2, h2⟩ := ih b1 (k + n) h1 (by omega)
    refine ⟨b2, ?_, by rwa [Nat.add_assoc] at h2⟩
    simp [unpackAll, e1, e2, pieces, List.drop_drop]

theorem unpackAll_fail (b : Buffer) (msg : List UInt8) (k : Nat) (ns : List Nat)
    (h : Reading b msg k) (hn : k + ns.sum > msg.length) : b.unpackAll ns = .fail := by
  induction ns generalizing b k with
  | nil => have := h.le; simp at hn; omega
  | cons n ns ih =>
    simp only [List.sum_cons] at hn
    by_cases hk : k + n > msg.length
    · simp [unpackAll, unpack_fail b msg k n h hk]
    · obtain ⟨b1, e1, h1⟩ := unpack_ok b msg k n h (by omega)
      simp [unpackAll, e1, ih b1 (k + n) h1 (by omega)]

theorem walked_iff (b : Buffer) (msg : List UInt8) (k : Nat) (h : Reading b msg k) :
    b.walked = true ↔ k = msg.length := by
  simp [walked, capacity, h.mem_eq, h.size_eq]

theorem transfer_spec (chunks : List (List UInt8)) (old : Buffer)
    (hsz : chunks.flatten.length ≤ 2147483647) :
    ∃ b, transfer chunks old = .ok b ∧ Reading b chunks.flatten 0 := by
  obtain ⟨b1, e1, h1⟩ := packAll_spec make [] chunks holds_make
  rw [List.nil_append] at h1
  obtain ⟨b2, e2, h2⟩ := receive_spec old chunks.flatten
  refine ⟨b2, ?_, h2⟩
  have hs : ¬ (b1.size > 2147483647) := by rw [h1.size_eq]; omega
  simp [transfer, e1, sendBytes, hs, read_prefix b1 _ h1, e2]

end Verif.Pcu.Buffer
