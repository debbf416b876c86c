import Verif.Pcu.BufferLemmas
/-!
# C25 – a message buffer returns what was packed, in order, and detects overrun
-/
namespace Verif.Pcu.Buffer

/-- **C25 (round trip).**  Pack any chunks for a peer (total below MPI's `INT_MAX`), send, receive
into any previously used receive buffer, unpack pieces of the same lengths: the receiver gets
exactly the chunks, in order, no byte is lost whatever growth steps happened, there is no undefined
behaviour, and the buffer is then reported as completely unpacked. -/
theorem c25_roundtrip (chunks : List (List UInt8)) (old : Buffer)
    (hsz : chunks.flatten.length ≤ 2147483647) :
    ∃ r r', transfer chunks old = .ok r ∧
      r.unpackAll (chunks.map List.length) = .ok (r', chunks) ∧ r'.walked = true := by
  obtain ⟨r, e, h⟩ := transfer_spec chunks old hsz
  have hsum : (chunks.map List.length).sum = chunks.flatten.length := by
    simp [List.length_flatten]
  obtain ⟨r', e', h'⟩ := unpackAll_ok r chunks.flatten 0 (chunks.map List.length) h (by omega)
  refine ⟨r, r', e, ?_, ?_⟩
  · have hp := pieces_map_length chunks []
    rw [List.append_nil] at hp
    rw [e']; simp [hp]
  · rw [walked_iff r' _ _ h']; omega

/-- **C25 (arbitrary split).**  The receiver may unpack in pieces of any other lengths: as long as
it asks for no more bytes than were packed it gets consecutive pieces of the packed byte string, and
`Unpacked` is true exactly when it has asked for all of it. -/
theorem c25_any_split (chunks : List (List UInt8)) (old : Buffer) (ns : List Nat)
    (hsz : chunks.flatten.length ≤ 2147483647) (hn : ns.sum ≤ chunks.flatten.length) :
    ∃ r r' ds, transfer chunks old = .ok r ∧ r.unpackAll ns = .ok (r', ds) ∧
      ds.map List.length = ns ∧ ds.flatten = chunks.flatten.take ns.sum ∧
      (r'.walked = true ↔ ns.sum = chunks.flatten.length) := by
  obtain ⟨r, e, h⟩ := transfer_spec chunks old hsz
  obtain ⟨r', e', h'⟩ := unpackAll_ok r chunks.flatten 0 ns h (by omega)
  refine ⟨r, r', _, e, e', ?_, ?_, ?_⟩
  · clear e' h' e h
    generalize chunks.flatten = m at *
    rw [List.drop_zero]
    induction ns generalizing m with
    | nil => rfl
    | cons n ns ih =>
      simp only [List.sum_cons] at hn
      simp only [pieces, List.map_cons, List.length_take]
      rw [ih (m.drop n) (by simp; omega) (by simp; omega)]
      congr 1; omega
  · clear e' h' e h
    generalize chunks.flatten = m at *
    rw [List.drop_zero]
    induction ns generalizing m with
    | nil => simp [pieces]
    | cons n ns ih =>
      simp only [List.sum_cons] at hn
      simp only [pieces, List.flatten_cons, List.sum_cons]
      rw [ih (m.drop n) (by simp; omega) (by simp; omega), List.take_add]
  · rw [walked_iff r' _ _ h']; simp

/-- **C25 (overrun).**  Asking for more bytes than were packed – at any point of any sequence of
unpacks – stops with a failure; it never returns garbage. -/
theorem c25_overrun (chunks : List (List UInt8)) (old : Buffer) (ns : List Nat)
    (hsz : chunks.flatten.length ≤ 2147483647) (hn : chunks.flatten.length < ns.sum) :
    ∃ r, transfer chunks old = .ok r ∧ r.unpackAll ns = .fail := by
  obtain ⟨r, e, h⟩ := transfer_spec chunks old hsz
  exact ⟨r, e, unpackAll_fail r _ 0 ns h (by omega)⟩

/-- **C25 (too large).**  A message larger than `INT_MAX` bytes is refused by the sender. -/
theorem c25_too_large (chunks : List (List UInt8)) (old : Buffer)
    (hsz : 2147483647 < chunks.flatten.length) : transfer chunks old = .fail := by
  obtain ⟨b1, e1, h1⟩ := packAll_spec make [] chunks holds_make
  rw [List.nil_append] at h1
  have hs : b1.size > 2147483647 := by rw [h1.size_eq]; omega
  simp [transfer, e1, sendBytes, hs]

/-- non-vacuity: three chunks (one empty) into a used receive buffer -/
example : ([[1, 2, 3], [], List.replicate 30 7] : List (List UInt8)).flatten.length ≤ 2147483647 ∧
    ∃ r r', transfer [[1, 2, 3], [], List.replicate 30 7] ⟨[none, some 4], 1⟩ = .ok r ∧
      r.unpackAll [3, 0, 30] = .ok (r', [[1, 2, 3], [], List.replicate 30 7]) ∧
      r'.walked = true := by
  refine ⟨by decide, c25_roundtrip [[1, 2, 3], [], List.replicate 30 7] _ (by decide)⟩
/-- non-vacuity of the overrun hypothesis -/
example : ([[1], [2]] : List (List UInt8)).flatten.length < [1, 2].sum := by decide
/-- non-vacuity of the split hypothesis -/
example : [3, 1].sum ≤ ([[1, 2], [3, 4, 5]] : List (List UInt8)).flatten.length := by decide

end Verif.Pcu.Buffer
