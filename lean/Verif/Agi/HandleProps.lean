import Verif.Agi.HandleModel
import Verif.Agi.IterModel
import Verif.Io.BytesProps
/-!
# Property C79: handles on every machine

The specification is GraphModel's: there a handle is a number and nothing overflows.  The theorems say that the machine computes the same
numbers, for either byte order and either size of local ids, as long as the library was told the byte order.
-/
namespace Verif.Agi.Word
open Verif.Io

/-- the option `BIG_ENDIAN` says what the machine is -/
def Machine.Told (m : Machine) : Prop := m.big = !m.little

theorem maxLid_pos (m : Machine) : 2147483647 ≤ m.maxLid ∧ m.maxLid ≤ 9223372036854775807 := by
  unfold Machine.maxLid; split <;> omega

theorem lid_ok {m : Machine} {x : Int} (h0 : 0 ≤ x) (h : x ≤ m.maxLid) : lid m x = .ok x := by
  have := maxLid_pos m
  unfold lid; rw [if_pos ⟨by omega, h⟩]

theorem word_nat {m : Machine} {n : Nat} (h : (n : Int) ≤ m.maxLid) : word n = n := by
  have := maxLid_pos m
  unfold word; omega

theorem narrow_nat {m : Machine} {n : Nat} (h : (n : Int) ≤ m.maxLid) : narrow m n = n := by
  unfold narrow signed Machine.width
  unfold Machine.maxLid at h
  cases hl : m.long <;> simp only [hl, if_true, if_false, Bool.false_eq_true] at h ⊢ <;> split <;> omega

theorem slot_nat {m : Machine} {n : Nat} (h : (n : Int) ≤ m.maxLid) :
    slot m n (if m.little = false ∧ m.long = false then 1 else 0) = n := by
  unfold slot signed Machine.width
  unfold Machine.maxLid at h
  cases hl : m.long <;> cases hb : m.little <;>
    simp only [hl, if_true, if_false, Bool.false_eq_true, and_true, and_false, reduceCtorEq, Bool.true_eq_false] at h ⊢ <;>
    simp only [memBytes, ofMem, leBytes, ofLe, if_true, if_false, Bool.false_eq_true, List.reverse_cons, List.reverse_nil, List.nil_append,
      List.cons_append, List.take, List.drop, Nat.zero_mul, Nat.one_mul, Nat.reduceMul] <;>
    split <;> omega

/-- **C79**, vertices: on every machine, whatever the byte order and the size of local ids, the handle of a local vertex is the number
one above its index and decodes to the index again. -/
theorem c79_vertex_handles (m : Machine) (ht : m.Told) (l : Nat) (h : (l : Int) + 1 ≤ m.maxLid) :
    getVertex m l = .ok (Agi.getVertex l) ∧ fromPtr m (Agi.getVertex l) = .ok l := by
  have hc : ((l + 1 : Nat) : Int) ≤ m.maxLid := by push_cast; exact h
  have hs := slot_nat hc
  constructor
  · unfold getVertex
    rw [lid_ok (by omega) h]
    have e : word ((l : Int) + 1) = l + 1 := by
      have := word_nat hc; push_cast at this; exact this
    simp only [Outcome.bind_ok, toPtr, e]
    rfl
  · have e : ((l + 1 : Nat) : Int) - 1 = l := by omega
    unfold fromPtr
    unfold Machine.Told at ht
    rw [ht]
    change (if (!m.little) = false then lid m (slot m (l + 1) 0 - 1) else if m.long then lid m (slot m (l + 1) 0 - 1)
      else lid m (slot m (l + 1) 1 - 1)) = _
    cases hb : m.little <;> cases hl : m.long <;>
      simp only [hb, hl, and_true, and_false, if_true, if_false, reduceCtorEq, Bool.true_eq_false, Bool.false_eq_true, Bool.not_true,
        Bool.not_false] at hs ⊢ <;> rw [hs, e] <;> exact lid_ok (by omega) (by omega)

/-- the hypotheses are met by a big-endian machine with 32-bit local ids, for the largest vertex there is room for -/
example : (⟨false, false, true⟩ : Machine).Told ∧ ((2147483646 : Nat) : Int) + 1 ≤ (⟨false, false, true⟩ : Machine).maxLid :=
  ⟨rfl, by decide⟩

/-- **C79**, edges: the handle of edge `l` of type `t` is the number of GraphModel, all queries decode it to `t` and `l`, the source
of a traditional edge is looked up with the same `t` and `l`, and the loop over the edges of a type yields the same handle, provided the
number still fits in a local id. -/
theorem c79_edge_handles_partial (m : Machine) (g : Graph) (l t : Nat) (ht : t < g.numTypes)
    (h : (g.numTypes : Int) * l + t + 1 ≤ m.maxLid) :
    getEdge m g.numTypes l t = .ok (g.getEdge l t) ∧ decodeEdge g.numTypes (g.getEdge l t) = g.decodeEdge (g.getEdge l t) ∧
      decodeEdge g.numTypes (g.getEdge l t) = .ok (t, l) ∧ localID m g.numTypes (g.getEdge l t) = .ok l ∧
      decodeU m g.numTypes (g.getEdge l t) = .ok (t, l) ∧ iterated g.numTypes l t = g.getEdge l t := by
  obtain ⟨p1, p2⟩ := maxLid_pos m
  generalize hn : g.numTypes = nt at *
  have hge : g.getEdge l t = nt * l + t + 1 := by unfold Graph.getEdge; rw [hn]
  have hq : 0 ≤ (nt : Int) * l := Int.mul_nonneg (by omega) (by omega)
  have hc : ((nt * l + t + 1 : Nat) : Int) ≤ m.maxLid := by push_cast; exact h
  have hmod : (nt * l + t) % nt = t := by rw [Nat.mul_add_mod, Nat.mod_eq_of_lt ht]
  have hdiv : (nt * l + t) / nt = l := by
    rw [Nat.mul_add_div (by omega), Nat.div_eq_of_lt ht, Nat.add_zero]
  have hlow : (nt * l + t + 1 + 18446744073709551615) % 18446744073709551616 = nt * l + t := by
    have : ((nt * l + t + 1 : Nat) : Int) ≤ 9223372036854775807 := Int.le_trans hc p2
    omega
  have hd : decodeEdge nt (nt * l + t + 1) = .ok (t, l) := by
    unfold decodeEdge
    rw [if_neg (by omega)]
    simp only [hlow, hmod, hdiv]
  have hll : (l : Int) ≤ m.maxLid := by
    have : (l : Int) ≤ (nt : Int) * l := by
      have : l ≤ nt * l := Nat.le_mul_of_pos_left _ (by omega)
      exact_mod_cast this
    omega
  rw [hge]
  refine ⟨?_, ?_, hd, ?_, ?_, ?_⟩
  · unfold getEdge
    rw [lid_ok hq (by omega)]
    simp only [Outcome.bind_ok]
    rw [lid_ok (by omega) (by omega)]
    simp only [Outcome.bind_ok]
    rw [lid_ok (by omega) h]
    have e : word ((nt : Int) * l + t + 1) = nt * l + t + 1 := by
      have := word_nat hc; push_cast at this; exact this
    simp only [Outcome.bind_ok, toPtr, e]
    rfl
  · rw [hd]
    unfold Graph.decodeEdge
    rw [if_neg (by omega), hn]
    simp only [Nat.add_sub_cancel, hmod, hdiv]
  · unfold localID
    rw [hd]
    simp only [Outcome.bind_ok, narrow_nat hll]
    rfl
  · unfold decodeU
    rw [if_neg (by omega), hlow]
    have hx : ((nt * l + t : Nat) : Int) ≤ m.maxLid := by omega
    rw [narrow_nat hx]
    have e1 : ((nt * l + t : Nat) : Int).tmod nt = t := by
      rw [← Int.ofNat_tmod, hmod]
    have e2 : ((nt * l + t : Nat) : Int).tdiv nt = l := by
      rw [← Int.ofNat_tdiv, hdiv]
    simp only [e1, e2]
  · unfold iterated
    have : ((nt * l + t + 1 : Nat) : Int) ≤ 9223372036854775807 := Int.le_trans hc p2
    omega

/-- the hypotheses are met by the last of a thousand million edges of type 1 out of two types -/
example : 1 < ({ emptyGraph 0 1 with numTypes := 2 } : Graph).numTypes ∧
    ((2 : Nat) : Int) * (999999999 : Nat) + (1 : Nat) + 1 ≤ (⟨true, false, false⟩ : Machine).maxLid := by decide

/-- **C79**, loops over vertices: each step of the loop over local (and over ghost) vertices is that of the model in which nothing
overflows, provided one more than the number of vertices fits in a local id. -/
theorem c79_vertex_loop (m : Machine) (g : Graph) (h : (g.numLocal : Int) + g.numGhost + 1 ≤ m.maxLid) :
    (∀ i, i ≤ g.numLocal + 1 → iterate m g.numLocal i = g.iterVertex i) ∧
      (∀ i, i ≤ g.numLocal + g.numGhost + 1 → iterate m (g.numLocal + g.numGhost) i = g.iterGhost i) := by
  have key : ∀ (n i : Nat), (n : Int) + 1 ≤ m.maxLid → i ≤ n + 1 →
      iterate m n i = if i = n + 1 then .ok (0, 0) else .ok (i, i + 1) := by
    intro n i hn hi
    have hi' : (i : Int) ≤ m.maxLid := by omega
    unfold iterate
    rw [narrow_nat hi', lid_ok (by omega) hn]
    simp only [Outcome.bind_ok]
    by_cases hc : i = n + 1
    · rw [if_pos hc, if_pos (by omega)]; rfl
    · rw [if_neg hc, if_neg (by omega), lid_ok (by omega) (by omega)]
      have e : word ((i : Int) + 1) = i + 1 := by
        have : ((i + 1 : Nat) : Int) ≤ m.maxLid := by push_cast; omega
        have := word_nat this; push_cast at this; exact this
      simp only [Outcome.bind_ok, toPtr, e, word_nat hi']
      rfl
  constructor
  · intro i hi
    rw [key _ _ (by omega) hi]; rfl
  · intro i hi
    have := key (g.numLocal + g.numGhost) i (by push_cast; omega) hi
    push_cast at this
    rw [this]; rfl

/-- **C79**, where it fails: on a big-endian machine with 32-bit local ids, if the library is not told so, every vertex handle decodes to -1. -/
theorem c79_byte_order_not_told (l : Nat) (h : l + 1 ≤ 2147483647) :
    fromPtr ⟨false, false, false⟩ (Agi.getVertex l) = .ok (-1) := by
  unfold fromPtr slot signed Machine.width Agi.getVertex
  simp only [memBytes, ofMem, leBytes, ofLe, if_true, if_false, Bool.false_eq_true, List.reverse_cons, List.reverse_nil, List.nil_append,
      List.cons_append, List.take, List.drop, Nat.zero_mul]
  have e1 : (l + 1) / 256 / 256 / 256 / 256 = 0 := by omega
  simp only [e1]
  decide

/-- **C79**, where it fails: two edge types and more than 2^30 edges (which 32-bit local ids can count). The loop over the edges of the
type yields a handle, but `u(edge)` takes it for another edge of another type (numbers below zero), and the loop over the edges of
a vertex computes the handle with an overflow. -/
theorem c79_many_edges (m : Machine) (h : m.long = false) :
    ((1073741824 : Nat) : Int) ≤ m.maxLid ∧ iterated 2 1073741824 1 = 2147483650 ∧
      decodeEdge 2 2147483650 = .ok (1, 1073741824) ∧ decodeU m 2 2147483650 = .ok (-1, -1073741823) ∧
      getEdge m 2 1073741824 1 = .ub := by
  obtain ⟨a, b, c⟩ := m
  simp only at h
  subst h
  cases a <;> cases c <;> exact ⟨by decide, by decide, by decide, by decide, by decide⟩

end Verif.Agi.Word
