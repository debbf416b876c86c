import Verif.Pcu.RecvLemmas
/-! # The receiving loop with and without ordering -/
namespace Verif.Pcu.Recv
open Verif.Pcu.Api

/-- a message has been received, ordering on -/
def InOrd (w : World) (c : Int × List UInt8) (todo : List Arrival) : Prop :=
  ∃ (t : AA OMsg) (D : List OMsg) (m : OMsg) (msg : List UInt8) (k : Nat),
    w.st.inited = true ∧ w.st.mode = .idle ∧ w.st.received = .make ∧
    w.st.order = some (Order.mk t (D ++ m :: todo.map Order.stored) (D.length + 1 + todo.length) true (D.length : Int)) ∧
    m.sender = c.1 ∧ Buffer.Reading m.buf msg k ∧ c.2 = msg.drop k

/-- or nothing has been received yet -/
def AtOrd (w : World) (c : Int × List UInt8) (todo : List Arrival) : Prop :=
  InOrd w c todo ∨
  (c.2 = [] ∧ w.st.inited = true ∧ w.st.mode = .receiving ∧ w.st.order = some Order.init ∧
    w.st.received.walked = true ∧
    ∃ t, Order.init.prepare w.rest = .ok (Order.mk t (todo.map Order.stored) todo.length true (-1)))

theorem get_mid {α : Type} (D E : List α) (m : α) : (D ++ m :: E)[D.length]? = some m := by simp

theorem set_mid' {α : Type} (D E : List α) (m n : α) : (D ++ m :: E).set D.length n = D ++ n :: E := by simp

theorem walked_drop {b : Buffer} {msg : List UInt8} {k : Nat} (h : Buffer.Reading b msg k) :
    b.walked = (msg.drop k).isEmpty := by
  have h1 := Buffer.walked_iff b msg k h
  have h2 := h.le
  by_cases hk : k = msg.length
  · rw [h1.mpr hk, hk]; simp
  · have : b.walked = false := by
      cases hb : b.walked with
      | false => rfl
      | true => exact absurd (h1.mp hb) hk
    rw [this]
    symm
    rw [List.isEmpty_eq_false_iff]
    intro h0
    have := List.drop_eq_nil_iff.mp h0
    omega

theorem stream_ord (size : Nat) : Stream size AtOrd InOrd (fun w => Between w.st) where
  unpacked := by
    intro w c todo h
    rcases h with ⟨t, D, m, msg, k, hi, hm, hr, ho, hs, hread, hc⟩ | ⟨hc, hi, hm, ho, hw, t, ht⟩
    · have hneg : ¬ ((D.length : Int) < 0) := by omega
      simp only [unpacked, hi, ho, Order.unpacked, Order.current, hneg, if_false, Int.toNat_natCast, get_mid,
        Outcome.ofOption_some, Outcome.bind_ok, Outcome.pure_eq, not_true_eq_false, if_true]
      rw [walked_drop hread, hc]
    · simp [unpacked, hi, ho, Order.unpacked, Order.init, hc]
  sender := by
    intro w c todo h
    obtain ⟨t, D, m, msg, k, hi, hm, hr, ho, hs, hread, hc⟩ := h
    have hneg : ¬ ((D.length : Int) < 0) := by omega
    simp only [sender, hi, ho, Order.receivedFrom, Order.current, hneg, if_false, Int.toNat_natCast, get_mid,
      Outcome.ofOption_some, Outcome.bind_ok, Outcome.pure_eq, not_true_eq_false, hs]
  next := by
    intro w c a todo h hc0
    rcases h with ⟨t, D, m, msg, k, hi, hm, hr, ho, hs, hread, hc⟩ | ⟨hc, hi, hm, ho, hw, t, ht⟩
    · have hneg : ¬ ((D.length : Int) + 1 < 0) := by omega
      have hne : ¬ ((D.length : Int) + 1 = ((D.length + 1 + (todo.length + 1) : Nat) : Int)) := by omega
      have hidx : ((D.length : Int) + 1).toNat = (D ++ [m]).length := by simp
      have harr : D ++ m :: Order.stored a :: todo.map Order.stored = (D ++ [m]) ++ Order.stored a :: todo.map Order.stored := by simp
      simp only [listen, step, hi, ho, not_true_eq_false, if_false, if_true, Order.receive, Outcome.bind_ok, List.length_cons, hne,
        Order.current, Order.setCurrent, hneg, hidx, List.map_cons, harr, get_mid, set_mid', Outcome.ofOption_some, Outcome.pure_eq]
      refine ⟨_, rfl, .inl ⟨t, D ++ [m], Order.stored a, a.bytes, 0, rfl, hm, hr, ?_, rfl, ⟨rfl, rfl, Nat.zero_le _⟩, rfl⟩⟩
      simp only [Option.some.injEq, Order.mk.injEq, List.length_append, List.length_cons, List.length_nil, true_and]
      refine ⟨rfl, by omega, by omega⟩
    · have hne : ¬ ((-1 : Int) + 1 = ((todo.length + 1 : Nat) : Int)) := by omega
      simp only [listen, step, hi, ho, not_true_eq_false, if_false, prepareAll, hm, hw, ht, Order.init, Order.receive,
        Outcome.bind_ok, Outcome.pure_eq, if_true, ne_eq, Bool.true_eq_false, List.length_cons, hne, Order.current, Order.setCurrent,
        List.map_cons, Bool.false_eq_true]
      have ht' := ht
      simp only [Order.init, List.map_cons, List.length_cons] at ht'
      simp only [ht', Outcome.bind_ok, if_true, hne, if_false]
      refine ⟨_, rfl, .inl ⟨t, [], Order.stored a, a.bytes, 0, rfl, rfl, rfl, ?_, rfl, ⟨rfl, rfl, Nat.zero_le _⟩, rfl⟩⟩
      simp only [Option.some.injEq, Order.mk.injEq, List.length_nil, true_and]
      refine ⟨rfl, by omega, by omega⟩
  last := by
    intro w c h hc0
    rcases h with ⟨t, D, m, msg, k, hi, hm, hr, ho, hs, hread, hc⟩ | ⟨hc, hi, hm, ho, hw, t, ht⟩
    · have he : (D.length : Int) + 1 = ((D.length + 1 + 0 : Nat) : Int) := by omega
      simp only [listen, step, hi, ho, not_true_eq_false, if_false, if_true, Order.receive, Outcome.bind_ok, List.length_nil, he, Outcome.pure_eq]
      exact ⟨_, rfl, rfl, hm, rfl, by simp [hr]; rfl⟩
    · have ht' := ht
      simp only [Order.init, List.map_nil, List.length_nil] at ht'
      simp only [listen, step, hi, ho, not_true_eq_false, if_false, prepareAll, hm, hw, ht', Order.init, Order.receive,
        Outcome.bind_ok, Outcome.pure_eq, if_true, ne_eq, Bool.true_eq_false, Bool.false_eq_true]
      exact ⟨_, rfl, rfl, rfl, rfl, rfl⟩
  take := by
    intro w c todo n h hn
    obtain ⟨t, D, m, msg, k, hi, hm, hr, ho, hs, hread, hc⟩ := h
    have hneg : ¬ ((D.length : Int) < 0) := by omega
    have hle : k + n ≤ msg.length := by
      have h2 := hread.le
      rw [hc, List.length_drop] at hn; omega
    obtain ⟨b, hb, hbr⟩ := Buffer.unpack_ok m.buf msg k n hread hle
    simp only [unpack, step, hi, ho, not_true_eq_false, if_false, Order.unpack, Order.current, Order.setCurrent, hneg,
      Int.toNat_natCast, get_mid, set_mid', Outcome.ofOption_some, Outcome.bind_ok, Outcome.pure_eq, hb]
    rw [← hc]
    exact ⟨_, rfl, t, D, { m with buf := b }, msg, k + n, rfl, hm, hr, rfl, hs, hbr, by simp only [hc, List.drop_drop]⟩
  inside := by
    intro w c todo h hne
    rcases h with h | ⟨hc, _⟩
    · exact h
    · exact absurd hc hne
  outside := fun h => .inl h

/-- ordering off: the receive buffer holds the current message -/
def AtAny (w : World) (c : Int × List UInt8) (todo : List Arrival) : Prop :=
  w.st.inited = true ∧ w.st.mode = .receiving ∧ w.st.order = none ∧ w.rest = todo ∧ (c.2 ≠ [] → w.peer = c.1) ∧
    ∃ (msg : List UInt8) (k : Nat), Buffer.Reading w.st.received msg k ∧ c.2 = msg.drop k

/-- a message has been received -/
def InAny (w : World) (c : Int × List UInt8) (todo : List Arrival) : Prop :=
  AtAny w c todo ∧ w.peer = c.1

/-- between phases, ordering off -/
def BetweenAny (s : St) : Prop :=
  s.inited = true ∧ s.mode = .idle ∧ s.order = none ∧ s.received.walked = true

theorem stream_any (size : Nat) : Stream size AtAny InAny (fun w => BetweenAny w.st) where
  unpacked := by
    intro w c todo ⟨hi, hm, ho, hr, hp, msg, k, hread, hc⟩
    simp only [unpacked, hi, ho, not_true_eq_false, if_false, walked_drop hread, hc]
  sender := by
    intro w c todo ⟨⟨hi, hm, ho, hr, hp, msg, k, hread, hc⟩, hpeer⟩
    simp only [sender, hi, ho, not_true_eq_false, if_false, hpeer]
  next := by
    intro w c a todo ⟨hi, hm, ho, hr, hp, msg, k, hread, hc⟩ hc0
    have hw : w.st.received.walked = true := by rw [walked_drop hread, ← hc, hc0]; rfl
    obtain ⟨b, hb, hbr⟩ := Buffer.receive_spec w.st.received a.bytes
    simp only [listen, step, hi, ho, not_true_eq_false, if_false, msgReceive, hm, ne_eq, hw, hr, List.head?_cons, hb,
      Outcome.bind_ok, Outcome.pure_eq, Bool.true_eq_false]
    exact ⟨_, rfl, rfl, rfl, rfl, rfl, fun _ => rfl, a.bytes, 0, hbr, rfl⟩
  last := by
    intro w c ⟨hi, hm, ho, hr, hp, msg, k, hread, hc⟩ hc0
    have hw : w.st.received.walked = true := by rw [walked_drop hread, ← hc, hc0]; rfl
    simp only [listen, step, hi, ho, not_true_eq_false, if_false, msgReceive, hm, ne_eq, hw, hr, List.head?_nil,
      Outcome.bind_ok, Outcome.pure_eq, Bool.true_eq_false]
    exact ⟨_, rfl, rfl, rfl, rfl, rfl⟩
  take := by
    intro w c todo n ⟨⟨hi, hm, ho, hr, hp, msg, k, hread, hc⟩, hpeer⟩ hn
    have hle : k + n ≤ msg.length := by
      have h2 := hread.le
      rw [hc, List.length_drop] at hn; omega
    obtain ⟨b, hb, hbr⟩ := Buffer.unpack_ok w.st.received msg k n hread hle
    simp only [unpack, step, hi, ho, not_true_eq_false, if_false, hb, Outcome.bind_ok, Outcome.pure_eq]
    rw [← hc]
    exact ⟨_, rfl, ⟨rfl, hm, rfl, hr, fun _ => hpeer, msg, k + n, hbr, by simp only [hc, List.drop_drop]⟩, hpeer⟩
  inside := fun h hne => ⟨h, h.2.2.2.2.1 hne⟩
  outside := fun h => h.1

end Verif.Pcu.Recv
