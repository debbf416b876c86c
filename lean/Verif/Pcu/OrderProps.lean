import Verif.Pcu.OrderModel
import Verif.Pcu.AAContents
import Verif.Pcu.BufferLemmas
/-!
# C27 – ordered receive delivers each message once, in sender order
-/
namespace Verif.Pcu.Order

/-- the stored form of an arrived message -/
def stored (a : Arrival) : OMsg := { sender := a.sender, buf := ⟨a.bytes.map some, 0⟩ }

theorem takeMessage_eq (a : Arrival) : takeMessage a = .ok (stored a) := by
  obtain ⟨b, e, h⟩ := Buffer.receive_spec Buffer.make a.bytes
  have : b = ⟨a.bytes.map some, 0⟩ := by
    have h1 := h.mem_eq; have h2 := h.size_eq
    cases b; simp_all
  subst this
  simp [takeMessage, e, stored]

theorem insertL_perm {α : Type} {key : α → Int} {x : α} {l : List α} (h : ∀ a ∈ l, key a ≠ key x) :
    (AA.insertL key x l).Perm (x :: l) := by
  induction l with
  | nil => simp [AA.insertL]
  | cons b l ih =>
    have hb := h b (by simp)
    simp only [AA.insertL]
    split
    · exact List.Perm.refl _
    · rw [if_pos (by omega)]
      exact ((ih (fun a ha => h a (by simp [ha]))).cons b).trans (List.Perm.swap _ _ _)

theorem collect_spec (as : List Arrival) (t : AA OMsg) (hI : AA.Inv t)
    (hS : AA.Sorted OMsg.sender t.toList)
    (hd : (as.map Arrival.sender).Nodup) (hdis : ∀ a ∈ as, ∀ m ∈ t.toList, m.sender ≠ a.sender) :
    ∃ t', collect t as = .ok t' ∧ AA.Inv t' ∧ AA.Sorted OMsg.sender t'.toList ∧
      t'.toList.Perm (t.toList ++ as.map stored) := by
  induction as generalizing t with
  | nil => exact ⟨t, rfl, hI, hS, by simp⟩
  | cons a as ih =>
    obtain ⟨res, t1, e, hI1, -⟩ := AA.insert_inv OMsg.sender (stored a) t hI
    obtain ⟨hc, -⟩ := AA.insert_contents OMsg.sender (stored a) t hS e
    have hp : t1.toList.Perm (stored a :: t.toList) := by
      rw [hc]; exact insertL_perm (fun m hm => hdis a (by simp) m hm)
    have hS1 : AA.Sorted OMsg.sender t1.toList := by rw [hc]; exact AA.sorted_insertL hS
    simp only [List.map_cons, List.nodup_cons] at hd
    obtain ⟨t2, e2, hI2, hS2, hp2⟩ := ih t1 hI1 hS1 hd.2 (by
      intro a' ha' m hm
      rcases List.mem_cons.mp (hp.mem_iff.mp hm) with rfl | hm
      · intro h
        exact hd.1 (List.mem_map.mpr ⟨a', ha', h.symm⟩)
      · exact hdis a' (by simp [ha']) m hm)
    refine ⟨t2, by simp [collect, takeMessage_eq, e, e2], hI2, hS2, hp2.trans ?_⟩
    simp only [List.map_cons]
    exact (hp.append_right _).trans (List.perm_middle.symm)

theorem listen_ready (rem : List Arrival) (D : List OMsg) (t : AA OMsg) (arr : List Arrival) :
    listen (rem.length + 1)
      { tree := t, array := D ++ rem.map stored, count := D.length + rem.length, ready := true,
        pos := (D.length : Int) - 1 } arr = .ok (rem.map some ++ [none], init) := by
  induction rem generalizing D with
  | nil => simp [listen, receive, init]
  | cons a rem ih =>
    have h1 : ¬ ((D.length : Int) = ((D.length + (rem.length + 1) : Nat) : Int)) := by omega
    have hr : Buffer.Reading (stored a).buf a.bytes 0 := ⟨rfl, rfl, Nat.zero_le _⟩
    obtain ⟨b', eb, -⟩ := Buffer.unpack_ok _ a.bytes 0 a.bytes.length hr (by omega)
    have hcap : (stored a).buf.capacity = a.bytes.length := by simp [stored, Buffer.capacity]
    have hbeg : (stored a).buf.begin' = (stored a).buf := rfl
    have hget : (D ++ stored a :: rem.map stored)[D.length]? = some (stored a) := by
      simp
    have hset : ∀ m, (D ++ stored a :: rem.map stored).set D.length m = D ++ m :: rem.map stored := by
      intro m; simp
    have hget2 : ∀ m, (D ++ m :: rem.map stored)[D.length]? = some m := by intro m; simp
    have hneg : ¬ ((D.length : Int) < 0) := by omega
    have key := ih (D ++ [{ stored a with buf := b' }])
    simp only [List.length_append, List.length_cons, List.length_nil, Nat.zero_add,
      List.append_assoc, List.singleton_append] at key
    have e1 : ((D.length + 1 : Nat) : Int) - 1 = D.length := by omega
    have e2 : D.length + 1 + rem.length = D.length + (rem.length + 1) := by omega
    rw [e1, e2] at key
    simp only [List.length_cons, List.map_cons]
    rw [listen]
    simp only [receive, if_true, Outcome.bind_ok, Int.sub_add_cancel, h1, if_false, current, hneg,
      Int.toNat_natCast, hget, Outcome.ofOption_some, setCurrent, hset, hbeg, Outcome.pure_eq,
      receivedFrom, unpack, hcap, eb, List.drop_zero, List.take_length, key]
    simp [stored]

/-- collecting the messages: the array holds them in sender order -/
theorem prepare_spec (arrivals : List Arrival) (hd : (arrivals.map Arrival.sender).Nodup) :
    ∃ (t : AA OMsg) (del : List Arrival),
      init.prepare arrivals = .ok (Order.mk t (del.map stored) del.length true (-1)) ∧
      del.map stored = t.toList ∧ del.Perm arrivals ∧
      del.Pairwise (fun a b => a.sender < b.sender) := by
  obtain ⟨t, e, -, hS, hp⟩ := collect_spec arrivals .nil trivial List.Pairwise.nil hd
    (by simp [AA.toList])
  simp only [AA.toList, List.nil_append] at hp
  obtain ⟨del, hdel, hpd⟩ : ∃ del : List Arrival, del.map stored = t.toList ∧ del.Perm arrivals := by
    let un : OMsg → Arrival := fun m => ⟨m.sender, m.buf.mem.map (fun o => o.getD 0)⟩
    have hun : ∀ a, un (stored a) = a := by
      intro a; cases a; simp [un, stored, Function.comp_def]
    have hunl : ∀ l : List Arrival, (l.map stored).map un = l := by
      intro l; rw [List.map_map]; conv => rhs; rw [← List.map_id l]
      apply List.map_congr_left; intro a _; exact hun a
    refine ⟨t.toList.map un, ?_, ?_⟩
    · rw [List.map_map]; conv => rhs; rw [← List.map_id t.toList]
      apply List.map_congr_left
      intro m hm
      obtain ⟨a, -, rfl⟩ := List.mem_map.mp (hp.mem_iff.mp hm)
      simp [hun]
    · have := hp.map un
      rwa [hunl] at this
  refine ⟨t, del, ?_, hdel, hpd, ?_⟩
  · have hcount : t.count = del.length := by rw [AA.count_eq, ← hdel]; simp
    simp [prepare, init, e, hcount, ← hdel]
  · have : (del.map stored).Pairwise (fun a b => a.sender < b.sender) := by rw [hdel]; exact hS
    rw [List.pairwise_map] at this
    exact this

theorem listen_phase (arrivals : List Arrival) (hd : (arrivals.map Arrival.sender).Nodup) :
    ∃ delivered : List Arrival,
      listen (arrivals.length + 1) init arrivals = .ok (delivered.map some ++ [none], init) ∧
      delivered.Perm arrivals ∧ delivered.Pairwise (fun a b => a.sender < b.sender) := by
  obtain ⟨t, e, -, hS, hp⟩ := collect_spec arrivals .nil trivial List.Pairwise.nil hd
    (by simp [AA.toList])
  simp only [AA.toList, List.nil_append] at hp
  -- the in-order list is the stored form of some list of arrivals
  obtain ⟨del, hdel, hpd⟩ : ∃ del : List Arrival, del.map stored = t.toList ∧ del.Perm arrivals := by
    let un : OMsg → Arrival := fun m => ⟨m.sender, m.buf.mem.map (fun o => o.getD 0)⟩
    have hun : ∀ a, un (stored a) = a := by
      intro a; cases a; simp [un, stored, Function.comp_def]
    have hunl : ∀ l : List Arrival, (l.map stored).map un = l := by
      intro l; rw [List.map_map]; conv => rhs; rw [← List.map_id l]
      apply List.map_congr_left; intro a _; exact hun a
    refine ⟨t.toList.map un, ?_, ?_⟩
    · rw [List.map_map]; conv => rhs; rw [← List.map_id t.toList]
      apply List.map_congr_left
      intro m hm
      obtain ⟨a, -, rfl⟩ := List.mem_map.mp (hp.mem_iff.mp hm)
      simp [hun]
    · have := hp.map un
      rwa [hunl] at this
  refine ⟨del, ?_, hpd, ?_⟩
  · have hlen : arrivals.length = del.length := hpd.length_eq.symm
    have hprep : init.prepare arrivals = .ok (Order.mk t t.toList t.count true (-1)) := by simp [prepare, init, e]
    have hcount : t.count = del.length := by rw [AA.count_eq, ← hdel]; simp
    have hl := listen_ready del [] t arrivals
    rw [hlen, ← hl]
    simp only [listen, receive]
    rw [hprep]
    simp [init, hcount, ← hdel]
  · have : (del.map stored).Pairwise (fun a b => a.sender < b.sender) := by rw [hdel]; exact hS
    rw [List.pairwise_map] at this
    exact this

/-- **C27.**  Let the messages of a phase arrive in any order, at most one per sender (a sender has
one buffer per destination).  Then exactly as many `PCU_Comm_Listen` calls as there are messages
succeed, the next one returns false; the delivered sequence is the arrived messages with all their
bytes, each exactly once, in strictly increasing sender rank; and the ordering state is back to its
initial value for the next phase. -/
theorem c27_ordered_delivery (arrivals : List Arrival)
    (hd : (arrivals.map Arrival.sender).Nodup) :
    ∃ delivered : List Arrival,
      listen (arrivals.length + 1) init arrivals = .ok (delivered.map some ++ [none], init) ∧
      delivered.Perm arrivals ∧ delivered.Pairwise (fun a b => a.sender < b.sender) :=
  listen_phase arrivals hd

/-- **C27 (determinism).**  What the receiving program sees does not depend on the arrival order. -/
theorem c27_deterministic (arrivals arrivals' : List Arrival) (hp : arrivals.Perm arrivals')
    (hd : (arrivals.map Arrival.sender).Nodup) :
    listen (arrivals.length + 1) init arrivals = listen (arrivals'.length + 1) init arrivals' := by
  obtain ⟨d1, e1, p1, s1⟩ := listen_phase arrivals hd
  obtain ⟨d2, e2, p2, s2⟩ := listen_phase arrivals' ((hp.map _).nodup_iff.mp hd)
  have hperm : d1.Perm d2 := p1.trans (hp.trans p2.symm)
  have : d1 = d2 := by
    refine List.Perm.eq_of_pairwise (le := fun a b => a.sender < b.sender) ?_ s1 s2 hperm
    intro a b _ _ h1 h2; omega
  rw [e1, e2, this]

/-- non-vacuity: three messages from different senders, arriving out of order -/
example : (([⟨2, [1, 2]⟩, ⟨0, []⟩, ⟨1, [9]⟩] : List Arrival).map Arrival.sender).Nodup ∧
    listen 4 init [⟨2, [1, 2]⟩, ⟨0, []⟩, ⟨1, [9]⟩] =
      .ok ([some ⟨0, []⟩, some ⟨1, [9]⟩, some ⟨2, [1, 2]⟩, none], init) := ⟨by decide, rfl⟩

end Verif.Pcu.Order
