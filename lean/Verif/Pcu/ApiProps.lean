import Verif.Pcu.ApiModel
import Verif.Pcu.BufferLemmas
import Verif.Pcu.OrderProps
/-!
# C29: calls at the wrong time are refused, legal histories are accepted
-/
namespace Verif.Pcu.Api

/-! ## specification: when is a call legal (ordering off) -/

/-- where the user is: nothing begun; packing; receiving with `rest` the unread bytes of the message
received last -/
inductive Phase where
  | idle
  | packing
  | receiving (rest : List UInt8)

/-- the bytes a user could still unpack -/
def Phase.unread : Phase → List UInt8
  | .receiving rest => rest
  | _ => []

/-- the contract of a single call: `none` means the call has to be refused -/
def legal (size : Nat) (p : Phase) : Call → Option (Ret × Phase)
  | .begin => match p with
    | .idle => some (.unit, .packing)
    | _ => none
  | .pack to _ => match p with
    | .packing => if 0 ≤ to ∧ to < size then some (.unit, .packing) else none
    | _ => none
  | .send => match p with
    | .packing => some (.unit, .receiving [])
    | _ => none
  | .listen arrivals => match p, arrivals with
    | .receiving [], a :: _ => some (.bool true, .receiving a.bytes)
    | .receiving [], [] => some (.bool false, .idle)
    | _, _ => none
  | .unpack n =>
    if n ≤ p.unread.length then
      some (.bytes (p.unread.take n), match p with
        | .receiving rest => .receiving (rest.drop n)
        | q => q)
    else none
  | .init => none
  | .setOrder _ => none

/-- the contract of a history -/
def legalRun (size : Nat) : Phase → List Call → Option (List Ret × Phase)
  | p, [] => some ([], p)
  | p, c :: cs => match legal size p c with
    | none => none
    | some (r, p) => match legalRun size p cs with
      | none => none
      | some (rs, p) => some (r :: rs, p)

/-- calls of a running program: not the initialisation, not switching the ordering -/
def Call.plain : Call → Bool
  | .init => false
  | .setOrder _ => false
  | _ => true

/-! ## refinement -/

def modeOf : Phase → Mode
  | .idle => .idle
  | .packing => .pack
  | .receiving _ => .receiving

structure Rel (s : St) (p : Phase) : Prop where
  inited : s.inited = true
  order : s.order = none
  mode : s.mode = modeOf p
  buf : ∃ msg k, Buffer.Reading s.received msg k ∧ p.unread = msg.drop k

theorem reading_make : Buffer.Reading Buffer.make [] 0 := ⟨rfl, rfl, Nat.zero_le _⟩

theorem step_refines (size : Nat) {s : St} {p : Phase} (h : Rel s p) (c : Call) (hc : c.plain = true) :
    match legal size p c with
    | none => step size s c = .fail
    | some (r, p') => ∃ s', step size s c = .ok (r, s') ∧ Rel s' p' := by
  obtain ⟨i, md, rc, o, out⟩ := s
  obtain ⟨hi, ho, hm, msg, k, hread, hrest⟩ := h
  simp only at hi ho hm hread
  subst hi ho hm
  cases c with
  | init => simp [Call.plain] at hc
  | setOrder b => simp [Call.plain] at hc
  | begin =>
    cases p with
    | idle => exact ⟨_, by simp [step, modeOf]; rfl, rfl, rfl, rfl, msg, k, hread, hrest⟩
    | packing => simp [legal, step, modeOf]
    | receiving r => simp [legal, step, modeOf]
  | pack to data =>
    cases p with
    | idle => by_cases hto : to < 0 ∨ (size : Int) ≤ to <;> simp [legal, step, modeOf]
    | packing =>
      by_cases hto : 0 ≤ to ∧ to < size
      · simp only [legal, hto, and_self, if_true]
        have hto' : ¬ (to < 0 ∨ (size : Int) ≤ to) := by omega
        exact ⟨_, by simp only [step, modeOf, hto']; rfl, rfl, rfl, rfl, msg, k, hread, hrest⟩
      · simp only [legal, hto, if_false]
        have hto' : to < 0 ∨ (size : Int) ≤ to := by omega
        simp [step, hto']
    | receiving r => by_cases hto : to < 0 ∨ (size : Int) ≤ to <;> simp [legal, step, modeOf]
  | send =>
    cases p with
    | idle => simp [legal, step, modeOf]
    | packing => exact ⟨_, by simp [step, modeOf]; rfl, rfl, rfl, rfl, msg, k, hread, hrest⟩
    | receiving r => simp [legal, step, modeOf]
  | listen arrivals =>
    cases p with
    | idle => simp [legal, step, modeOf, msgReceive]
    | packing => simp [legal, step, modeOf, msgReceive]
    | receiving rest =>
      simp only [Phase.unread] at hrest
      have hw := Buffer.walked_iff rc msg k hread
      cases rest with
      | cons x rest =>
        have hk : k < msg.length := by
          by_cases hk : k < msg.length
          · exact hk
          · rw [List.drop_eq_nil_of_le (by omega)] at hrest; simp at hrest
        have hnw : rc.walked = false := by
          cases hwd : rc.walked with
          | false => rfl
          | true => have := hw.mp hwd; omega
        simp [legal, step, modeOf, msgReceive, hnw]
      | nil =>
        have hk : k = msg.length := by
          have h1 : msg.length ≤ k := List.drop_eq_nil_iff.mp hrest.symm
          have h2 := hread.le
          omega
        have hwd : rc.walked = true := hw.mpr hk
        cases arrivals with
        | nil =>
          exact ⟨_, by simp [step, modeOf, msgReceive, hwd]; rfl,
            rfl, rfl, rfl, [], 0, reading_make, rfl⟩
        | cons a as =>
          obtain ⟨b, hb, hbr⟩ := Buffer.receive_spec rc a.bytes
          exact ⟨_, by simp [step, modeOf, msgReceive, hwd, hb]; rfl,
            rfl, rfl, rfl, a.bytes, 0, hbr, rfl⟩
  | unpack n =>
    by_cases hn : n ≤ p.unread.length
    · have hle : k + n ≤ msg.length := by
        have h2 := hread.le
        rw [hrest, List.length_drop] at hn; omega
      obtain ⟨b, hb, hbr⟩ := Buffer.unpack_ok rc msg k n hread hle
      simp only [legal, hn, if_true]
      refine ⟨_, by simp [step, hb, ← hrest]; rfl, rfl, rfl, ?_, msg, k + n, hbr, ?_⟩
      · cases p <;> rfl
      · cases p with
        | receiving r => simp only [Phase.unread] at hrest ⊢; rw [hrest, List.drop_drop]
        | idle =>
          simp only [Phase.unread] at hrest ⊢
          have := congrArg List.length hrest
          simp at this
          exact (List.drop_eq_nil_of_le (by omega)).symm
        | packing =>
          simp only [Phase.unread] at hrest ⊢
          have := congrArg List.length hrest
          simp at this
          exact (List.drop_eq_nil_of_le (by omega)).symm
    · have hlt : msg.length < k + n := by
        rw [hrest, List.length_drop] at hn; omega
      have hf := Buffer.unpack_fail rc msg k n hread hlt
      simp [legal, hn, step, hf]

theorem run_refines (size : Nat) : ∀ (cs : List Call) (s : St) (p : Phase), Rel s p →
    (∀ c ∈ cs, c.plain = true) →
    match legalRun size p cs with
    | none => run size s cs = .fail
    | some (rs, p') => ∃ s', run size s cs = .ok (rs, s') ∧ Rel s' p' := by
  intro cs
  induction cs with
  | nil => intro s p h _; exact ⟨s, rfl, h⟩
  | cons c cs ih =>
    intro s p h hpl
    have h1 := step_refines size h c (hpl c (by simp))
    simp only [legalRun, run]
    cases hl : legal size p c with
    | none =>
      rw [hl] at h1
      simp only at h1 ⊢
      simp [h1]
    | some rp =>
      obtain ⟨r, p1⟩ := rp
      rw [hl] at h1
      simp only at h1 ⊢
      obtain ⟨s1, e1, hr1⟩ := h1
      have h2 := ih s1 p1 hr1 (fun c hc => hpl c (List.mem_cons_of_mem _ hc))
      rw [e1]
      simp only [Outcome.bind_ok]
      cases hl2 : legalRun size p1 cs with
      | none =>
        rw [hl2] at h2
        simp only at h2 ⊢
        simp [h2]
      | some rp2 =>
        obtain ⟨rs, p2⟩ := rp2
        rw [hl2] at h2
        simp only at h2 ⊢
        obtain ⟨s2, e2, hr2⟩ := h2
        exact ⟨s2, by simp [e2], hr2⟩

/-- the state of a program after `PCU_Comm_Init(); PCU_Comm_Order(false);` -/
def start (size : Nat) : Outcome (List Ret × St) := run size fresh [.init, .setOrder false]

/-- **C29, ordering off.**  For every history of Begin/Pack/Send/Listen/Unpack calls after
initialisation: if every call of the history is legal, all of them succeed and return what the
contract says; if some call is illegal – Begin inside a phase, Pack outside Begin…Send or to a rank
outside the job, Send without Begin, Listen outside receiving or before the previous message is
unpacked, Unpack beyond the data – the program stops with a failure.  Undefined behaviour is never
reached. -/
theorem c29_unordered_partial (size : Nat) (cs : List Call) (hpl : ∀ c ∈ cs, c.plain = true) :
    ∃ rs0 s0, start size = .ok (rs0, s0) ∧
      match legalRun size .idle cs with
      | none => run size s0 cs = .fail
      | some (rs, _) => ∃ s, run size s0 cs = .ok (rs, s) := by
  refine ⟨_, _, rfl, ?_⟩
  have h := run_refines size cs
    { fresh with inited := true, order := none } .idle
    ⟨rfl, rfl, rfl, [], 0, reading_make, rfl⟩ hpl
  cases hl : legalRun size .idle cs with
  | none => rw [hl] at h; exact h
  | some rp =>
    rw [hl] at h
    obtain ⟨s, e, _⟩ := h
    exact ⟨s, e⟩

/-- both cases occur: a full phase with a received message, and three illegal histories -/
example : (legalRun 4 .idle [.begin, .pack 3 [1, 2], .send, .listen [⟨2, [5, 6, 7]⟩], .unpack 2, .unpack 1,
      .listen []]).map (·.1) =
      some [.unit, .unit, .unit, .bool true, .bytes [5, 6], .bytes [7], .bool false] ∧
    legalRun 4 .idle [.begin, .pack 4 [1]] = none ∧
    legalRun 4 .idle [.begin, .send, .listen [⟨2, [5]⟩], .listen []] = none ∧
    legalRun 4 .idle [.begin, .begin] = none := by
  simp [legalRun, legal, Phase.unread]

/-! ## ordering on (the default) -/

/-- With ordering on, Begin, Pack and Send are refused exactly as without: Begin unless idle, Pack
outside Begin…Send or to a bad rank, Send without Begin, Listen (when no delivery is pending) outside
receiving. -/
theorem c29_ordered_refuses_partial (size : Nat) (s : St) (o : Order) (ho : s.order = some o) :
    (s.mode ≠ .idle → step size s .begin = .fail) ∧
    (∀ to data, (s.mode ≠ .pack ∨ to < 0 ∨ (size : Int) ≤ to) → step size s (.pack to data) = .fail) ∧
    (s.mode ≠ .pack → step size s .send = .fail) ∧
    (∀ arrivals, o.ready = false → s.mode ≠ .receiving → step size s (.listen arrivals) = .fail) := by
  refine ⟨?_, ?_, ?_, ?_⟩
  · intro h; cases hi : s.inited <;> simp [step, hi, h]
  · intro to data h
    cases hi : s.inited
    · simp [step, hi]
    · by_cases hto : to < 0 ∨ (size : Int) ≤ to
      · simp [step, hi, hto]
      · have hm : s.mode ≠ .pack := by
          rcases h with h | h
          · exact h
          · exact absurd h hto
        simp [step, hi, hto, hm]
  · intro h; cases hi : s.inited <;> simp [step, hi, h]
  · intro arrivals hr hm
    cases hi : s.inited
    · simp [step, hi]
    · simp [step, hi, ho, hr, prepareAll, hm]

/-- the initial state of a default program satisfies the hypotheses -/
example : ∃ s, run 3 fresh [.init] = .ok ([.unit], s) ∧ s.order = some Order.init ∧ s.mode ≠ .pack :=
  ⟨_, rfl, rfl, by decide⟩

/-- **Defect.**  With ordering on (the default after `PCU_Comm_Init`), Begin during a phase is *not*
refused once the messages have been collected: the state is already idle although the receive loop has
not ended.  The next Listen then returns a message of the *old* phase. -/
theorem c29_ordered_stale_delivery :
    ∃ s, run 2 fresh [.init, .begin, .send, .listen [⟨0, [1]⟩, ⟨1, [2]⟩], .unpack 1,
        .begin, .send, .listen [⟨0, [77]⟩], .unpack 1] =
      .ok ([.unit, .unit, .unit, .bool true, .bytes [1],
            .unit, .unit, .bool true, .bytes [2]], s) := ⟨_, rfl⟩

/-- **Defect.**  With ordering on, Unpack outside the receive loop is undefined behaviour (a NULL array
is indexed) instead of a failure. -/
theorem c29_ordered_unpack_undefined : run 2 fresh [.init, .begin, .unpack 1] = .ub := rfl

/-! ### a complete legal phase with ordering on -/

/-- the calls of a complete phase: Begin, Packs, Send, then Listen with a complete Unpack after each
success, until Listen fails -/
def phaseCalls (packs : List (Int × List UInt8)) (arrivals delivered : List Arrival) : List Call :=
  .begin :: packs.map (fun p => .pack p.1 p.2) ++ .send ::
    (delivered.flatMap (fun a => [.listen arrivals, .unpack a.bytes.length]) ++ [.listen arrivals])

/-- what they have to return -/
def phaseRets (packs : List (Int × List UInt8)) (delivered : List Arrival) : List Ret :=
  .unit :: packs.map (fun _ => .unit) ++ .unit ::
    (delivered.flatMap (fun a => [.bool true, .bytes a.bytes]) ++ [.bool false])

/-- between phases, ordering on -/
def Between (s : St) : Prop :=
  s.inited = true ∧ s.mode = .idle ∧ s.order = some Order.init ∧ s.received.walked = true

theorem run_append (size : Nat) : ∀ (c1 c2 : List Call) (s s1 s2 : St) (r1 r2 : List Ret),
    run size s c1 = .ok (r1, s1) → run size s1 c2 = .ok (r2, s2) →
    run size s (c1 ++ c2) = .ok (r1 ++ r2, s2) := by
  intro c1
  induction c1 with
  | nil => intro c2 s s1 s2 r1 r2 h1 h2; simp [run] at h1; obtain ⟨rfl, rfl⟩ := h1; simpa using h2
  | cons c c1 ih =>
    intro c2 s s1 s2 r1 r2 h1 h2
    simp only [run] at h1
    simp only [List.cons_append, run]
    cases hs : step size s c with
    | fail => rw [hs] at h1; simp at h1
    | ub => rw [hs] at h1; simp at h1
    | ok x =>
      obtain ⟨r, s'⟩ := x
      rw [hs] at h1
      simp only [Outcome.bind_ok] at h1
      cases hr : run size s' c1 with
      | fail => rw [hr] at h1; simp at h1
      | ub => rw [hr] at h1; simp at h1
      | ok y =>
        obtain ⟨rs, s''⟩ := y
        rw [hr] at h1
        simp only [Outcome.bind_ok, Outcome.pure_eq, Outcome.ok.injEq, Prod.mk.injEq] at h1
        obtain ⟨rfl, rfl⟩ := h1
        have := ih c2 s' s'' s2 rs r2 hr h2
        simp [this]

theorem run_packs (size : Nat) : ∀ (packs : List (Int × List UInt8)) (s : St), s.inited = true →
    s.mode = .pack → (∀ p ∈ packs, 0 ≤ p.1 ∧ p.1 < size) →
    run size s (packs.map (fun p => .pack p.1 p.2)) =
      .ok (packs.map (fun _ => .unit), { s with out := s.out ++ packs }) := by
  intro packs
  induction packs with
  | nil => intro s _ _ _; simp [run]
  | cons p packs ih =>
    intro s hi hm hp
    have h1 := hp p (by simp)
    have h2 : ¬ (p.1 < 0 ∨ (size : Int) ≤ p.1) := by omega
    obtain ⟨i, md, rc, o, out⟩ := s
    simp only at hi hm
    subst hi hm
    have := ih ⟨true, .pack, rc, o, out ++ [p]⟩ rfl rfl (fun q hq => hp q (by simp [hq]))
    simp only [List.map_cons, run, step, h2]
    simp [this]

theorem run_ready (size : Nat) (arr rem : List Arrival) : ∀ (D : List OMsg) (t : AA OMsg) (s : St),
    s.inited = true →
    s.order = some (Order.mk t (D ++ rem.map Order.stored) (D.length + rem.length) true
      ((D.length : Int) - 1)) →
    run size s (rem.flatMap (fun a => [.listen arr, .unpack a.bytes.length]) ++ [.listen arr]) =
      .ok (rem.flatMap (fun a => [.bool true, .bytes a.bytes]) ++ [.bool false],
        { s with order := some Order.init }) := by
  induction rem with
  | nil =>
    intro D t s hi ho
    simp [run, step, hi, ho, Order.receive, Order.init]
  | cons a rem ih =>
    intro D t s hi ho
    have h1 : ¬ ((D.length : Int) = ((D.length + (rem.length + 1) : Nat) : Int)) := by omega
    have hr : Buffer.Reading (Order.stored a).buf a.bytes 0 := ⟨rfl, rfl, Nat.zero_le _⟩
    obtain ⟨b', eb, -⟩ := Buffer.unpack_ok _ a.bytes 0 a.bytes.length hr (by omega)
    have hbeg : (Order.stored a).buf.begin' = (Order.stored a).buf := rfl
    have hget : (D ++ Order.stored a :: rem.map Order.stored)[D.length]? = some (Order.stored a) := by
      simp
    have hset : ∀ m, (D ++ Order.stored a :: rem.map Order.stored).set D.length m =
        D ++ m :: rem.map Order.stored := by intro m; simp
    have hneg : ¬ ((D.length : Int) < 0) := by omega
    have key := ih (D ++ [{ Order.stored a with buf := b' }]) t
      { s with order := some (Order.mk t ((D ++ [{ Order.stored a with buf := b' }]) ++ rem.map Order.stored) ((D ++ [{ Order.stored a with buf := b' }]).length + rem.length) true (((D ++ [{ Order.stored a with buf := b' }]).length : Int) - 1)) } hi rfl
    have e1 : ((D.length + 1 : Nat) : Int) - 1 = D.length := by omega
    have e2 : D.length + 1 + rem.length = D.length + (rem.length + 1) := by omega
    simp only [List.length_append, List.length_cons, List.length_nil, Nat.zero_add,
      List.append_assoc, List.singleton_append, e1, e2] at key
    simp only [List.flatMap_cons, List.cons_append, List.nil_append, run, step, hi, ho,
      Order.receive, if_true, Outcome.bind_ok, Int.sub_add_cancel, h1, if_false, Order.current, hneg,
      Int.toNat_natCast, hget, Outcome.ofOption_some, Order.setCurrent, hset, hbeg, Outcome.pure_eq,
      Order.unpack, eb, List.drop_zero, List.take_length, List.length_cons, List.map_cons, not_true_eq_false]
    rw [hi] at key
    rw [key]
    rfl

/-- **C29, ordering on (the default), legal programs.**  A complete legal phase - packs only to ranks
of the job, every delivered message unpacked - never fails, whatever arrives in whatever order (at
most one message per sender), returns every message completely in sender order, and ends in a state
from which the next phase can start the same way. -/
theorem c29_ordered_legal_phase_partial (size : Nat) (s : St) (hs : Between s)
    (packs : List (Int × List UInt8)) (hp : ∀ p ∈ packs, 0 ≤ p.1 ∧ p.1 < size)
    (arrivals : List Arrival) (hd : (arrivals.map Arrival.sender).Nodup) :
    ∃ (delivered : List Arrival) (s' : St),
      delivered.Perm arrivals ∧ delivered.Pairwise (fun a b => a.sender < b.sender) ∧
      run size s (phaseCalls packs arrivals delivered) = .ok (phaseRets packs delivered, s') ∧
      Between s' := by
  obtain ⟨t, del, e, hdel, hpd, hsort⟩ := Order.prepare_spec arrivals hd
  obtain ⟨hi, hm, ho, hw⟩ := hs
  refine ⟨del, { s with mode := .idle, received := .make, out := [], order := some Order.init }, hpd, hsort, ?_, ?_⟩
  · unfold phaseCalls phaseRets
    have hb : run size s [.begin] = .ok ([.unit], { s with mode := .pack }) := by
      simp [run, step, hi, hm]
    have hpk := run_packs size packs { s with mode := .pack } hi rfl hp
    have hsn : run size { s with mode := .pack, out := s.out ++ packs } [.send] =
        .ok ([.unit], { s with mode := .receiving, out := s.out ++ packs }) := by
      simp [run, step, hi]
    have hrest : run size { s with mode := .receiving, out := s.out ++ packs }
        (del.flatMap (fun a => [.listen arrivals, .unpack a.bytes.length]) ++ [.listen arrivals]) =
        .ok (del.flatMap (fun a => [.bool true, .bytes a.bytes]) ++ [.bool false],
          { s with mode := .idle, received := .make, out := [], order := some Order.init }) := by
      have hl := run_ready size arrivals del [] t
        { s with mode := .idle, received := .make, out := [], order := some (Order.mk t (del.map Order.stored) del.length true (-1)) } hi (by simp)
      rw [← hl]
      have hone : step size { s with mode := .receiving, out := s.out ++ packs } (.listen arrivals) =
          step size { s with mode := .idle, received := .make, out := [], order := some (Order.mk t (del.map Order.stored) del.length true (-1)) } (.listen arrivals) := by
        simp [step, hi, ho, prepareAll, hw, e]
        simp [Order.init]
      cases del with
      | nil => simp only [List.flatMap_nil, List.nil_append, run, hone]
      | cons a del => simp only [List.flatMap_cons, List.cons_append, run, hone]
    exact run_append size _ _ _ _ _ _ _ (run_append size _ _ _ _ _ _ _ hb hpk)
      (run_append size [.send] _ _ _ _ [.unit] _ hsn hrest)
  · exact ⟨hi, rfl, rfl, rfl⟩

/-- the state after `PCU_Comm_Init` is `Between`, and there is a two-rank phase with two messages -/
example : (∃ s, run 3 fresh [.init] = .ok ([.unit], s) ∧ Between s) ∧
    (([⟨2, [1, 2]⟩, ⟨0, []⟩] : List Arrival).map Arrival.sender).Nodup :=
  ⟨⟨_, rfl, rfl, rfl, rfl, rfl⟩, by decide⟩

end Verif.Pcu.Api
