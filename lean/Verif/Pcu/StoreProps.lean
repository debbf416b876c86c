import Verif.Pcu.StoreStep
import Mathlib.Data.List.Induction
/-!
# C85: the memory of message passing on one process
-/
namespace Verif.Pcu.Store

/-- a legal history keeps the books -/
theorem run_keeps {P : Nat} {cs : List Call} (hl : Legal P cs) : Keeps (run P cs) := by
  induction cs using List.reverseRecOn with
  | nil => exact Or.inr ⟨fresh, rfl, Or.inr ⟨rfl, ⟨List.Perm.refl _, List.nodup_nil, (fun x hx => by cases hx)⟩, rfl⟩⟩
  | append_singleton cs c ih =>
    have hpre : Legal P cs := by
      intro pre d post he s hs
      exact hl pre d (post ++ [c]) (by rw [he]; simp) s hs
    have e : run P (cs ++ [c]) = (run P cs).bind (fun s => step P s c) := by
      unfold run
      rw [List.foldlM_append]
      show Outcome.bind _ _ = _
      congr 1
      funext s
      show Outcome.bind (step P s c) _ = _
      cases step P s c <;> rfl
    rw [e]
    rcases ih hpre with h | ⟨s, h, hb⟩
    · rw [h]; exact keeps_fail
    · have ha := hl cs c [] rfl s h
      rw [h]
      exact step_keeps P hb c ha

/-- **C85 (safety).**  Whatever the library is asked to do, in any order and any number of times, with messages and operands of any sizes and
arriving in any order: no block is released twice or released while MPI reads it, nothing is read or written outside a block - the calls
end, or the program stops with a message. -/
theorem c85_safe_partial {P : Nat} {cs : List Call} (hl : Legal P cs) : run P cs ≠ .ub := by
  rcases run_keeps hl with h | ⟨s, h, -⟩ <;> rw [h] <;> simp

/-- **C85 (between phases).**  When a phase is over and its last message has been delivered, nothing of it is left: one block for the
ordering object when ordering is on, none when it is off. -/
theorem c85_quiet_partial {P : Nat} {cs : List Call} (hl : Legal P cs) {s : St} (hr : run P cs = .ok s) (hu : s.up = true) (hq : Quiet s) :
    s.heap.live.map Prod.snd = if s.order.isSome then [nodeBytes] else [] := by
  rcases run_keeps hl with h | ⟨t, h, hb⟩
  · rw [h] at hr; exact absurd hr (by simp)
  · rw [h] at hr
    injection hr with hr
    subst hr
    rcases hb with hi | ⟨hd, -, -⟩
    · have hp := hi.idle hq.1
      have hrc := (hi.calm (by rw [hq.1]; simp)).1
      have hh := hi.has.perm
      rw [hp, hrc] at hh
      cases ho : t.order with
      | none =>
        rw [ho] at hh
        have := hh.eq_nil
        simp [this]
      | some o =>
        rw [ho] at hh
        obtain ⟨h1, h2⟩ := (hi.ord o ho).empty (hq.2 o ho)
        have he : msgBlocks [] ++ (Buf.make.blocks ++ ordBlocks (some o)) = [(o.self, nodeBytes)] := by
          simp [ordBlocks, Ord.blocks, h1, h2, msgBlocks, Buf.make, Buf.blocks, optBlock]
        rw [he] at hh
        rw [List.perm_singleton.mp hh]
        simp
    · rw [hd] at hu; cases hu

/-- **C85 (taken down).**  After `PCU_Comm_Free` everything has been released, also what was packed and never sent and what was not
delivered. -/
theorem c85_freed_partial {P : Nat} {cs : List Call} (hl : Legal P (cs ++ [.free])) {s : St} (hr : run P (cs ++ [.free]) = .ok s) :
    s.heap.live = [] ∧ s.up = false := by
  have hpre : Legal P cs := by
    intro pre d post he s hs
    exact hl pre d (post ++ [.free]) (by rw [he]; simp) s hs
  have e : run P (cs ++ [.free]) = (run P cs).bind (fun s => step P s .free) := by
    unfold run
    rw [List.foldlM_append]
    show Outcome.bind _ _ = _
    congr 1
    funext s
    show Outcome.bind (step P s .free) _ = _
    cases step P s .free <;> rfl
  rw [e] at hr
  rcases run_keeps hpre with h | ⟨t, h, hb⟩
  · rw [h] at hr; exact absurd hr (by simp [Outcome.bind])
  · have ha := hl cs .free [] rfl t h
    rw [h] at hr
    have hr' : (if t.up = true then commFree t else .fail) = .ok s := hr
    rcases hb with hi | ⟨hd, -, -⟩
    · rw [if_pos hi.up] at hr'
      obtain ⟨s', e', h1, h2, h3⟩ := commFree_keeps hi ha
      rw [e'] at hr'
      injection hr' with hr'
      subst hr'
      exact ⟨h2.perm.eq_nil, h1⟩
    · rw [hd] at hr'; cases hr'

/-- the bytes of one message buffer and its node -/
theorem msg_bytes (m : Msg) (h : m.buf.cap ≤ 3 * (m.buf.size + 15) / 2) :
    (m.blocks.map Prod.snd).sum ≤ nodeBytes + 3 * (m.buf.size + 15) / 2 := by
  unfold Msg.blocks Buf.blocks optBlock
  cases m.buf.start <;> (simp; try omega)

theorem msgs_bytes (l : List Msg) (h : ∀ m ∈ l, m.buf.cap ≤ 3 * (m.buf.size + 15) / 2) :
    ((msgBlocks l).map Prod.snd).sum ≤ (l.map (fun m => nodeBytes + 3 * (m.buf.size + 15) / 2)).sum := by
  induction l with
  | nil => exact Nat.le_refl _
  | cons m l ih =>
    have h1 := msg_bytes m (h m (by simp))
    have h2 := ih (fun k hk => h k (by simp [hk]))
    have e : msgBlocks (m :: l) = m.blocks ++ msgBlocks l := rfl
    rw [e, List.map_append, List.sum_append, List.map_cons, List.sum_cons]
    omega

/-- **C85 (while packing).**  Between `PCU_Comm_Begin` and `PCU_Comm_Send`, with nothing of an earlier phase left to deliver, the memory in
use is at most one and a half times the bytes packed, and a fixed amount for every receiver packed for. -/
theorem c85_packing_partial {P : Nat} {cs : List Call} (hl : Legal P cs) {s : St} (hr : run P cs = .ok s) (hu : s.up = true) (hm : s.mode = .pack)
    (ho : ∀ o, s.order = some o → o.ready = false) :
    bytes s ≤ nodeBytes + (s.peers.map (fun m => nodeBytes + 3 * (m.buf.size + 15) / 2)).sum := by
  rcases run_keeps hl with h | ⟨t, h, hb⟩
  · rw [h] at hr; exact absurd hr (by simp)
  · rw [h] at hr
    injection hr with hr
    subst hr
    rcases hb with hi | ⟨hd, -, -⟩
    · have hrc := (hi.calm (by rw [hm]; simp)).1
      have hh := (hi.has.perm.map Prod.snd).sum_nat
      rw [hrc, List.map_append, List.sum_append] at hh
      have h1 := msgs_bytes t.peers (fun m hm => (hi.bufs m hm).2)
      have h2 : ((Buf.make.blocks ++ ordBlocks t.order).map Prod.snd).sum ≤ nodeBytes := by
        cases hoo : t.order with
        | none => simp [ordBlocks, Buf.make, Buf.blocks, optBlock]
        | some o =>
          obtain ⟨h1, h2⟩ := (hi.ord o hoo).empty (ho o hoo)
          simp [ordBlocks, Ord.blocks, h1, h2, msgBlocks, Buf.make, Buf.blocks, optBlock]
      unfold bytes
      omega
    · rw [hd] at hu; cases hu

/-! ## the hypotheses are met -/

/-- two phases with ordering, a message of size 0, a collective in between, data packed and never sent, then the end -/
def demo : List Call :=
  [.init, .begin, .pack 1 4, .pack 1 40, .pack 0 0, .packed 1, .send, .listen [(1, 8), (0, 0)], .sender, .unpacked, .listen [], .unpack 5,
   .unpack 3, .received, .listen [], .coll 8 2, .exscan 8 1, .begin, .pack 1 7, .free]

/-- the same without ordering -/
def demoPlain : List Call :=
  [.init, .order false, .begin, .pack 1 4, .send, .listen [(1, 8), (0, 3)], .unpack 8, .listen [(0, 3)], .unpack 3, .listen [], .begin, .send, .listen []]

instance (s : St) (c : Call) : Decidable (Allowed s c) := by
  cases c <;> unfold Allowed
  case unpack => cases h : s.order with
    | none => exact isTrue (fun o hc => by cases hc)
    | some o => exact decidable_of_iff (o.ready = true) ⟨fun h o' ho => by cases ho; exact h, fun h => h o rfl⟩
  case sender => cases h : s.order with
    | none => exact isTrue (fun o hc => by cases hc)
    | some o => exact decidable_of_iff (o.ready = true) ⟨fun h o' ho => by cases ho; exact h, fun h => h o rfl⟩
  case received => cases h : s.order with
    | none => exact isTrue (fun o hc => by cases hc)
    | some o => exact decidable_of_iff (o.ready = true) ⟨fun h o' ho => by cases ho; exact h, fun h => h o rfl⟩
  all_goals infer_instance

/-- checks a history call by call -/
def legalFrom (P : Nat) : List Call → Outcome St → Bool
  | [], _ => true
  | c :: cs, .ok s => decide (Allowed s c) && legalFrom P cs (step P s c)
  | _ :: _, _ => true

theorem legalFrom_sound {P : Nat} (cs : List Call) (s0 : St) (h : legalFrom P cs (.ok s0) = true) :
    ∀ pre c post, cs = pre ++ c :: post → ∀ s, pre.foldlM (step P) s0 = .ok s → Allowed s c := by
  induction cs generalizing s0 with
  | nil => intro pre c post he; exact absurd he (by simp)
  | cons d cs ih =>
    intro pre c post he s hs
    simp only [legalFrom, Bool.and_eq_true, decide_eq_true_eq] at h
    cases pre with
    | nil =>
      cases he
      cases hs
      exact h.1
    | cons e pre =>
      injection he with h1 h2
      subst h1
      rw [List.foldlM_cons] at hs
      have hs' : Outcome.bind (step P s0 d) (fun t => pre.foldlM (step P) t) = .ok s := hs
      cases hst : step P s0 d with
      | ok t =>
        rw [hst] at hs' h
        exact ih t h.2 pre c post h2 s hs'
      | fail => rw [hst] at hs'; cases hs'
      | ub => rw [hst] at hs'; cases hs'

example : Legal 2 demo := legalFrom_sound demo fresh (by decide +kernel)
example : Legal 2 demoPlain := legalFrom_sound demoPlain fresh (by decide +kernel)
example : ∃ s, run 2 demo = .ok s ∧ 8 < s.heap.next ∧ s.heap.live = [] := ⟨_, rfl, by decide +kernel, by decide +kernel⟩
example : ∃ s, run 2 (demo.take 17) = .ok s ∧ s.up = true ∧ Quiet s ∧ s.heap.live = [(0, nodeBytes)] :=
  ⟨_, rfl, rfl, ⟨rfl, by intro o ho; cases ho; rfl⟩, by decide +kernel⟩
example : ∃ s, run 2 demoPlain = .ok s ∧ s.up = true ∧ Quiet s ∧ s.heap.live = [] :=
  ⟨_, rfl, rfl, ⟨rfl, by intro o ho; cases ho⟩, by decide +kernel⟩
example : ∃ s, run 2 (demo.take 5) = .ok s ∧ s.mode = .pack ∧ bytes s = 64 + (64 + 60) + 64 := ⟨_, rfl, rfl, by decide +kernel⟩

/-! ## what is false of the code -/

/-- **C85 is false without the first condition.**  `PCU_Comm_Free` between `PCU_Comm_Send` and the end of the receive loop releases a
buffer that MPI is sending from. -/
theorem c85_free_under_way : run 2 [.init, .begin, .pack 1 4, .send, .free] = .ub := by decide +kernel

/-- **C85 is false without the second condition.**  Asking for data before the first `PCU_Comm_Listen` of a phase with ordering on reads
an array that does not exist. -/
theorem c85_unpack_early : run 2 [.init, .begin, .pack 1 4, .send, .unpack 4] = .ub ∧ run 2 [.init, .sender] = .ub := by decide +kernel

/-- **C85 is false without the third condition.**  Two messages from one rank in a phase (C28 says this code never sends them): the node
and the data of the second are never released. -/
theorem c85_two_messages : ∃ s, run 2 [.init, .begin, .send, .listen [(1, 8), (1, 8)], .unpack 8, .listen [], .free] = .ok s ∧
    s.heap.live.map Prod.snd = [nodeBytes, 8] := ⟨_, rfl, by decide +kernel⟩

end Verif.Pcu.Store
