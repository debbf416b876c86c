import Verif.Pcu.PhaseInv
import Verif.Pcu.CollNet
import Mathlib.Data.List.Perm.Subperm
/-!
# C28: a communication phase delivers exactly its own messages, then ends

All theorems are about every reachable state of a job of any number `N` of ranks running any number
`K` of phases, with arbitrary packing, under every schedule.
-/
namespace Verif.Pcu.Phase

variable {α : Type}

theorem owed_phase_pos {N : Nat} {st : State α} (h : Inv N st) {m : Msg α} (hm : Owed N st m) :
    1 ≤ m.phase := by
  obtain ⟨_, _, h1, _⟩ := hm
  cases hl : st.packs.filter (fun k => k.src = m.src ∧ k.dst = m.dst ∧ k.phase = m.phase) with
  | nil => exact absurd (by unfold pieces; rw [hl]; rfl) h1
  | cons k l =>
    have hk : k ∈ st.packs.filter (fun k => k.src = m.src ∧ k.dst = m.dst ∧ k.phase = m.phase) := by
      rw [hl]; simp
    simp only [List.mem_filter, decide_eq_true_eq] at hk
    have := h.range k hk.1
    omega

theorem entered_of_ended {N : Nat} {st : State α} (h : Inv N st) {r p q : Nat} (hr : r < N)
    (hq : q < N) (he : Ended st r p) : 2 * p ≤ (st.rank q).entered := by
  have hb := h.barrier r q hr hq
  rcases he with hlt | ⟨heq, hm⟩
  · have : 2 * p ≤ left (st.rank r) := by
      unfold left
      split <;> omega
    omega
  · simp only [left, hm] at hb; omega

theorem sent_of_entered {N : Nat} {st : State α} (h : Inv N st) {q p : Nat}
    (he : 2 * p ≤ (st.rank q).entered) : SendCalled st q p := by
  have hc := h.count q
  have hp := h.pos q
  unfold SendCalled
  cases hm : (st.rank q).mode <;> simp only [expectedEntered, hm] at hc <;>
    simp only [hm, ne_eq, reduceCtorEq, not_false_eq_true, true_implies] at hp ⊢ <;>
    simp <;> omega

/-- When a rank's receive loop of phase `p` has ended, then every rank has called Send in phase `p`
and no message of the phase is in flight. -/
theorem c28_quiescent {N K n : Nat} {st : State α} (h : Reach N K n st) {r p : Nat} (hr : r < N)
    (he : Ended st r p) :
    (∀ q, q < N → SendCalled st q p) ∧ ∀ m ∈ st.net, m.phase ≠ p := by
  have hI := inv_reach h
  refine ⟨fun q hq => sent_of_entered hI (entered_of_ended hI hr hq he), ?_⟩
  intro m hm hp
  have hf := hI.flight m hm
  have hsN : m.src < N := ((hI.exact' m).mp (by simp [hm])).1.1
  have h1 := entered_of_ended hI hr hsN he
  have h2 := hI.count m.src
  have h3 := hI.pos m.src (by simp [hf.1])
  simp only [expectedEntered, hf.1] at h2
  omega

/-- When a rank's receive loop of phase `p` has ended, it has returned precisely the messages that
the ranks owe this rank for phase `p` – for each sender that packed something for it, one message
containing everything that was packed, in order – and each of them once. -/
theorem c28_exact {N K n : Nat} {st : State α} (h : Reach N K n st) {r p : Nat} (hr : r < N)
    (he : Ended st r p) :
    (received st r p).Nodup ∧
    ∀ m, m ∈ received st r p ↔ (m.dst = r ∧ m.phase = p ∧ Owed N st m) := by
  have hI := inv_reach h
  obtain ⟨hsent, hquiet⟩ := c28_quiescent h hr he
  refine ⟨?_, ?_⟩
  · have := (List.nodup_append.mp hI.nodup).1
    unfold received
    exact (List.Nodup.sublist ((List.filter_sublist).map _) this)
  · intro m
    simp only [received, List.mem_map, List.mem_filter, decide_eq_true_eq]
    constructor
    · rintro ⟨d, ⟨hd, h1, h2⟩, rfl⟩
      have h3 := hI.deliv d hd
      have h4 := (hI.exact' d.msg).mp (by
        apply List.mem_append_left
        exact List.mem_map.mpr ⟨d, hd, rfl⟩)
      exact ⟨by omega, by omega, h4.1⟩
    · rintro ⟨h1, h2, h3⟩
      have hsrc : m.src < N := h3.1
      have hs := hsent m.src hsrc
      have hmem := (hI.exact' m).mpr ⟨h3, by rw [h2]; exact hs, owed_phase_pos hI h3⟩
      rcases List.mem_append.mp hmem with hmem | hmem
      · obtain ⟨d, hd, rfl⟩ := List.mem_map.mp hmem
        have h4 := hI.deliv d hd
        exact ⟨d, ⟨hd, by omega, by omega⟩, rfl⟩
      · exact absurd h2 (hquiet m hmem)

/-- At any time, ended or not, a message returned by a receive loop was sent to this rank in this very
phase and is complete. -/
theorem c28_own_phase_only {N K n : Nat} {st : State α} (h : Reach N K n st) :
    ∀ d ∈ st.got, d.msg.dst = d.rank ∧ d.msg.phase = d.phase ∧ Owed N st d.msg := by
  intro d hd
  have hI := inv_reach h
  have h3 := hI.deliv d hd
  have h4 := (hI.exact' d.msg).mp (by
    apply List.mem_append_left
    exact List.mem_map.mpr ⟨d, hd, rfl⟩)
  exact ⟨h3.1, h3.2, h4.1⟩

theorem phase_le {N K n : Nat} {st : State α} (h : Reach N K n st) : ∀ r, (st.rank r).phase ≤ K := by
  induction h with
  | init => simp [init]
  | step _ hs ih =>
    intro q
    cases hs with
    | begin r hr hm hK =>
      by_cases hq : q = r
      · subst hq; simp only [upd_same]; omega
      · simp only [upd_ne _ _ hq]; exact ih q
    | started r hr hm hb =>
      by_cases hq : q = r
      · subst hq; simp only [upd_same]; exact ih q
      · simp only [upd_ne _ _ hq]; exact ih q
    | pack r d bytes hr hd hm =>
      by_cases hq : q = r
      · subst hq; simp only [upd_same]; exact ih q
      · simp only [upd_ne _ _ hq]; exact ih q
    | send r hr hm =>
      by_cases hq : q = r
      · subst hq; simp only [upd_same]; exact ih q
      · simp only [upd_ne _ _ hq]; exact ih q
    | listen r hr hm A B m hnet hd => exact ih q
    | sent r hr hm hd =>
      by_cases hq : q = r
      · subst hq; simp only [upd_same]; exact ih q
      · simp only [upd_ne _ _ hq]; exact ih q
    | finish r hr hm hb =>
      by_cases hq : q = r
      · subst hq; simp only [upd_same]; exact ih q
      · simp only [upd_ne _ _ hq]; exact ih q

/-- a rank with the smallest number of entered barriers among those satisfying `P` -/
theorem exists_min (N : Nat) (f : Nat → Nat) (P : Nat → Prop) [DecidablePred P]
    (h : ∃ r, r < N ∧ P r) : ∃ r, r < N ∧ P r ∧ ∀ q, q < N → P q → f r ≤ f q := by
  induction N with
  | zero => obtain ⟨r, hr, _⟩ := h; omega
  | succ N ih =>
    by_cases hN : ∃ r, r < N ∧ P r
    · obtain ⟨r, hr, hP, hmin⟩ := ih hN
      by_cases hPN : P N
      · by_cases hlt : f N < f r
        · refine ⟨N, by omega, hPN, ?_⟩
          intro q hq hPq
          by_cases hqN : q = N
          · subst hqN; exact Nat.le_refl _
          · have := hmin q (by omega) hPq; omega
        · refine ⟨r, by omega, hP, ?_⟩
          intro q hq hPq
          by_cases hqN : q = N
          · subst hqN; omega
          · exact hmin q (by omega) hPq
      · refine ⟨r, by omega, hP, ?_⟩
        intro q hq hPq
        by_cases hqN : q = N
        · subst hqN; exact absurd hPq hPN
        · exact hmin q (by omega) hPq
    · obtain ⟨r, hr, hP⟩ := h
      have : r = N := by
        by_cases hrN : r = N
        · exact hrN
        · exact absurd ⟨r, by omega, hP⟩ hN
      subst this
      refine ⟨r, by omega, hP, ?_⟩
      intro q hq hPq
      by_cases hqN : q = r
      · subst hqN; exact Nat.le_refl _
      · exact absurd ⟨q, by omega, hPq⟩ hN

/-- No deadlock: unless all ranks have finished all `K` phases, some rank can make a step other than
packing more data (so the phase can always be driven to its end). -/
theorem c28_progress {N K n : Nat} {st : State α} (h : Reach N K n st) (hn : ¬ AllDone N K st) :
    ∃ st', Step N K st st' ∧ st'.packs = st.packs := by
  have hI := inv_reach h
  have hK := phase_le h
  by_cases h1 : ∃ r, r < N ∧ (st.rank r).mode = .idle ∧ (st.rank r).phase < K
  · obtain ⟨r, hr, hm, hp⟩ := h1
    exact ⟨_, Step.begin r hr hm hp, rfl⟩
  by_cases h2 : ∃ r, r < N ∧ (st.rank r).mode = .pack
  · obtain ⟨r, hr, hm⟩ := h2
    exact ⟨_, Step.send r hr hm, rfl⟩
  by_cases h3 : ∃ r, r < N ∧ (st.rank r).mode = .sendRecv ∧ ∀ m ∈ st.net, m.src ≠ r
  · obtain ⟨r, hr, hm, hd⟩ := h3
    exact ⟨_, Step.sent r hr hm hd, rfl⟩
  by_cases h4 : ∃ m, m ∈ st.net
  · -- some message is in flight: its receiver is in the same phase
    obtain ⟨m, hm⟩ := h4
    obtain ⟨A, B, hAB⟩ := List.append_of_mem hm
    have hf := hI.flight m hm
    have hx := (hI.exact' m).mp (by simp [hm])
    have hs : m.src < N := hx.1.1
    have hd : m.dst < N := hx.1.2.1
    have e1 := hI.barrier m.src m.dst hs hd
    have e2 := hI.barrier m.dst m.src hd hs
    have e3 := hI.count m.src
    have e4 := hI.count m.dst
    have e5 := hI.pos m.src (by simp [hf.1])
    simp only [left, hf.1] at e1
    simp only [expectedEntered, hf.1] at e3
    cases hmd : (st.rank m.dst).mode with
    | idle =>
      simp only [left, hmd] at e2
      simp only [expectedEntered, hmd] at e4
      omega
    | starting =>
      refine ⟨_, Step.started m.dst hd hmd ?_, rfl⟩
      intro q hq
      have e6 := hI.barrier m.src q hs hq
      have e7 := hI.pos m.dst (by simp [hmd])
      simp only [left, hf.1] at e6
      simp only [left, hmd] at e2
      simp only [expectedEntered, hmd] at e4
      omega
    | pack => exact absurd ⟨_, hd, hmd⟩ h2
    | sendRecv => exact ⟨_, Step.listen m.dst hd (Or.inl hmd) A B m hAB rfl, rfl⟩
    | recv => exact ⟨_, Step.listen m.dst hd (Or.inr hmd) A B m hAB rfl, rfl⟩
  · -- nothing in flight: everybody waits in a barrier, or is done
    have hnet : ∀ m ∈ st.net, False := fun m hm => h4 ⟨m, hm⟩
    have h5 : ∃ r, r < N ∧ ((st.rank r).mode = .starting ∨ (st.rank r).mode = .recv) := by
      by_cases hc : ∃ r, r < N ∧ ((st.rank r).mode = .starting ∨ (st.rank r).mode = .recv)
      · exact hc
      · exfalso
        apply hn
        intro r hr
        have hpk := hK r
        cases hm : (st.rank r).mode with
        | idle =>
          refine ⟨?_, rfl⟩
          by_cases hlt : (st.rank r).phase < K
          · exact absurd ⟨r, hr, hm, hlt⟩ h1
          · omega
        | starting => exact absurd ⟨r, hr, Or.inl hm⟩ hc
        | pack => exact absurd ⟨r, hr, hm⟩ h2
        | sendRecv => exact absurd ⟨r, hr, hm, fun m hm' => (hnet m hm').elim⟩ h3
        | recv => exact absurd ⟨r, hr, Or.inr hm⟩ hc
    obtain ⟨r, hr, hm, hmin⟩ := exists_min N (fun q => (st.rank q).entered)
      (fun r => (st.rank r).mode = .starting ∨ (st.rank r).mode = .recv) h5
    have hopen : BarrierOpen N st r := by
      intro q hq
      cases hq' : (st.rank q).mode with
      | idle =>
        have hqK : (st.rank q).phase = K := by
          have := hK q
          by_cases hlt : (st.rank q).phase < K
          · exact absurd ⟨q, hq, hq', hlt⟩ h1
          · omega
        have c1 := hI.count q
        have c2 := hI.count r
        have c3 := hK r
        simp only [expectedEntered, hq'] at c1
        have : expectedEntered (st.rank r) ≤ 2 * (st.rank r).phase := by
          unfold expectedEntered; split <;> omega
        omega
      | starting => exact hmin q hq (Or.inl hq')
      | pack => exact absurd ⟨q, hq, hq'⟩ h2
      | sendRecv => exact absurd ⟨q, hq, hq', fun m hm' => (hnet m hm').elim⟩ h3
      | recv => exact hmin q hq (Or.inr hq')
    rcases hm with hm | hm
    · exact ⟨_, Step.started r hr hm hopen, rfl⟩
    · exact ⟨_, Step.finish r hr hm hopen, rfl⟩

/-! ### every execution is bounded -/

/-- control steps taken by a rank -/
def taken (s : Rank α) : Nat :=
  match s.mode with
  | .idle => 5 * s.phase
  | .starting => 5 * s.phase - 4
  | .pack => 5 * s.phase - 3
  | .sendRecv => 5 * s.phase - 2
  | .recv => 5 * s.phase - 1

theorem sum_taken_upd (N : Nat) (rk : Nat → Rank α) (r : Nat) (s : Rank α) (hr : r < N) :
    ((List.range N).map (fun q => taken (upd rk r s q))).sum + taken (rk r) =
      ((List.range N).map (fun q => taken (rk q))).sum + taken s := by
  have := Coll.sum_range_upd N (fun q => taken (rk q)) (fun q => taken (upd rk r s q)) r hr
    (fun j hj => by simp [upd_ne _ _ hj])
  simp only [upd_same] at this
  exact this

theorem steps_eq {N K n : Nat} {st : State α} (h : Reach N K n st) :
    n = ((List.range N).map (fun q => taken (st.rank q))).sum + st.packs.length + st.got.length := by
  induction h with
  | init => simp [init, taken]
  | @step n a b hr hs ih =>
    have hI := inv_reach hr
    cases hs with
    | begin r hr hm hK =>
      have := sum_taken_upd N a.rank r { a.rank r with mode := .starting, phase := (a.rank r).phase + 1, entered := (a.rank r).entered + 1 } hr
      simp only [taken, hm] at this
      simp only [taken] at ih ⊢
      omega
    | started r hr hm hb =>
      have := sum_taken_upd N a.rank r { a.rank r with mode := .pack } hr
      have hp := hI.pos r (by simp [hm])
      simp only [taken, hm] at this
      simp only [taken] at ih ⊢
      omega
    | pack r d bytes hr hd hm =>
      have := sum_taken_upd N a.rank r { a.rank r with peers := pushPeer (a.rank r).peers d bytes } hr
      simp only [taken, hm] at this
      simp only [taken, List.length_append, List.length_cons, List.length_nil] at ih ⊢
      simp only [hm] at ih ⊢
      omega
    | send r hr hm =>
      have := sum_taken_upd N a.rank r { a.rank r with mode := .sendRecv } hr
      have hp := hI.pos r (by simp [hm])
      simp only [taken, hm] at this
      simp only [taken] at ih ⊢
      omega
    | listen r hr hm A B m hnet hd =>
      simp only [List.length_append, List.length_cons, List.length_nil]
      omega
    | sent r hr hm hd =>
      have := sum_taken_upd N a.rank r { a.rank r with mode := .recv, entered := (a.rank r).entered + 1 } hr
      have hp := hI.pos r (by simp [hm])
      simp only [taken, hm] at this
      simp only [taken] at ih ⊢
      omega
    | finish r hr hm hb =>
      have := sum_taken_upd N a.rank r { a.rank r with mode := .idle, peers := fun _ => none } hr
      have hp := hI.pos r (by simp [hm])
      simp only [taken, hm] at this
      simp only [taken] at ih ⊢
      omega

theorem got_le_packs {N : Nat} {st : State α} (h : Inv N st) : st.got.length ≤ st.packs.length := by
  let key : Msg α → Nat × Nat × Nat := fun m => (m.src, m.dst, m.phase)
  let key' : PackRec α → Nat × Nat × Nat := fun k => (k.src, k.dst, k.phase)
  have howed : ∀ m ∈ st.got.map (·.msg), Owed N st m := fun m hm =>
    ((h.exact' m).mp (List.mem_append_left _ hm)).1
  have hinj : ∀ m ∈ st.got.map (·.msg), ∀ m' ∈ st.got.map (·.msg), key m = key m' → m = m' := by
    intro m hm m' hm' hk
    have h1 := howed m hm
    have h2 := howed m' hm'
    simp only [key, Prod.mk.injEq] at hk
    obtain ⟨_, _, _, e1⟩ := h1
    obtain ⟨_, _, _, e2⟩ := h2
    rw [← hk.1, ← hk.2.1, ← hk.2.2] at e2
    cases m; cases m'
    simp only at hk e1 e2
    simp [hk, e1, e2]
  have hnd : ((st.got.map (·.msg)).map key).Nodup := by
    have h1 := (List.nodup_append.mp h.nodup).1
    rw [List.nodup_iff_pairwise_ne] at h1 ⊢
    rw [List.pairwise_map]
    exact List.Pairwise.imp_of_mem (fun ha hb hne he => hne (hinj _ ha _ hb he)) h1
  have hsub : (st.got.map (·.msg)).map key ⊆ st.packs.map key' := by
    intro x hx
    obtain ⟨m, hm, rfl⟩ := List.mem_map.mp hx
    have h1 := howed m hm
    obtain ⟨_, _, h1, _⟩ := h1
    cases hl : st.packs.filter (fun k => k.src = m.src ∧ k.dst = m.dst ∧ k.phase = m.phase) with
    | nil => exact absurd (by unfold pieces; rw [hl]; rfl) h1
    | cons k l =>
      have hk : k ∈ st.packs.filter (fun k => k.src = m.src ∧ k.dst = m.dst ∧ k.phase = m.phase) := by
        rw [hl]; simp
      simp only [List.mem_filter, decide_eq_true_eq] at hk
      refine List.mem_map.mpr ⟨k, hk.1, ?_⟩
      simp only [key, key', hk.2.1, hk.2.2.1, hk.2.2.2]
  have := (List.subperm_of_subset hnd hsub).length_le
  simpa using this

/-- Every execution is finite: `5·K` control steps per rank, and at most two steps per packed piece. -/
theorem c28_bounded {N K n : Nat} {st : State α} (h : Reach N K n st) :
    n ≤ 5 * K * N + 2 * st.packs.length := by
  have h1 := steps_eq h
  have h2 := got_le_packs (inv_reach h)
  have h3 := phase_le h
  have h4 : ∀ M, ((List.range M).map (fun q => taken (st.rank q))).sum ≤ 5 * K * M := by
    intro M
    induction M with
    | zero => simp
    | succ M ih =>
      have h5 : taken (st.rank M) ≤ 5 * K := by
        have := h3 M
        unfold taken; split <;> omega
      rw [List.range_succ, List.map_append, List.sum_append]
      simp only [List.map_cons, List.map_nil, List.sum_cons, List.sum_nil]
      rw [Nat.mul_succ]
      omega
  have := h4 N
  omega

/-! ### the hypotheses are met -/

/-- Two ranks, one phase, rank 0 packs two pieces for rank 1: the whole phase is a reachable execution,
and rank 1's receive loop has ended having received the concatenation. -/
example : ∃ n, ∃ st : State Nat, Reach 2 1 n st ∧ AllDone 2 1 st ∧ Ended st 1 1 ∧
    (received st 1 1).map (·.data) = [[7, 8, 9]] := by
  refine ⟨_, _, Reach.step (Reach.step (Reach.step (Reach.step (Reach.step (Reach.step (Reach.step
    (Reach.step (Reach.step (Reach.step (Reach.step (Reach.step (Reach.step Reach.init
    (Step.begin 0 ?_ ?_ ?_)) (Step.begin 1 ?_ ?_ ?_)) (Step.started 0 ?_ ?_ ?_))
    (Step.pack 0 1 [7, 8] ?_ ?_ ?_)) (Step.pack 0 1 [9] ?_ ?_ ?_)) (Step.send 0 ?_ ?_))
    (Step.started 1 ?_ ?_ ?_)) (Step.send 1 ?_ ?_))
    (Step.listen 1 ?_ ?_ [] [] ⟨0, 1, [7, 8, 9], 1⟩ ?_ ?_)) (Step.sent 0 ?_ ?_ ?_))
    (Step.sent 1 ?_ ?_ ?_)) (Step.finish 0 ?_ ?_ ?_)) (Step.finish 1 ?_ ?_ ?_), ?_, ?_, ?_⟩
  all_goals first
    | decide
    | rfl
    | (intro q hq; have : q = 0 ∨ q = 1 := by omega
       rcases this with rfl | rfl <;> simp [upd, init, pushPeer])
    | simp [upd, init, pushPeer, outgoing, List.range_succ, Ended, received, BarrierOpen]

end Verif.Pcu.Phase
