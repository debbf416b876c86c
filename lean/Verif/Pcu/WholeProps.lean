import Verif.Pcu.WholeInv
/-!
# C78: phases and collectives in one program, message by message

For every number of ranks, every legal program of phases and collectives, everything packed and contributed, and every schedule of every
single message:

* each phase keeps its promise (C28): exactly the data packed for a rank in a phase reach it, in that phase, once (`c78_exact`,
  `c78_own_phase_only`, `c78_quiescent`);
* each collective returns the combination of what was contributed to that call (`c78_results`);
* nothing deadlocks (`c78_progress`), no execution is endless (`c78_bounded`), so every program can be driven to its end
  (`c78_complete`), where all phases are over (`c78_finished`).
-/
namespace Verif.Pcu.Whole
open Verif.Pcu.Coll (upd upd_same upd_ne)

variable {α V : Type} {J : Nat → Entry V} {P : Nat → Nat → List Coll.Instr} {N K n : Nat} {junk : Nat → V}

/-- Any program can be run: the loops of all collectives end and address only ranks of the job. -/
theorem c78_programs (J : Nat → Entry V) (N K : Nat) : ∃ P, JobRuns J N K P := by
  have : ∀ k, ∃ Q, Coll.Runs (Seq.progOf (J k).what) N Q := by
    intro k
    cases (J k).what
    · exact Coll.c30_programs N
    · exact Coll.c31_programs N
  exact ⟨fun k => (this k).choose, fun k _ => (this k).choose_spec⟩

/-! ## phases -/

/-- When a rank's receive loop of phase `p` has ended, it has returned precisely the messages owed to it in phase `p`, each once. -/
theorem c78_exact (hJ : Script J K) (hP : JobRuns J N K P) {st : State α V} (h : Reach J P N K junk n st) {r p : Nat} (hr : r < N)
    (he : Phase.Ended st.user r p) :
    (Phase.received st.user r p).Nodup ∧
    ∀ m, m ∈ Phase.received st.user r p ↔ (m.dst = r ∧ m.phase = p ∧ Phase.Owed N st.user m) := by
  obtain ⟨n', h'⟩ := phase_reach hJ hP h
  exact Phase.c28_exact h' hr he

/-- At any time a message returned by a receive loop was sent to this rank in this very phase and is complete. -/
theorem c78_own_phase_only (hJ : Script J K) (hP : JobRuns J N K P) {st : State α V} (h : Reach J P N K junk n st) :
    ∀ d ∈ st.user.got, d.msg.dst = d.rank ∧ d.msg.phase = d.phase ∧ Phase.Owed N st.user d.msg := by
  obtain ⟨n', h'⟩ := phase_reach hJ hP h
  exact Phase.c28_own_phase_only h'

/-- When a receive loop has ended, every rank has called Send in that phase and no message of the phase is under way. -/
theorem c78_quiescent (hJ : Script J K) (hP : JobRuns J N K P) {st : State α V} (h : Reach J P N K junk n st) {r p : Nat} (hr : r < N)
    (he : Phase.Ended st.user r p) :
    (∀ q, q < N → Phase.SendCalled st.user q p) ∧ ∀ m ∈ st.user.net, m.phase ≠ p := by
  obtain ⟨n', h'⟩ := phase_reach hJ hP h
  exact Phase.c28_quiescent h' hr he

/-! ## collectives -/

/-- Call `k` has returned on rank `r` the combination of the values `v q` that the ranks contributed to call `k`: all ranks for an
allreduce, those up to `r` for a scan. -/
theorem c78_results (hJ : Script J K) (ho : OpsOk J K) (hP : JobRuns J N K P) {st : State α V} (h : Reach J P N K junk n st) (r k : Nat)
    (hr : r < N) (hk : k < (st.coll r).got.length) :
    ∃ v : Nat → V, (∀ q, q < N → ((J k).what = .scan → q ≤ r) → (st.gave q)[k]? = some (v q)) ∧
      (st.coll r).got[k]? = some (Seq.result (J k).what (J k).op v N r) := by
  obtain ⟨n', hn'⟩ := seq_reach hJ h st.gave (fun r => List.prefix_refl _)
  have hP' : Seq.JobRuns (callsOf J junk st.gave) N K P := hP
  have ho' : Seq.OpsOk (callsOf J junk st.gave) K := ho
  obtain ⟨⟨t, ht⟩, -⟩ := Seq.c77_results ho' hP' hn' r hr
  have hK : k < K := by
    have := congrArg List.length ht
    rw [Seq.history_len, List.length_append] at this
    omega
  refine ⟨fun q => (st.gave q)[k]?.getD (junk q), ?_, ?_⟩
  · intro q hq hscan
    have hin := Seq.c77_barrier hP' hn' r k hr hk q hq hscan
    have hlen : k < (st.gave q).length := by
      cases at_reach hJ h q hq with
      | between g _ _ he _ hv _ _ _ => rw [he, List.mem_range] at hin; omega
      | inside g l _ _ he _ hv _ _ _ => rw [he, List.mem_range] at hin; omega
    simp [hlen]
  · have hg := Seq.history_get (callsOf J junk st.gave) N r k K hK
    rw [← ht, List.getElem?_append_left hk] at hg
    exact hg

/-- A rank that has returned from an allreduce or a barrier knows that every rank has made that call. -/
theorem c78_barrier (hJ : Script J K) (hP : JobRuns J N K P) {st : State α V} (h : Reach J P N K junk n st) (r k : Nat) (hr : r < N)
    (hk : k < (st.coll r).got.length) (hw : (J k).what = .allreduce) : ∀ q, q < N → k ∈ (st.coll q).entered :=
  left_entered hJ hP h hr hk hw

/-! ## liveness -/

/-- the number of the call of an event -/
def callNo : Seq.Ev → Nat
  | .enter k _ => k
  | .comm k _ => k
  | .leave k _ => k

theorem callEvents_no (what : Seq.What) (N k : Nat) : ∀ e ∈ Seq.callEvents what N k, callNo e = k := by
  intro e he
  simp only [Seq.callEvents, List.mem_append, List.mem_map] at he
  rcases he with (⟨r, -, rfl⟩ | ⟨x, -, rfl⟩) | ⟨r, -, rfl⟩ <;> rfl

theorem jobEvents_sorted (C : Nat → Seq.Call V) (N K : Nat) : (Seq.jobEvents C N K).Pairwise (fun a b => callNo a ≤ callNo b) := by
  unfold Seq.jobEvents
  induction K with
  | zero => simp
  | succ K ih =>
    rw [List.range_succ, List.flatMap_append, List.pairwise_append]
    refine ⟨ih, ?_, ?_⟩
    · simp only [List.flatMap_cons, List.flatMap_nil, List.append_nil]
      refine List.Pairwise.imp_of_mem (R := fun _ _ => True) ?_ (List.pairwise_of_forall (fun _ _ => trivial))
      intro a b ha hb _
      rw [callEvents_no _ _ _ a ha, callEvents_no _ _ _ b hb]
      exact Nat.le_refl _
    · intro a ha b hb
      obtain ⟨k, hk, ha⟩ := List.mem_flatMap.mp ha
      simp only [List.flatMap_cons, List.flatMap_nil, List.append_nil] at hb
      rw [callEvents_no _ _ _ a ha, callEvents_no _ _ _ b hb]
      have := List.mem_range.mp hk
      omega

/-- No deadlock: as long as some rank has calls to make, some rank can make a step other than packing more data. -/
theorem c78_progress (hJ : Script J K) (hP : JobRuns J N K P) {st : State α V} (h : Reach J P N K junk n st) (hn : ¬ Finished N st) :
    ∃ st', Step J N st st' ∧ st'.user.packs = st.user.packs := by
  have hA := at_reach hJ h
  obtain ⟨n', hn'⟩ := seq_reach hJ h st.gave (fun r => List.prefix_refl _)
  have hP' : Seq.JobRuns (callsOf J junk st.gave) N K P := hP
  obtain ⟨E, hsub, hE⟩ := Seq.reach hP' hn'
  have hsent := (Seq.work_steps hn' (Seq.netInv_initial hP' junk) (by intro r hr; simp [Seq.initial] at hr)).2
  by_cases hpend : ∃ r, (st.coll r).sent = some true
  · obtain ⟨r, hr⟩ := hpend
    have h1 := hE.rank r
    simp only [Seq.RankInv, hr] at h1
    obtain ⟨k, p, hp⟩ := h1
    exact ⟨_, .comm _ (.done r k p _ (hsent r hr) hp hr), rfl⟩
  have hcase : ∀ r, (st.coll r).prog = Seq.proj r E := by
    intro r
    have h1 := hE.rank r
    unfold Seq.RankInv at h1
    split at h1
    · rename_i hs; exact absurd ⟨r, hs⟩ hpend
    · exact h1.1
    · exact h1
  cases E with
  | nil => exact absurd (fun r _ => by rw [hcase r]; rfl) hn
  | cons e E =>
    obtain ⟨hsN, hdN, hok⟩ := hE.ok e (by simp)
    have hsorted := (jobEvents_sorted (callsOf J junk st.gave) N K).sublist hsub
    have hfirst : ∀ x ∈ e :: E, callNo e ≤ callNo x := by
      intro x hx
      rcases List.mem_cons.mp hx with rfl | hx
      · exact Nat.le_refl _
      · exact (List.pairwise_cons.mp hsorted).1 x hx
    cases e with
    | comm k e =>
      have hne := hok k e rfl
      have hsrc : (st.coll e.src).prog = .send k e.dst :: Seq.proj e.src E := by
        rw [hcase, Seq.proj_cons]; simp [Seq.Ev.instr, Coll.Event.instr, Seq.tag]
      have hdst : (st.coll e.dst).prog = .recv k e.src e.kind :: Seq.proj e.dst E := by
        rw [hcase, Seq.proj_cons]; simp [Seq.Ev.instr, Coll.Event.instr, hne, Seq.tag]
      cases hs : (st.coll e.src).sent with
      | none => exact ⟨_, .comm _ (.issue e.src k e.dst _ hsN hsrc hs), rfl⟩
      | some b =>
        cases b with
        | true => exact absurd ⟨_, hs⟩ hpend
        | false => exact ⟨_, .comm _ (.recv e.dst k e.src e.kind k _ _ hdN hdst hsrc hs), rfl⟩
    | leave k r =>
      have hp : (st.coll r).prog = .leave k :: Seq.proj r E := by rw [hcase, Seq.proj_cons]; simp [Seq.Ev.instr]
      obtain ⟨-, -, -, -, -, -, -, hin⟩ := at_leave (hA r hdN) hp
      unfold Inside at hin
      cases ho : (J k).role with
      | start => rw [ho] at hin; exact ⟨_, .started r k _ hdN hp ho hin, rfl⟩
      | stop => rw [ho] at hin; exact ⟨_, .finish r k _ hdN hp ho hin, rfl⟩
      | user => exact ⟨_, .return r k _ hdN hp ho, rfl⟩
    | enter k r =>
      have hp : (st.coll r).prog = .enter k :: Seq.proj r E := by rw [hcase, Seq.proj_cons]; simp [Seq.Ev.instr]
      obtain ⟨hk, -, hent, -, -, -, -, hrest⟩ := at_enter (hA r hdN) hp
      cases ho : (J k).role with
      | start =>
        rw [hJ.start k hk ho] at hrest
        exact ⟨_, .begin r k _ (junk r) hdN hp ho (by simpa [Resting] using hrest), rfl⟩
      | user => exact ⟨_, .call r k _ (junk r) hdN hp ho, rfl⟩
      | stop =>
        rw [hJ.stop k hk ho] at hrest
        have hrest' : (st.user.rank r).mode = .pack ∨ (st.user.rank r).mode = .sendRecv := by simpa [Resting] using hrest
        rcases hrest' with hm | hm
        · exact ⟨_, .send r hdN (Or.inr ⟨k, _, hp⟩) hm, rfl⟩
        by_cases hd : ∀ m ∈ st.user.net, m.src ≠ r
        · exact ⟨_, .sent r k _ (junk r) hdN hp ho hm hd, rfl⟩
        -- a message of `r` is under way: its receiver can take it, or has still to call Send
        push Not at hd
        obtain ⟨m, hmem, hsrc⟩ := hd
        obtain ⟨n2, h2⟩ := phase_reach hJ hP h
        have hdst : m.dst < N := (((Phase.inv_reach h2).exact' m).mp (by simp [hmem])).1.2.1
        obtain ⟨A, B, hnet⟩ := List.append_of_mem hmem
        have hnot : ¬ k < (st.coll m.dst).got.length := by
          intro hlt
          have := left_entered hJ hP h hdst hlt (hJ.barrier k hk (by rw [ho]; simp)) r hdN
          rw [hent, List.mem_range] at this
          omega
        have hmemE : ∀ i, i ∈ (st.coll m.dst).prog → ∃ x ∈ Seq.Ev.enter k r :: E, x.instr m.dst = some i := by
          intro i hi
          rw [hcase] at hi
          exact List.mem_filterMap.mp hi
        cases hA m.dst hdst with
        | between g hg hpd he hl hv h1 h2 h3 =>
          have hgk : g = k := by
            have hle : g ≤ k := by omega
            have hlt : g < K := by omega
            obtain ⟨x, hx, hxi⟩ := hmemE (.enter g) (by rw [hpd, later_lt hlt]; simp [Seq.callProg])
            have := Seq.instr_enter hxi
            subst this
            have := hfirst _ hx
            simp only [callNo] at this
            omega
          subst hgk
          have hpd' : (st.coll m.dst).prog = .enter g :: ((P g m.dst).map (Seq.tag g) ++ [.leave g] ++ later P K m.dst (g + 1)) := by
            rw [hpd, later_lt hk]; rfl
          rw [hJ.stop g hk ho] at h3
          have h3' : (st.user.rank m.dst).mode = .pack ∨ (st.user.rank m.dst).mode = .sendRecv := by simpa [Resting] using h3
          rcases h3' with h3' | h3'
          · exact ⟨_, .send m.dst hdst (Or.inr ⟨g, _, hpd'⟩) h3', rfl⟩
          · exact ⟨_, .listen m.dst hdst (Or.inr ⟨h3', g, _, hpd', ho⟩) A B m hnet rfl, rfl⟩
        | inside g l hg hpd he hl hv h1 h2 h3 =>
          have hgk : g = k := by
            obtain ⟨x, hx, hxi⟩ := hmemE (.leave g) (by rw [hpd]; simp)
            have := Seq.instr_leave hxi
            subst this
            have := hfirst _ hx
            simp only [callNo] at this
            omega
          subst hgk
          unfold Inside at h3
          rw [ho] at h3
          exact ⟨_, .listen m.dst hdst (Or.inl h3) A B m hnet rfl, rfl⟩

/-- Every execution is finite: a number of steps that depends only on the program and the number of ranks, and two per packed piece. -/
theorem c78_bounded (hJ : Script J K) (hP : JobRuns J N K P) :
    ∃ B, ∀ n (st : State α V), Reach J P N K junk n st → n ≤ B + 2 * st.user.packs.length := by
  refine ⟨Seq.totalWork N (Seq.initial P N K junk) + 5 * starts J K * N, ?_⟩
  intro n st h
  obtain ⟨n1, n2, hle, h1, h2⟩ := both_reach hJ hP h st.gave (fun r => List.prefix_refl _)
  have hP' : Seq.JobRuns (callsOf J junk st.gave) N K P := hP
  have h3 := (Seq.work_steps h1 (Seq.netInv_initial hP' junk) (by intro r hr; simp [Seq.initial] at hr)).1
  have h4 := Phase.c28_bounded h2
  omega

/-- Hence from every reachable state the program can be driven to its end. -/
theorem c78_complete (hJ : Script J K) (hP : JobRuns J N K P) {st : State α V} (h : Reach J P N K junk n st) :
    ∃ n' st', Reach J P N K junk n' st' ∧ Finished N st' ∧ st'.user.packs = st.user.packs := by
  obtain ⟨B, hB⟩ := c78_bounded (α := α) (junk := junk) hJ hP
  suffices ∀ d n (x : State α V), n + d = B + 2 * st.user.packs.length + 1 → Reach J P N K junk n x → x.user.packs = st.user.packs →
      ∃ n' st', Reach J P N K junk n' st' ∧ Finished N st' ∧ st'.user.packs = st.user.packs from
    this (B + 2 * st.user.packs.length + 1 - n) n st (by have := hB n st h; omega) h rfl
  intro d
  induction d with
  | zero => intro n x hn hx hp; have := hB n x hx; rw [hp] at this; omega
  | succ d ih =>
    intro n x hn hx hp
    by_cases hf : Finished N x
    · exact ⟨n, x, hx, hf, hp⟩
    · obtain ⟨y, hy, hyp⟩ := c78_progress hJ hP hx hf
      exact ih (n + 1) y (by omega) (.step hx hy) (by rw [hyp, hp])

/-- At the end all phases are over on all ranks, and every call has returned. -/
theorem c78_finished (hJ : Script J K) {st : State α V} (h : Reach J P N K junk n st) (hf : Finished N st) :
    Phase.AllDone N (starts J K) st.user ∧ ∀ r, r < N → (st.coll r).got.length = K := by
  have key : ∀ r, r < N → (st.coll r).got.length = K ∧ (st.user.rank r).phase = starts J K ∧ (st.user.rank r).mode = .idle := by
    intro r hr
    cases at_reach hJ h r hr with
    | between g hg hp he hl hv h1 h2 h3 =>
      by_cases hK : g < K
      · rw [hf r hr, later_lt hK] at hp; simp [Seq.callProg] at hp
      · have : g = K := by omega
        subst this
        rw [hJ.closed] at h3
        exact ⟨hl, h1, by simpa [Resting] using h3⟩
    | inside g l hg hp he hl hv h1 h2 h3 => rw [hf r hr] at hp; simp at hp
  exact ⟨fun r hr => (key r hr).2, fun r hr => (key r hr).1⟩

/-! ## a concrete program -/

/-- an allreduce, a phase with an allreduce while packing, a scan, an empty phase -/
def sampleJob : Nat → Entry Int := fun k =>
  match k with
  | 0 => ⟨.user, .allreduce, (· + ·)⟩
  | 1 => ⟨.start, .allreduce, (· + ·)⟩
  | 2 => ⟨.user, .allreduce, (· + ·)⟩
  | 3 => ⟨.stop, .allreduce, (· + ·)⟩
  | 4 => ⟨.user, .scan, (· + ·)⟩
  | 5 => ⟨.start, .allreduce, (· + ·)⟩
  | _ => ⟨.stop, .allreduce, (· + ·)⟩

theorem sampleJob_script : Script sampleJob 7 := by
  refine ⟨?_, ?_, rfl, ?_⟩
  · decide
  · decide
  · decide

theorem sampleJob_ops : OpsOk sampleJob 7 := by
  intro k _
  have : (sampleJob k).op = (· + ·) := by unfold sampleJob; split <;> rfl
  rw [this]
  exact ⟨fun x y z => Int.add_assoc x y z, fun _ x y => Int.add_comm x y⟩

/-- the hypotheses are met, on any number of ranks complete executions exist and end both phases -/
example (N : Nat) : ∃ P, JobRuns sampleJob N 7 P ∧ Script sampleJob 7 ∧ OpsOk sampleJob 7 ∧
    ∃ n, ∃ st : State UInt8 Int, Reach sampleJob P N 7 (fun _ => 0) n st ∧ Finished N st ∧ Phase.AllDone N 2 st.user := by
  obtain ⟨P, hP⟩ := c78_programs sampleJob N 7
  obtain ⟨n, st, h, hf, -⟩ := c78_complete (α := UInt8) sampleJob_script hP (.init (junk := fun _ => 0))
  exact ⟨P, hP, sampleJob_script, sampleJob_ops, n, st, h, hf, (c78_finished sampleJob_script h hf).1⟩

/-- one phase -/
def onePhase : Nat → Entry Int := fun k => if k = 0 then ⟨.start, .allreduce, (· + ·)⟩ else ⟨.stop, .allreduce, (· + ·)⟩

/-- the communication of a barrier of two ranks -/
def pair : Nat → List Coll.Instr
  | 0 => [.recv 1 .merge, .send 1]
  | 1 => [.send 0, .recv 0 .assign]
  | _ => []

theorem pair_runs : Coll.Runs Coll.allreduceProg 2 pair := by
  have h2 : Coll.floorLog2 2 = 1 := by unfold Coll.floorLog2; simp; unfold Coll.floorLog2; simp
  have hc : Coll.ceilLog2 2 = 1 := by simp [Coll.ceilLog2, h2]
  refine ⟨?_, ?_⟩
  · intro r hr
    refine ⟨5, ?_⟩
    have : r = 0 ∨ r = 1 := by omega
    rcases this with rfl | rfl <;>
      simp [pair, Coll.allreduceProg, Coll.seqProg, Coll.program, Coll.reduce, Coll.bcast, Coll.loop, Coll.instr, Coll.checkRank, hc,
        Coll.lowBit]
  · intro r hr
    match r, hr with
    | r + 2, _ => rfl

/-- Two ranks, one phase: rank 0 goes through the start barrier message by message, packs two pieces for rank 1; when the program has
ended rank 1 has received both pieces in one message, and nothing else. -/
example : ∃ n, ∃ st : State Nat Int, Reach onePhase (fun _ => pair) 2 2 (fun _ => 0) n st ∧ Finished 2 st ∧
    ∀ m, m ∈ Phase.received st.user 1 1 ↔ m = ⟨0, 1, [7, 8, 9], 1⟩ := by
  have hJ : Script onePhase 2 := ⟨by decide, by decide, rfl, by decide⟩
  have hP : JobRuns onePhase 2 2 (fun _ => pair) := by
    intro k _
    have : (onePhase k).what = .allreduce := by unfold onePhase; split <;> rfl
    rw [this]; exact pair_runs
  have s0 : Reach (α := Nat) onePhase (fun _ => pair) 2 2 (fun _ => 0) 0 _ := .init
  have s1 := Reach.step s0 (.begin 0 0 _ 0 (by omega) rfl rfl rfl)
  have s2 := Reach.step s1 (.begin 1 0 _ 0 (by omega) rfl rfl rfl)
  have s3 := Reach.step s2 (.comm _ (.issue 1 0 0 _ (by omega) rfl rfl))
  have s4 := Reach.step s3 (.comm _ (.recv 0 0 1 .merge 0 _ _ (by omega) rfl rfl rfl))
  have s5 := Reach.step s4 (.comm _ (.issue 0 0 1 _ (by omega) rfl rfl))
  have s6 := Reach.step s5 (.comm _ (.done 1 0 0 _ (by omega) rfl rfl))
  have s7 := Reach.step s6 (.comm _ (.recv 1 0 0 .assign 0 _ _ (by omega) rfl rfl rfl))
  have s8 := Reach.step s7 (.comm _ (.done 0 0 1 _ (by omega) rfl rfl))
  have s9 := Reach.step s8 (.started 0 0 _ (by omega) rfl rfl rfl)
  have s10 := Reach.step s9 (.pack 0 1 [7, 8] (by omega) (by omega) (Or.inr ⟨1, _, rfl⟩) rfl)
  have s11 := Reach.step s10 (.pack 0 1 [9] (by omega) (by omega) (Or.inr ⟨1, _, rfl⟩) rfl)
  obtain ⟨n, st, h, hf, hpk⟩ := c78_complete hJ hP s11
  have hpk' : st.user.packs = [⟨0, 1, 1, [7, 8]⟩, ⟨0, 1, 1, [9]⟩] := hpk
  refine ⟨n, st, h, hf, fun m => ?_⟩
  have hdone := (c78_finished hJ h hf).1 1 (by omega)
  rw [(c78_exact hJ hP h (r := 1) (p := 1) (by omega) (Or.inr ⟨hdone.1.symm, hdone.2⟩)).2 m]
  unfold Phase.Owed Phase.pieces
  rw [hpk']
  constructor
  · rintro ⟨h1, h2, -, -, h3, h4⟩
    obtain ⟨src, dst, data, ph⟩ := m
    simp only at h1 h2 h3 h4
    subst h1 h2
    by_cases hs : 0 = src
    · subst hs; simpa using h4
    · simp [hs] at h3
  · rintro rfl; simp

end Verif.Pcu.Whole
