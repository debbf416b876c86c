import Verif.Pcu.SeqNet
/-!
# C77: many collectives one after the other

A job of `N` ranks makes `K` collective calls, each an allreduce or a scan, one after the other and each rank at its own pace.  What a
rank contributes to a call may depend on everything earlier calls returned to it.  No step tells the ranks apart: a receive takes the
message the named peer has sent, of whatever call.  For every number of ranks and calls and every schedule:

* a message is never taken for a message of another call (`c77_match`);
* every call returns on every rank what it would have returned had the calls been separated perfectly (`c77_results`);
* a rank that returned from an allreduce or barrier knows that every rank has entered *that* call (`c77_barrier`);
* executions are bounded and never stuck (`c77_terminates`).
-/
namespace Verif.Pcu.Seq
open Verif.Pcu.Coll (Kind upd upd_same upd_ne combine Runs allreduceEvents scanEvents)

/-! ## specification -/

/-- what a collective returns to rank `r` when rank `q` contributes `v q`: everything combined, or everything up to the rank's own -/
def result {V : Type} (what : What) (op : V → V → V) (v : Nat → V) (N r : Nat) : V :=
  match what with
  | .allreduce => combine op v (N - 1)
  | .scan => combine op v r

/-- the results of the first `k` calls on every rank, the calls taken one at a time -/
def history {V : Type} (C : Nat → Call V) (N : Nat) : Nat → Nat → List V
  | 0, _ => []
  | k + 1, r => history C N k r ++ [result (C k).what (C k).op (fun q => (C k).give q (history C N k q)) N r]

/-- operations the code documents: associative, and for scans commutative -/
def OpsOk {V : Type} (C : Nat → Call V) (K : Nat) : Prop :=
  ∀ k, k < K → (∀ x y z, (C k).op ((C k).op x y) z = (C k).op x ((C k).op y z)) ∧
    ((C k).what = .scan → ∀ x y, (C k).op x y = (C k).op y x)

/-- `P k r` is the communication the code performs on rank `r` for call `k` -/
def JobRuns {V : Type} (C : Nat → Call V) (N K : Nat) (P : Nat → Nat → List Coll.Instr) : Prop :=
  ∀ k, k < K → Runs (progOf (C k).what) N (P k)

/-- all ranks have made all their calls -/
def Finished {V : Type} (N : Nat) (st : Nat → RankSt V) : Prop := ∀ r, r < N → (st r).prog = []

/-! ## the events of a job -/

/-- messages of a collective -/
def commEv (what : What) (N : Nat) : List Coll.Event :=
  match what with
  | .allreduce => allreduceEvents N
  | .scan => scanEvents N

/-- events of call `k` -/
def callEvents (what : What) (N k : Nat) : List Ev :=
  (List.range N).map (Ev.enter k) ++ (commEv what N).map (Ev.comm k) ++ (List.range N).map (Ev.leave k)

/-- events of the job -/
def jobEvents {V : Type} (C : Nat → Call V) (N K : Nat) : List Ev := (List.range K).flatMap (fun k => callEvents (C k).what N k)

variable {V : Type} {C : Nat → Call V}

theorem commEv_ok (what : What) (N : Nat) : Coll.EventsOk N (commEv what N) := by
  cases what
  · exact Coll.eventsOk_allreduce N
  · exact Coll.eventsOk_scan N

theorem jobEvents_ok (N K : Nat) : EventsOk N (jobEvents C N K) := by
  intro e he
  obtain ⟨k, -, he⟩ := List.mem_flatMap.mp he
  simp only [callEvents, List.mem_append, List.mem_map, List.mem_range] at he
  rcases he with (⟨r, hr, rfl⟩ | ⟨x, hx, rfl⟩) | ⟨r, hr, rfl⟩
  · exact ⟨hr, hr, by simp⟩
  · obtain ⟨h3, h1, h2⟩ := commEv_ok _ _ x hx
    refine ⟨h1, h2, ?_⟩
    intro k' y hy
    simp at hy
    rw [← hy.2]; exact h3
  · exact ⟨hr, hr, by simp⟩

theorem proj_range (f : Nat → Ev) (i : Instr) (r : Nat) (hf : ∀ q, (f q).instr r = if q = r then some i else none) (m : Nat) :
    proj r ((List.range m).map f) = if r < m then [i] else [] := by
  induction m with
  | zero => simp
  | succ m ih =>
    rw [List.range_succ, List.map_append, proj_append, ih]
    simp only [List.map_cons, List.map_nil, proj_cons, proj_nil, hf]
    by_cases h : m = r
    · subst h; simp
    · rw [if_neg h]
      by_cases h2 : r < m
      · rw [if_pos h2, if_pos (by omega)]; simp
      · rw [if_neg h2, if_neg (by omega)]; simp

theorem proj_comm (r k : Nat) (E : List Coll.Event) : proj r (E.map (Ev.comm k)) = (Coll.proj r E).map (tag k) := by
  induction E with
  | nil => rfl
  | cons e E ih =>
    rw [List.map_cons, proj_cons, Coll.proj_cons, ih, List.map_append]
    congr 1
    simp only [Ev.instr]
    cases e.instr r <;> rfl

theorem runs_commEv {what : What} {N : Nat} {P : Nat → List Coll.Instr} (h : Runs (progOf what) N P) (r : Nat) :
    P r = Coll.proj r (commEv what N) := by
  cases what
  · exact congrFun (Coll.runs_allreduce h) r
  · exact congrFun (Coll.runs_scan h) r

theorem proj_call {what : What} {N : Nat} {P : Nat → Nat → List Coll.Instr} {k : Nat} (h : Runs (progOf what) N (P k)) {r : Nat}
    (hr : r < N) : proj r (callEvents what N k) = callProg P r k := by
  rw [callEvents, proj_append, proj_append, proj_range _ (.enter k) r (fun q => rfl), proj_range _ (.leave k) r (fun q => rfl),
    if_pos hr, if_pos hr, proj_comm, ← runs_commEv h r]
  rfl

theorem proj_job {N K : Nat} {P : Nat → Nat → List Coll.Instr} (h : JobRuns C N K P) (r : Nat) :
    proj r (jobEvents C N K) = if r < N then jobProg P K r else [] := by
  by_cases hr : r < N
  · rw [if_pos hr]
    have : ∀ m, m ≤ K → proj r ((List.range m).flatMap (fun k => callEvents (C k).what N k)) = (List.range m).flatMap (callProg P r) := by
      intro m
      induction m with
      | zero => intro _; rfl
      | succ m ih =>
        intro hm
        rw [List.range_succ, List.flatMap_append, List.flatMap_append, proj_append, ih (by omega)]
        simp only [List.flatMap_cons, List.flatMap_nil, List.append_nil]
        rw [proj_call (h m (by omega)) hr]
    exact this K (Nat.le_refl _)
  · rw [if_neg hr]
    cases hp : proj r (jobEvents C N K) with
    | nil => rfl
    | cons i rest => exact absurd (proj_lt (jobEvents_ok N K) hp) hr

/-! ## running the events one after the other -/

theorem run_enters (k m : Nat) (w : Nat → Cell V) :
    run C ((List.range m).map (Ev.enter k)) w = fun r => if r < m then ((w r).1, (C k).give r (w r).1) else w r := by
  induction m with
  | zero => funext r; rfl
  | succ m ih =>
    rw [List.range_succ, List.map_append, run_append, ih]
    funext r
    simp only [List.map_cons, List.map_nil, run_cons, exec, Ev.dst, Ev.act]
    rw [show ∀ w : Nat → Cell V, run C [] w = w from fun _ => rfl]
    by_cases hr : r = m
    · subst hr; rw [upd_same, if_pos (by omega)]; simp
    · rw [upd_ne _ _ hr]
      by_cases h : r < m
      · rw [if_pos h, if_pos (by omega)]
      · rw [if_neg h, if_neg (by omega)]

theorem run_leaves (k m : Nat) (w : Nat → Cell V) :
    run C ((List.range m).map (Ev.leave k)) w = fun r => if r < m then ((w r).1 ++ [(w r).2], (w r).2) else w r := by
  induction m with
  | zero => funext r; rfl
  | succ m ih =>
    rw [List.range_succ, List.map_append, run_append, ih]
    funext r
    simp only [List.map_cons, List.map_nil, run_cons, exec, Ev.dst, Ev.act]
    rw [show ∀ w : Nat → Cell V, run C [] w = w from fun _ => rfl]
    by_cases hr : r = m
    · subst hr; rw [upd_same, if_pos (by omega)]; simp
    · rw [upd_ne _ _ hr]
      by_cases h : r < m
      · rw [if_pos h, if_pos (by omega)]
      · rw [if_neg h, if_neg (by omega)]

theorem run_comms (k : Nat) (E : List Coll.Event) (w : Nat → Cell V) :
    run C (E.map (Ev.comm k)) w = fun r => ((w r).1, Coll.runEvents (C k).op E (fun q => (w q).2) r) := by
  induction E generalizing w with
  | nil => funext r; rfl
  | cons e E ih =>
    rw [List.map_cons, run_cons, ih]
    funext r
    have h1 : ∀ q, (exec C w (.comm k e) q).1 = (w q).1 := by
      intro q
      simp only [exec, Ev.dst, Ev.act]
      by_cases hq : q = e.dst
      · subst hq; rw [upd_same]
      · rw [upd_ne _ _ hq]
    have h2 : (fun q => (exec C w (.comm k e) q).2) = Coll.exec (C k).op (fun q => (w q).2) e := by
      funext q
      simp only [exec, Ev.dst, Ev.src, Ev.act, Coll.exec]
      by_cases hq : q = e.dst
      · subst hq; rw [upd_same, upd_same]
      · rw [upd_ne _ _ hq, upd_ne _ _ hq]
    rw [h1, h2]
    rfl

theorem combine_congr (op : V → V → V) (v w : Nat → V) (n : Nat) (h : ∀ q, q ≤ n → v q = w q) : combine op v n = combine op w n := by
  induction n with
  | zero => exact h 0 (Nat.le_refl _)
  | succ n ih => rw [combine, combine, ih (fun q hq => h q (by omega)), h (n + 1) (Nat.le_refl _)]

theorem run_commEv {what : What} {op : V → V → V} (ha : ∀ x y z, op (op x y) z = op x (op y z))
    (hc : what = .scan → ∀ x y, op x y = op y x) (N : Nat) (v : Nat → V) (r : Nat) (hr : r < N) :
    Coll.runEvents op (commEv what N) v r = result what op v N r := by
  cases what with
  | allreduce => rw [commEv, Coll.run_allreduce ha N (by omega) v r hr, result, Coll.combine_eq_seg]
  | scan => rw [commEv, Coll.run_scan ha (hc rfl) N v r hr, result, Coll.combine_eq_seg]

theorem run_call {N k : Nat} (ha : ∀ x y z, (C k).op ((C k).op x y) z = (C k).op x ((C k).op y z))
    (hc : (C k).what = .scan → ∀ x y, (C k).op x y = (C k).op y x) (w : Nat → Cell V) (r : Nat) (hr : r < N) :
    (run C (callEvents (C k).what N k) w r).1 =
      (w r).1 ++ [result (C k).what (C k).op (fun q => (C k).give q (w q).1) N r] := by
  rw [callEvents, run_append, run_append, run_enters, run_comms, run_leaves]
  simp only [if_pos hr]
  rw [run_commEv ha hc N _ r hr]
  congr 2
  unfold result
  split
  · exact combine_congr _ _ _ _ (fun q hq => by rw [if_pos (by omega)])
  · exact combine_congr _ _ _ _ (fun q hq => by rw [if_pos (by omega)])

theorem run_job {N K : Nat} (ho : OpsOk C K) (w : Nat → Cell V) (hw : ∀ r, (w r).1 = []) (r : Nat) (hr : r < N) :
    (run C (jobEvents C N K) w r).1 = history C N K r := by
  have : ∀ m, m ≤ K → ∀ r, r < N →
      (run C ((List.range m).flatMap (fun k => callEvents (C k).what N k)) w r).1 = history C N m r := by
    intro m
    induction m with
    | zero => intro _ r _; exact hw r
    | succ m ih =>
      intro hm r hr
      rw [List.range_succ, List.flatMap_append, run_append]
      simp only [List.flatMap_cons, List.flatMap_nil, List.append_nil]
      rw [run_call (ho m (by omega)).1 (ho m (by omega)).2 _ r hr, ih (by omega) r hr, history]
      congr 2
      unfold result
      split
      · exact combine_congr _ _ _ _ (fun q hq => by rw [ih (by omega) q (by omega)])
      · exact combine_congr _ _ _ _ (fun q hq => by rw [ih (by omega) q (by omega)])
  exact this K (Nat.le_refl _) r hr

theorem netInv_initial {N K : Nat} {P : Nat → Nat → List Coll.Instr} (h : JobRuns C N K P) (junk : Nat → V) :
    NetInv C N (run C (jobEvents C N K) (fun r => ([], junk r))) (initial P N K junk) (jobEvents C N K) := by
  refine ⟨jobEvents_ok N K, rfl, fun r => ?_⟩
  simp only [RankInv, initial]
  exact (proj_job h r).symm

theorem reach {N K n : Nat} {P : Nat → Nat → List Coll.Instr} (h : JobRuns C N K P) {junk : Nat → V} {st : Nat → RankSt V}
    (hs : Steps C N n (initial P N K junk) st) :
    ∃ E, E.Sublist (jobEvents C N K) ∧ NetInv C N (run C (jobEvents C N K) (fun r => ([], junk r))) st E :=
  netInv_steps hs (netInv_initial h junk)

/-! ## C77 -/

/-- The loops of all calls end on every rank and address only ranks of the job. -/
theorem c77_programs (C : Nat → Call V) (N K : Nat) : ∃ P, JobRuns C N K P := by
  have : ∀ k, ∃ Q, Runs (progOf (C k).what) N Q := by
    intro k
    cases (C k).what
    · exact Coll.c30_programs N
    · exact Coll.c31_programs N
  exact ⟨fun k => (this k).choose, fun k _ => (this k).choose_spec⟩

/-- Whenever a receive of call `k` finds a message from its peer, that message belongs to call `k`: no tags are needed. -/
theorem c77_match {N K n : Nat} {P : Nat → Nat → List Coll.Instr} (hP : JobRuns C N K P) {junk : Nat → V} {st : Nat → RankSt V}
    (hs : Steps C N n (initial P N K junk) st) {r p k k' : Nat} {kd : Kind} {rest rest' : List Instr}
    (hr : (st r).prog = .recv k p kd :: rest) (hp : (st p).prog = .send k' r :: rest') (hi : (st p).sent = some false) : k' = k := by
  obtain ⟨E, -, hE⟩ := reach hP hs
  have hne : r ≠ p := by
    rintro rfl; rw [hr] at hp; simp at hp
  obtain ⟨-, hpr⟩ := inv_none (hE.rank r) hr (by simp)
  have h2 := hE.rank p
  simp only [RankInv, hi] at h2
  exact (proj_match hpr (by rw [← h2.1, hp]) hne).1

/-- In every reachable state the results a rank has received are the first ones of its history, and a rank that has finished has all of
them: what the calls return does not depend on the schedule, nor on how far ahead other ranks are. -/
theorem c77_results {N K n : Nat} {P : Nat → Nat → List Coll.Instr} (ho : OpsOk C K) (hP : JobRuns C N K P) {junk : Nat → V}
    {st : Nat → RankSt V} (hs : Steps C N n (initial P N K junk) st) (r : Nat) (hr : r < N) :
    (st r).got <+: history C N K r ∧ ((st r).prog = [] → (st r).got = history C N K r) := by
  obtain ⟨E, -, hE⟩ := reach hP hs
  have hgoal : (run C E (fun r => ((st r).got, (st r).val)) r).1 = history C N K r := by
    rw [hE.vals]; exact run_job ho _ (fun _ => rfl) r hr
  refine ⟨?_, ?_⟩
  · rw [← hgoal]; exact run_prefix E (fun r => ((st r).got, (st r).val)) r
  · intro hd
    have h1 := hE.rank r
    have hp : proj r E = [] := by
      unfold RankInv at h1
      split at h1
      · obtain ⟨k, p, h⟩ := h1; rw [hd] at h; simp at h
      · obtain ⟨-, k, p, z, h⟩ := h1; rw [hd] at h; simp at h
      · rw [← h1, hd]
    rw [run_untouched E _ r hp] at hgoal
    exact hgoal

/-- Every execution is bounded, and as long as some rank has not finished some rank can move. -/
theorem c77_terminates {N K : Nat} {P : Nat → Nat → List Coll.Instr} (hP : JobRuns C N K P) (junk : Nat → V) :
    (∃ B, ∀ n st, Steps C N n (initial P N K junk) st → n ≤ B) ∧
    ∀ n st, Steps C N n (initial P N K junk) st → Finished N st ∨ ∃ st', Step C N st st' := by
  have h0 : SentOk N (initial P N K junk) := by intro r hr; simp [initial] at hr
  refine ⟨⟨totalWork N (initial P N K junk), ?_⟩, ?_⟩
  · intro n st hs
    have := (work_steps hs (netInv_initial hP junk) h0).1
    omega
  · intro n st hs
    obtain ⟨E, -, hE⟩ := reach hP hs
    by_cases h : Finished N st
    · exact Or.inl h
    · exact Or.inr (progress hE (work_steps hs (netInv_initial hP junk) h0).2 h)

/-! ### the barrier: ghost data -/

/-- same control state -/
def SameCtl {V W : Type} (a : Nat → RankSt V) (b : Nat → RankSt W) : Prop :=
  ∀ r, (a r).prog = (b r).prog ∧ (a r).sent = (b r).sent ∧ (a r).entered = (b r).entered ∧ (a r).got.length = (b r).got.length

theorem lift_step {W : Type} {C : Nat → Call V} (D : Nat → Call W) {N : Nat} {a a' : Nat → RankSt V} {b : Nat → RankSt W}
    (h : SameCtl a b) (hs : Step C N a a') : ∃ b', Step D N b b' ∧ SameCtl a' b' := by
  have one : ∀ (r : Nat) (s : RankSt V) (t : RankSt W),
      (s.prog = t.prog ∧ s.sent = t.sent ∧ s.entered = t.entered ∧ s.got.length = t.got.length) →
      SameCtl (upd a r s) (upd b r t) := by
    intro r s t hst j
    by_cases hj : j = r
    · subst hj; rw [upd_same, upd_same]; exact hst
    · rw [upd_ne _ _ hj, upd_ne _ _ hj]; exact h j
  cases hs with
  | enter r k rest hr hp =>
    obtain ⟨h1, h2, h3, h4⟩ := h r
    exact ⟨_, Step.enter r k rest hr (by rw [← h1]; exact hp), one r _ _ ⟨rfl, h2, by simp only [h3], h4⟩⟩
  | issue r k p rest hr hp hn =>
    obtain ⟨h1, h2, h3, h4⟩ := h r
    exact ⟨_, Step.issue r k p rest hr (by rw [← h1]; exact hp) (by rw [← h2]; exact hn), one r _ _ ⟨h1, rfl, h3, h4⟩⟩
  | done r k p rest hr hp hn =>
    obtain ⟨h1, h2, h3, h4⟩ := h r
    exact ⟨_, Step.done r k p rest hr (by rw [← h1]; exact hp) (by rw [← h2]; exact hn), one r _ _ ⟨rfl, rfl, h3, h4⟩⟩
  | leave r k rest hr hp =>
    obtain ⟨h1, h2, h3, h4⟩ := h r
    exact ⟨_, Step.leave r k rest hr (by rw [← h1]; exact hp), one r _ _ ⟨rfl, h2, h3, by simp [h4]⟩⟩
  | recv r k p kd k' rest rest' hr hp hp' hi =>
    refine ⟨_, Step.recv r k p kd k' rest rest' hr (by rw [← (h r).1]; exact hp) (by rw [← (h p).1]; exact hp')
      (by rw [← (h p).2.1]; exact hi), fun j => ?_⟩
    by_cases hj : j = r
    · subst hj; rw [upd_same, upd_same]; exact ⟨rfl, (h j).2.1, (h j).2.2.1, (h j).2.2.2⟩
    · rw [upd_ne _ _ hj, upd_ne _ _ hj]
      by_cases hj2 : j = p
      · subst hj2; rw [upd_same, upd_same]; exact ⟨(h j).1, rfl, (h j).2.2.1, (h j).2.2.2⟩
      · rw [upd_ne _ _ hj2, upd_ne _ _ hj2]; exact h j

theorem lift_steps {W : Type} {C : Nat → Call V} (D : Nat → Call W) {N n : Nat} {a a' : Nat → RankSt V} {b : Nat → RankSt W}
    (hs : Steps C N n a a') (h : SameCtl a b) : ∃ b', Steps D N n b b' ∧ SameCtl a' b' := by
  induction hs with
  | refl => exact ⟨b, .refl b, h⟩
  | tail _ hstep ih =>
    obtain ⟨c, hc, hcc⟩ := ih h
    obtain ⟨d, hd, hdd⟩ := lift_step D hcc hstep
    exact ⟨d, .tail hc hd, hdd⟩

/-- the ghost job for call `k`: the data are sets of ranks; in call `k` every rank contributes itself -/
def ghost (C : Nat → Call V) (k : Nat) : Nat → Call (Nat → Bool) := fun j =>
  { what := (C j).what, op := fun a b x => a x || b x, give := fun r _ x => decide (j = k) && decide (x = r) }

/-- who is known to have entered call `k` has entered it -/
def Know (k : Nat) (st : Nat → RankSt (Nat → Bool)) : Prop :=
  ∀ p x, ((st p).val x = true ∨ ∃ s ∈ (st p).got, s x = true) → k ∈ (st x).entered

theorem know_step {k N : Nat} {a b : Nat → RankSt (Nat → Bool)} (h : Know k a) (hs : Step (ghost C k) N a b) : Know k b := by
  have mono : ∀ y, k ∈ (a y).entered → k ∈ (b y).entered := by
    intro y hy
    cases hs with
    | enter r j rest hr hp =>
      by_cases hj : y = r
      · subst hj; rw [upd_same]; simp [hy]
      · rw [upd_ne _ _ hj]; exact hy
    | issue r j p rest hr hp hn =>
      by_cases hj : y = r
      · subst hj; rw [upd_same]; exact hy
      · rw [upd_ne _ _ hj]; exact hy
    | done r j p rest hr hp hn =>
      by_cases hj : y = r
      · subst hj; rw [upd_same]; exact hy
      · rw [upd_ne _ _ hj]; exact hy
    | leave r j rest hr hp =>
      by_cases hj : y = r
      · subst hj; rw [upd_same]; exact hy
      · rw [upd_ne _ _ hj]; exact hy
    | recv r j p kd k' rest rest' hr hp hp' hi =>
      by_cases hj : y = r
      · subst hj; rw [upd_same]; exact hy
      · rw [upd_ne _ _ hj]
        by_cases hj2 : y = p
        · subst hj2; rw [upd_same]; exact hy
        · rw [upd_ne _ _ hj2]; exact hy
  intro q x hx
  cases hs with
  | enter r j rest hr hp =>
    by_cases hj : q = r
    · subst hj
      rw [upd_same] at hx
      rcases hx with hx | hx
      · simp only [ghost, Bool.and_eq_true, decide_eq_true_eq] at hx
        obtain ⟨rfl, rfl⟩ := hx
        rw [upd_same]; simp
      · exact mono x (h q x (Or.inr hx))
    · rw [upd_ne _ _ hj] at hx; exact mono x (h q x hx)
  | issue r j p rest hr hp hn =>
    by_cases hj : q = r
    · subst hj; rw [upd_same] at hx; exact mono x (h q x hx)
    · rw [upd_ne _ _ hj] at hx; exact mono x (h q x hx)
  | done r j p rest hr hp hn =>
    by_cases hj : q = r
    · subst hj; rw [upd_same] at hx; exact mono x (h q x hx)
    · rw [upd_ne _ _ hj] at hx; exact mono x (h q x hx)
  | leave r j rest hr hp =>
    by_cases hj : q = r
    · subst hj
      rw [upd_same] at hx
      refine mono x (h q x ?_)
      rcases hx with hx | ⟨s, hs, hx⟩
      · exact Or.inl hx
      · rcases List.mem_append.mp hs with hs | hs
        · exact Or.inr ⟨s, hs, hx⟩
        · simp at hs; subst hs; exact Or.inl hx
    · rw [upd_ne _ _ hj] at hx; exact mono x (h q x hx)
  | recv r j p kd k' rest rest' hr hp hp' hi =>
    by_cases hj : q = r
    · subst hj
      rw [upd_same] at hx
      rcases hx with hx | hx
      · have : (a q).val x = true ∨ (a p).val x = true := by
          cases kd with
          | merge => simpa [Coll.apply, ghost] using hx
          | assign => right; simpa [Coll.apply] using hx
        rcases this with h1 | h1
        · exact mono x (h q x (Or.inl h1))
        · exact mono x (h p x (Or.inl h1))
      · exact mono x (h q x (Or.inr hx))
    · rw [upd_ne _ _ hj] at hx
      by_cases hj2 : q = p
      · subst hj2; rw [upd_same] at hx; exact mono x (h q x hx)
      · rw [upd_ne _ _ hj2] at hx; exact mono x (h q x hx)

theorem know_steps {k N n : Nat} {a b : Nat → RankSt (Nat → Bool)} (hs : Steps (ghost C k) N n a b) (h : Know k a) : Know k b := by
  induction hs with
  | refl => exact h
  | tail _ hstep ih => exact know_step (ih h) hstep

theorem history_get (C : Nat → Call V) (N : Nat) (r k : Nat) : ∀ K, k < K →
    (history C N K r)[k]? = some (result (C k).what (C k).op (fun q => (C k).give q (history C N k q)) N r) := by
  have hlen : ∀ m, (history C N m r).length = m := by
    intro m
    induction m with
    | zero => rfl
    | succ m ih => simp [history, ih]
  intro K
  induction K with
  | zero => intro h; omega
  | succ K ih =>
    intro h
    by_cases hk : k < K
    · rw [history, List.getElem?_append_left (by rw [hlen]; exact hk)]; exact ih hk
    · have : k = K := by omega
      subst this
      rw [history, List.getElem?_append_right (by rw [hlen]; exact Nat.le_refl _), hlen]
      simp

theorem history_len (C : Nat → Call V) (N : Nat) (r m : Nat) : (history C N m r).length = m := by
  induction m with
  | zero => rfl
  | succ m ih => simp [history, ih]

theorem combine_or (v : Nat → Nat → Bool) (n q x : Nat) (hq : q ≤ n) (h : v q x = true) :
    combine (fun (a b : Nat → Bool) x => a x || b x) v n x = true := by
  induction n with
  | zero => have : q = 0 := by omega
            subst this; exact h
  | succ n ih =>
    rw [combine]
    by_cases hn : q ≤ n
    · simp [ih hn]
    · have : q = n + 1 := by omega
      subst this; simp [h]

/-- A rank that has returned from call `k` knows: if the call is an allreduce (or a barrier), every rank has entered *that* call; if it
is a scan, every rank up to its own has. -/
theorem c77_barrier {N K n : Nat} {P : Nat → Nat → List Coll.Instr} (hP : JobRuns C N K P) {junk : Nat → V} {st : Nat → RankSt V}
    (hs : Steps C N n (initial P N K junk) st) (r k : Nat) (hr : r < N) (hk : k < (st r).got.length) :
    ∀ q, q < N → ((C k).what = .scan → q ≤ r) → k ∈ (st q).entered := by
  intro q hq hscan
  obtain ⟨b, hb, hsame⟩ := lift_steps (ghost C k) hs (b := initial P N K (fun _ _ => false)) (fun _ => ⟨rfl, rfl, rfl, rfl⟩)
  have hP' : JobRuns (ghost C k) N K P := hP
  have ho : OpsOk (ghost C k) K := by
    intro j _
    refine ⟨?_, ?_⟩
    · intro x y z; funext i; exact Bool.or_assoc _ _ _
    · intro _ x y; funext i; exact Bool.or_comm _ _
  obtain ⟨⟨t, ht⟩, -⟩ := c77_results ho hP' hb r hr
  have hlen : k < (b r).got.length := by rw [← (hsame r).2.2.2]; exact hk
  have hK : k < K := by
    have := congrArg List.length ht
    rw [history_len, List.length_append] at this
    omega
  have hg := history_get (ghost C k) N r k K hK
  rw [← ht, List.getElem?_append_left hlen, List.getElem?_eq_getElem hlen] at hg
  have hg' := Option.some.inj hg
  have hkn : Know k b := know_steps hb (by
    intro p x hx
    simp [initial] at hx)
  rw [(hsame q).2.2.1]
  refine hkn r q (Or.inr ⟨_, List.getElem_mem hlen, ?_⟩)
  rw [hg']
  have hgive : (ghost C k k).give q (history (ghost C k) N k q) q = true := by simp [ghost]
  unfold result
  cases hw : (ghost C k k).what with
  | allreduce => exact combine_or _ (N - 1) q q (by omega) hgive
  | scan => exact combine_or _ r q q (hscan hw) hgive

/-- … so complete executions exist. -/
theorem c77_complete {N K : Nat} {P : Nat → Nat → List Coll.Instr} (hP : JobRuns C N K P) (junk : Nat → V) :
    ∃ n st, Steps C N n (initial P N K junk) st ∧ Finished N st := by
  obtain ⟨⟨B, hB⟩, hp⟩ := c77_terminates hP junk
  suffices ∀ d n st, n + d = B + 1 → Steps C N n (initial P N K junk) st →
      ∃ n st, Steps C N n (initial P N K junk) st ∧ Finished N st from
    this (B + 1) 0 _ (by omega) (.refl _)
  intro d
  induction d with
  | zero => intro n st hn hs; have := hB n st hs; omega
  | succ d ih =>
    intro n st hn hs
    rcases hp n st hs with h | ⟨st', h⟩
    · exact ⟨n, st, hs, h⟩
    · exact ih (n + 1) st' (by omega) (.tail hs h)

/-! ### concrete cases -/

/-- a job: a scan of one number per rank, then an allreduce in which every rank contributes the result of the scan times its rank -/
def sampleJob : Nat → Call Int := fun k =>
  if k = 0 then { what := .scan, op := (· + ·), give := fun r _ => r + 1 }
  else { what := .allreduce, op := (· + ·), give := fun r l => r * l.getLastD 0 }

theorem sampleJob_ops : OpsOk sampleJob 2 := by
  intro k _
  unfold sampleJob
  split
  · exact ⟨fun x y z => Int.add_assoc x y z, fun _ x y => Int.add_comm x y⟩
  · exact ⟨fun x y z => Int.add_assoc x y z, fun _ x y => Int.add_comm x y⟩

/-- the hypotheses are met and complete executions exist; what they return on three ranks -/
example : ∃ P, JobRuns sampleJob 3 2 P ∧ OpsOk sampleJob 2 ∧
    ∃ n st, Steps sampleJob 3 n (initial P 3 2 (fun _ => 99)) st ∧ Finished 3 st ∧
      (st 0).got = [1, 15] ∧ (st 1).got = [3, 15] ∧ (st 2).got = [6, 15] := by
  obtain ⟨P, hP⟩ := c77_programs sampleJob 3 2
  obtain ⟨n, st, hs, hf⟩ := c77_complete hP (fun _ => 99)
  refine ⟨P, hP, sampleJob_ops, n, st, hs, hf, ?_, ?_, ?_⟩
  · rw [(c77_results sampleJob_ops hP hs 0 (by omega)).2 (hf 0 (by omega))]; decide
  · rw [(c77_results sampleJob_ops hP hs 1 (by omega)).2 (hf 1 (by omega))]; decide
  · rw [(c77_results sampleJob_ops hP hs 2 (by omega)).2 (hf 2 (by omega))]; decide

/-- two scans -/
def twoScans : Nat → Call Int := fun _ => { what := .scan, op := (· + ·), give := fun r _ => r + 1 }

/-- their communication on three ranks -/
def scan3 : Nat → List Coll.Instr
  | 0 => [.send 1]
  | 1 => [.recv 0 .merge, .send 2]
  | 2 => [.recv 1 .merge]
  | _ => []

theorem scan3_runs : Runs Coll.scanProg 3 scan3 := by
  have h2 : Coll.floorLog2 3 = 1 := by unfold Coll.floorLog2; simp; unfold Coll.floorLog2; simp
  refine ⟨?_, ?_⟩
  · intro r hr
    refine ⟨5, ?_⟩
    have : r = 0 ∨ r = 1 ∨ r = 2 := by omega
    rcases this with rfl | rfl | rfl <;>
      simp [scan3, Coll.scanProg, Coll.seqProg, Coll.program, Coll.scanUp, Coll.scanDown, Coll.loop, Coll.instr, Coll.checkRank, h2,
        Coll.upCouldReceive, Coll.downCouldSend] <;> rfl
  · intro r hr
    match r, hr with
    | r + 3, _ => rfl

/-- Ranks really are in different calls at the same time: rank 0 may be back from the first scan and inside the second one while rank 2
has not begun the first.  (So the restriction to `q ≤ r` for scans in `c77_barrier` is needed.) -/
theorem c77_scan_is_no_barrier : ∃ n st, JobRuns twoScans 3 2 (fun _ => scan3) ∧
    Steps twoScans 3 n (initial (fun _ => scan3) 3 2 (fun _ => 0)) st ∧
    (st 0).got = [1] ∧ 1 ∈ (st 0).entered ∧ (st 2).entered = [] := by
  have s0 : Steps twoScans 3 0 (initial (fun _ => scan3) 3 2 (fun _ => 0)) _ := .refl _
  have s1 := Steps.tail s0 (Step.enter 0 0 _ (by omega) rfl)
  have s2 := Steps.tail s1 (Step.enter 1 0 _ (by omega) rfl)
  have s3 := Steps.tail s2 (Step.issue 0 0 1 _ (by omega) rfl rfl)
  have s4 := Steps.tail s3 (Step.recv 1 0 0 .merge 0 _ _ (by omega) rfl rfl rfl)
  have s5 := Steps.tail s4 (Step.done 0 0 1 _ (by omega) rfl rfl)
  have s6 := Steps.tail s5 (Step.leave 0 0 _ (by omega) rfl)
  have s7 := Steps.tail s6 (Step.enter 0 1 _ (by omega) rfl)
  exact ⟨_, _, fun _ _ => scan3_runs, s7, rfl, by decide, rfl⟩

end Verif.Pcu.Seq
