import Verif.Pcu.CollLift
/-!
# C30, C31, C32: collectives, for every number of ranks and every schedule

`Steps op N n (initial P v) st` says: `st` is reached after `n` atomic steps of a job of `N` ranks in
which rank `r` runs program `P r` and contributes `v r`; nothing restricts which rank moves when.
-/
namespace Verif.Pcu.Coll

/-! ## specification -/

/-- the contributions of ranks `0 … n` combined in rank order -/
def combine {V : Type} (op : V → V → V) (v : Nat → V) : Nat → V
  | 0 => v 0
  | n + 1 => op (combine op v n) (v (n + 1))

/-- `P` is, rank by rank, the communication the code performs: the loop ends, and every peer rank
it computes is a valid rank (`check_rank` succeeds) -/
def Runs (prog : Nat → Nat → Nat → Option (Outcome (List Instr))) (N : Nat) (P : Nat → List Instr) :
    Prop :=
  (∀ r, r < N → ∃ fuel, prog N r fuel = some (.ok (P r))) ∧ ∀ r, N ≤ r → P r = []

/-- everything the job needs for termination: executions are bounded and never get stuck -/
def Terminates {V : Type} (op : V → V → V) (N : Nat) (init : Nat → RankSt V) : Prop :=
  (∃ B, ∀ n st, Steps op N n init st → n ≤ B) ∧
  (∀ n st, Steps op N n init st → (∀ r, r < N → Returned st r) ∨ ∃ st', Step op N st st')

/-! ## glue -/

theorem combine_eq_seg {V : Type} (op : V → V → V) (v : Nat → V) (n : Nat) :
    combine op v n = seg op v 0 n := by
  induction n with
  | zero => rfl
  | succ n ih => rw [combine, ih, seg_succ, Nat.zero_add]

theorem proj_ge {N r : Nat} {E : List Event} (hok : EventsOk N E) (hr : N ≤ r) : proj r E = [] := by
  cases h : proj r E with
  | nil => rfl
  | cons i rest => have := proj_lt hok h; omega

theorem runs_allreduce {N : Nat} {P : Nat → List Instr} (h : Runs allreduceProg N P) :
    P = fun r => proj r (allreduceEvents N) := by
  funext r
  by_cases hr : r < N
  · obtain ⟨f, hf⟩ := h.1 r hr
    have h1 := seqProg_mono (g := max f (ceilLog2 N + 1)) hf (Nat.le_max_left _ _)
    have h2 := program_allreduce hr (max f (ceilLog2 N + 1)) (Nat.le_max_right _ _)
    unfold allreduceProg at h2
    rw [h1] at h2
    simpa using h2
  · rw [h.2 r (by omega), proj_ge (eventsOk_allreduce N) (by omega)]

theorem runs_scan {N : Nat} {P : Nat → List Instr} (h : Runs scanProg N P) :
    P = fun r => proj r (scanEvents N) := by
  funext r
  by_cases hr : r < N
  · obtain ⟨f, hf⟩ := h.1 r hr
    have h1 := seqProg_mono (g := max f (floorLog2 N)) hf (Nat.le_max_left _ _)
    have h2 := program_scan hr (max f (floorLog2 N)) (Nat.le_max_right _ _)
    unfold scanProg at h2
    rw [h1] at h2
    simpa using h2
  · rw [h.2 r (by omega), proj_ge (eventsOk_scan N) (by omega)]

theorem terminates_of_events {V : Type} {op : V → V → V} {N : Nat} {E : List Event}
    (hok : EventsOk N E) (v : Nat → V) : Terminates op N (initial (fun r => proj r E) v) := by
  refine ⟨⟨totalWork N (initial (fun r => proj r E) v), ?_⟩, ?_⟩
  · intro n st hs
    have := (work_steps hs ⟨E, netInv_initial N E v hok⟩ (by simp [initial])).1
    omega
  · intro n st hs
    obtain ⟨E', hE'⟩ := netInv_steps hs ⟨E, netInv_initial N E v hok⟩
    by_cases h : ∀ r, r < N → Returned st r
    · exact Or.inl h
    · exact Or.inr (progress hE' h)

/-- a terminating job has a complete execution -/
theorem exists_complete {V : Type} {op : V → V → V} {N : Nat} {a : Nat → RankSt V}
    (h : Terminates op N a) : ∃ n st, Steps op N n a st ∧ ∀ r, r < N → Returned st r := by
  obtain ⟨⟨B, hB⟩, hp⟩ := h
  suffices ∀ d n st, n + d = B + 1 → Steps op N n a st →
      ∃ n st, Steps op N n a st ∧ ∀ r, r < N → Returned st r from
    this (B + 1) 0 a (by omega) (.refl a)
  intro d
  induction d with
  | zero => intro n st hn hs; have := hB n st hs; omega
  | succ d ih =>
    intro n st hn hs
    rcases hp n st hs with h | ⟨st', h⟩
    · exact ⟨n, st, hs, h⟩
    · exact ih (n + 1) st' (by omega) (.tail hs h)

/-! ## C30: allreduce -/

/-- The code's loops end on every rank and never address a rank outside the job. -/
theorem c30_programs (N : Nat) : ∃ P, Runs allreduceProg N P := by
  refine ⟨fun r => proj r (allreduceEvents N), fun r hr => ⟨_, program_allreduce hr _ (Nat.le_refl _)⟩, ?_⟩
  intro r hr
  exact proj_ge (eventsOk_allreduce N) hr

/-- In every execution, whatever the number of ranks and the schedule, a rank that returns from
`pcu_allreduce` holds the combination of all contributions in rank order (only associativity of the
operation is needed). -/
theorem c30_allreduce {V : Type} (op : V → V → V) (hassoc : ∀ x y z, op (op x y) z = op x (op y z))
    (N : Nat) (v : Nat → V) (P : Nat → List Instr) (hP : Runs allreduceProg N P)
    (n : Nat) (st : Nat → RankSt V) (hs : Steps op N n (initial P v) st)
    (r : Nat) (hr : r < N) (hret : Returned st r) : (st r).val = combine op v (N - 1) := by
  rw [runs_allreduce hP] at hs
  obtain ⟨E, hE⟩ := netInv_steps hs ⟨_, netInv_initial N _ v (eventsOk_allreduce N)⟩
  rw [returned_value hE hret, run_allreduce hassoc N (by omega) v r hr, combine_eq_seg]

/-- Every execution of an allreduce is bounded and never gets stuck before all ranks have returned. -/
theorem c30_terminates {V : Type} (op : V → V → V) (N : Nat) (v : Nat → V) (P : Nat → List Instr)
    (hP : Runs allreduceProg N P) : Terminates op N (initial P v) := by
  rw [runs_allreduce hP]
  exact terminates_of_events (eventsOk_allreduce N) v

/-- `PCU_Add_Ints/Longs/Doubles/SizeTs` on arrays: every rank gets, in each component, the sum over all ranks. -/
theorem c30_add (len N : Nat) (hN : 0 < N) (v : Nat → Fin len → Int) (P : Nat → List Instr)
    (hP : Runs allreduceProg N P) (n : Nat) (st : Nat → RankSt (Fin len → Int))
    (hs : Steps (fun a b i => a i + b i) N n (initial P v) st)
    (r : Nat) (hr : r < N) (hret : Returned st r) (i : Fin len) :
    (st r).val i = ((List.range N).map (fun q => v q i)).sum := by
  rw [c30_allreduce _ (by intros; funext i; exact Int.add_assoc ..) N v P hP n st hs r hr hret]
  obtain ⟨m, rfl⟩ : ∃ m, N = m + 1 := ⟨N - 1, by omega⟩
  rw [Nat.add_sub_cancel]
  clear hs hP hret hr hN
  induction m with
  | zero => simp [combine]
  | succ m ih => rw [combine, List.range_succ, List.map_append, List.sum_append, ih]; simp

/-- `PCU_Max_*`: the result is an upper bound of all contributions and is one of them. -/
theorem c30_max (N : Nat) (v : Nat → Int) (P : Nat → List Instr)
    (hP : Runs allreduceProg N P) (n : Nat) (st : Nat → RankSt Int)
    (hs : Steps max N n (initial P v) st) (r : Nat) (hr : r < N) (hret : Returned st r) :
    (∀ q, q < N → v q ≤ (st r).val) ∧ ∃ q, q < N ∧ (st r).val = v q := by
  rw [c30_allreduce max (by intros; omega) N v P hP n st hs r hr hret]
  obtain ⟨m, rfl⟩ : ∃ m, N = m + 1 := ⟨N - 1, by omega⟩
  rw [Nat.add_sub_cancel]
  clear hs hP hret hr
  induction m with
  | zero =>
    refine ⟨?_, 0, by omega, rfl⟩
    intro q hq
    have : q = 0 := by omega
    subst this; exact Int.le_refl _
  | succ m ih =>
    obtain ⟨h1, q, hq, h2⟩ := ih
    rw [combine]
    refine ⟨?_, ?_⟩
    · intro p hp
      by_cases hpm : p < m + 1
      · have := h1 p hpm; omega
      · have : p = m + 1 := by omega
        subst this; omega
    · by_cases hc : v (m + 1) ≤ combine max v m
      · exact ⟨q, by omega, by rw [← h2]; omega⟩
      · exact ⟨m + 1, by omega, by omega⟩

/-- `PCU_Min_*`: the result is a lower bound of all contributions and is one of them. -/
theorem c30_min (N : Nat) (v : Nat → Int) (P : Nat → List Instr)
    (hP : Runs allreduceProg N P) (n : Nat) (st : Nat → RankSt Int)
    (hs : Steps min N n (initial P v) st) (r : Nat) (hr : r < N) (hret : Returned st r) :
    (∀ q, q < N → (st r).val ≤ v q) ∧ ∃ q, q < N ∧ (st r).val = v q := by
  rw [c30_allreduce min (by intros; omega) N v P hP n st hs r hr hret]
  obtain ⟨m, rfl⟩ : ∃ m, N = m + 1 := ⟨N - 1, by omega⟩
  rw [Nat.add_sub_cancel]
  clear hs hP hret hr
  induction m with
  | zero =>
    refine ⟨?_, 0, by omega, rfl⟩
    intro q hq
    have : q = 0 := by omega
    subst this; exact Int.le_refl _
  | succ m ih =>
    obtain ⟨h1, q, hq, h2⟩ := ih
    rw [combine]
    refine ⟨?_, ?_⟩
    · intro p hp
      by_cases hpm : p < m + 1
      · have := h1 p hpm; omega
      · have : p = m + 1 := by omega
        subst this; omega
    · by_cases hc : combine min v m ≤ v (m + 1)
      · exact ⟨q, by omega, by rw [← h2]; omega⟩
      · exact ⟨m + 1, by omega, by omega⟩

/-- the hypotheses are met, and complete executions exist, for every job; here for 6 ranks -/
example : ∃ P, Runs allreduceProg 6 P ∧ ∃ n st,
    Steps (· + ·) 6 n (initial P (fun r => (r : Int))) st ∧ ∀ r, r < 6 → Returned st r := by
  obtain ⟨P, hP⟩ := c30_programs 6
  exact ⟨P, hP, exists_complete (c30_terminates _ 6 _ P hP)⟩

/-- the programs of a three-rank allreduce, as the code produces them -/
example : allreduceProg 3 0 5 = some (.ok [.recv 1 .merge, .recv 2 .merge, .send 2, .send 1]) ∧
    allreduceProg 3 1 5 = some (.ok [.send 0, .recv 0 .assign]) ∧
    allreduceProg 3 2 5 = some (.ok [.send 0, .recv 0 .assign]) := by
  have h2 : floorLog2 3 = 1 := by unfold floorLog2; simp; unfold floorLog2; simp
  have hc : ceilLog2 3 = 2 := by simp [ceilLog2, h2]
  refine ⟨?_, ?_, ?_⟩ <;> simp [allreduceProg, seqProg, program, reduce, bcast, loop, instr, checkRank, lowBit, hc]

/-! ## C31: scan and exclusive scan -/

theorem c31_programs (N : Nat) : ∃ P, Runs scanProg N P := by
  refine ⟨fun r => proj r (scanEvents N), fun r hr => ⟨_, program_scan hr _ (Nat.le_refl _)⟩, ?_⟩
  intro r hr
  exact proj_ge (eventsOk_scan N) hr

/-- `pcu_scan`: rank `r` gets the combination of the contributions of ranks `0 … r`
(the operation has to be associative and commutative). -/
theorem c31_scan {V : Type} (op : V → V → V) (hassoc : ∀ x y z, op (op x y) z = op x (op y z))
    (hcomm : ∀ x y, op x y = op y x)
    (N : Nat) (v : Nat → V) (P : Nat → List Instr) (hP : Runs scanProg N P)
    (n : Nat) (st : Nat → RankSt V) (hs : Steps op N n (initial P v) st)
    (r : Nat) (hr : r < N) (hret : Returned st r) : (st r).val = combine op v r := by
  rw [runs_scan hP] at hs
  obtain ⟨E, hE⟩ := netInv_steps hs ⟨_, netInv_initial N _ v (eventsOk_scan N)⟩
  rw [returned_value hE hret, run_scan hassoc hcomm N v r hr, combine_eq_seg]

/-- the last loop of `PCU_Exscan_Ints`, pcu/pcu.c:402-403: inclusive result minus the original -/
def exscanResult {len : Nat} (orig scanned : Fin len → Int) : Fin len → Int :=
  fun i => scanned i - orig i

/-- `PCU_Exscan_Ints/Longs`: rank `r` gets, in each component, the sum over the lower ranks. -/
theorem c31_exscan (len N : Nat) (v : Nat → Fin len → Int) (P : Nat → List Instr)
    (hP : Runs scanProg N P) (n : Nat) (st : Nat → RankSt (Fin len → Int))
    (hs : Steps (fun a b i => a i + b i) N n (initial P v) st)
    (r : Nat) (hr : r < N) (hret : Returned st r) (i : Fin len) :
    exscanResult (v r) (st r).val i = ((List.range r).map (fun q => v q i)).sum := by
  rw [c31_scan _ (by intros; funext i; exact Int.add_assoc ..)
    (by intros; funext i; exact Int.add_comm ..) N v P hP n st hs r hr hret]
  simp only [exscanResult]
  clear hs hP hret hr
  cases r with
  | zero => simp [combine]
  | succ m =>
    have key : ∀ m, combine (fun a b (i : Fin len) => a i + b i) v m i =
        ((List.range (m + 1)).map (fun q => v q i)).sum := by
      intro m
      induction m with
      | zero => simp [combine]
      | succ m ih => rw [combine, List.range_succ, List.map_append, List.sum_append, ih]; simp
    rw [combine, key m]; omega

/-- Every execution of a scan is bounded and never gets stuck before all ranks have returned. -/
theorem c31_terminates {V : Type} (op : V → V → V) (N : Nat) (v : Nat → V) (P : Nat → List Instr)
    (hP : Runs scanProg N P) : Terminates op N (initial P v) := by
  rw [runs_scan hP]
  exact terminates_of_events (eventsOk_scan N) v

example : ∃ P, Runs scanProg 7 P ∧ ∃ n st,
    Steps (· + ·) 7 n (initial P (fun r => (r : Int))) st ∧ ∀ r, r < 7 → Returned st r := by
  obtain ⟨P, hP⟩ := c31_programs 7
  exact ⟨P, hP, exists_complete (c31_terminates _ 7 _ P hP)⟩

/-! ## C32: barrier -/

/-- `pcu_barrier` performs the communication of an allreduce (with empty data).  In every execution,
if some rank has returned from the barrier then every rank has entered it. -/
theorem c32_barrier {V : Type} (op : V → V → V) (N : Nat) (v : Nat → V) (P : Nat → List Instr)
    (hP : Runs allreduceProg N P) (n : Nat) (st : Nat → RankSt V)
    (hs : Steps op N n (initial P v) st) (r : Nat) (hr : r < N) (hret : Returned st r) :
    ∀ q, q < N → (st q).started = true := by
  intro q hq
  obtain ⟨st', hs', hsame⟩ := lift_steps (W := List Nat) (· ++ ·) (b := initial P (fun r => [r])) hs
    (fun r => ⟨rfl, rfl, rfl⟩)
  have hret' : Returned st' r := ⟨by rw [← (hsame r).1]; exact hret.1, by rw [← (hsame r).2.1]; exact hret.2⟩
  have hval := c30_allreduce (· ++ ·) (fun x y z => List.append_assoc x y z) N _ P hP n st' hs' r hr hret'
  rw [runs_allreduce hP] at hs'
  have hk := know_steps ⟨_, netInv_initial N _ _ (eventsOk_allreduce N)⟩ hs' (by
    intro p x hx; left; simpa [initial] using hx) r q (by
      rw [hval, combine_eq_seg]; exact mem_seg _ _ (by omega))
  rw [(hsame q).1]
  rcases hk with h | h
  · subst h; exact hret'.1
  · exact h

/-- … and every execution of the barrier is bounded and cannot get stuck. -/
theorem c32_terminates {V : Type} (op : V → V → V) (N : Nat) (v : Nat → V) (P : Nat → List Instr)
    (hP : Runs allreduceProg N P) : Terminates op N (initial P v) :=
  c30_terminates op N v P hP

/-- the barrier theorem is about executions that exist -/
example : ∃ P, Runs allreduceProg 5 P ∧ ∃ n st,
    Steps (fun _ _ => ()) 5 n (initial P (fun _ => ())) st ∧ ∀ r, r < 5 → Returned st r := by
  obtain ⟨P, hP⟩ := c30_programs 5
  exact ⟨P, hP, exists_complete (c32_terminates _ 5 _ P hP)⟩

end Verif.Pcu.Coll
