import Verif.Pcu.CollModel
/-!
# Determinism and progress of the asynchronous execution

If the programs of the ranks are the projections of one global list of communication events, then
*every* execution of the job is finite, never gets stuck, and ends with the values obtained by
performing the events one after the other.
-/
namespace Verif.Pcu.Coll

/-- a message from `src` to `dst`, merged at `dst` with `kind` -/
structure Event where
  src : Nat
  dst : Nat
  kind : Kind
deriving DecidableEq, Repr

/-- the instructions of rank `r` for one event -/
def Event.instr (r : Nat) (e : Event) : Option Instr :=
  if e.src = r then some (.send e.dst) else if e.dst = r then some (.recv e.src e.kind) else none

/-- projection of a global event list on a rank -/
def proj (r : Nat) (E : List Event) : List Instr := E.filterMap (Event.instr r)

/-- perform one event on the vector of all values -/
def exec {V : Type} (op : V → V → V) (v : Nat → V) (e : Event) : Nat → V :=
  upd v e.dst (apply op e.kind (v e.dst) (v e.src))

/-- perform a list of events in order -/
def runEvents {V : Type} (op : V → V → V) (E : List Event) (v : Nat → V) : Nat → V :=
  E.foldl (exec op) v

variable {V : Type} {op : V → V → V}

theorem proj_append (r : Nat) (A B : List Event) : proj r (A ++ B) = proj r A ++ proj r B := by
  simp [proj, List.filterMap_append]

@[simp] theorem proj_nil (r : Nat) : proj r [] = [] := rfl

theorem proj_cons (r : Nat) (e : Event) (B : List Event) :
    proj r (e :: B) = (e.instr r).toList ++ proj r B := by
  simp only [proj, List.filterMap_cons]
  cases e.instr r <;> simp

theorem runEvents_append (A B : List Event) (v : Nat → V) :
    runEvents op (A ++ B) v = runEvents op B (runEvents op A v) := by
  simp [runEvents, List.foldl_append]

theorem runEvents_cons (e : Event) (B : List Event) (v : Nat → V) :
    runEvents op (e :: B) v = runEvents op B (exec op v e) := rfl

/-- a rank without remaining instructions keeps its value -/
theorem runEvents_untouched (E : List Event) (v : Nat → V) (r : Nat) (h : proj r E = []) :
    runEvents op E v r = v r := by
  induction E generalizing v with
  | nil => rfl
  | cons e E ih =>
    rw [proj_cons] at h
    have h1 : e.instr r = none := by
      cases he : e.instr r with
      | none => rfl
      | some i => simp [he] at h
    have h2 : proj r E = [] := by simpa [h1] using h
    rw [runEvents_cons, ih _ h2]
    have : e.dst ≠ r := by
      intro hd
      simp only [Event.instr, hd] at h1
      split at h1 <;> simp at h1
    simp [exec, upd, Ne.symm this]

theorem exec_comm (v : Nat → V) (a e : Event) (h1 : a.src ≠ e.dst) (h2 : a.dst ≠ e.src)
    (h3 : a.dst ≠ e.dst) : exec op (exec op v a) e = exec op (exec op v e) a := by
  funext j
  simp only [exec, upd]
  by_cases hj1 : j = e.dst
  · subst hj1
    simp [Ne.symm h3, Ne.symm h2]
  · by_cases hj2 : j = a.dst
    · subst hj2
      simp [h1, h3]
    · simp [hj1, hj2]

/-- an event whose two ranks do not occur before it can be performed first -/
theorem runEvents_front (A B : List Event) (e : Event) (v : Nat → V)
    (hs : proj e.src A = []) (hd : proj e.dst A = []) :
    runEvents op (A ++ e :: B) v = runEvents op (A ++ B) (exec op v e) := by
  induction A generalizing v with
  | nil => rfl
  | cons a A ih =>
    rw [proj_cons] at hs hd
    have hs1 : a.instr e.src = none := by
      cases he : a.instr e.src with
      | none => rfl
      | some i => simp [he] at hs
    have hd1 : a.instr e.dst = none := by
      cases he : a.instr e.dst with
      | none => rfl
      | some i => simp [he] at hd
    have hs2 : proj e.src A = [] := by simpa [hs1] using hs
    have hd2 : proj e.dst A = [] := by simpa [hd1] using hd
    have key : ∀ r, a.instr r = none → a.src ≠ r ∧ a.dst ≠ r := by
      intro r h
      simp only [Event.instr] at h
      split at h
      · simp at h
      · split at h
        · simp at h
        · exact ⟨by assumption, by assumption⟩
    obtain ⟨k1, k2⟩ := key _ hs1
    obtain ⟨k3, k4⟩ := key _ hd1
    show runEvents op (A ++ e :: B) (exec op v a) = runEvents op (A ++ B) (exec op (exec op v e) a)
    rw [ih _ hs2 hd2, exec_comm v a e k3 k2 k4]

/-- the first instruction of a rank comes from a first event touching the rank -/
theorem proj_head {r : Nat} {E : List Event} {i : Instr} {rest : List Instr}
    (h : proj r E = i :: rest) :
    ∃ A e B, E = A ++ e :: B ∧ proj r A = [] ∧ e.instr r = some i ∧ proj r B = rest := by
  induction E with
  | nil => simp at h
  | cons e E ih =>
    rw [proj_cons] at h
    cases he : e.instr r with
    | none =>
      rw [he] at h
      simp at h
      obtain ⟨A, e', B, h1, h2, h3, h4⟩ := ih h
      exact ⟨e :: A, e', B, by simp [h1], by rw [proj_cons, he]; simpa using h2, h3, h4⟩
    | some j =>
      rw [he] at h
      simp at h
      exact ⟨[], e, E, rfl, rfl, by rw [he, h.1], h.2⟩

/-- if the first instruction of `p` is a send to `r` and the first one of `r` a receive from `p`,
both come from the same event, and nothing before it touches either rank -/
theorem proj_match {r p : Nat} {k : Kind} {E : List Event} {rest rest' : List Instr}
    (h : proj r E = .recv p k :: rest) (h' : proj p E = .send r :: rest') (hne : r ≠ p) :
    ∃ A B, E = A ++ ⟨p, r, k⟩ :: B ∧ proj r A = [] ∧ proj p A = [] ∧ proj r B = rest ∧
      proj p B = rest' := by
  induction E with
  | nil => simp at h
  | cons e E ih =>
    rw [proj_cons] at h h'
    cases he : e.instr r with
    | some j =>
      rw [he] at h
      simp at h
      obtain ⟨rfl, h2⟩ := h
      simp only [Event.instr] at he
      split at he
      · simp at he
      · split at he
        · rename_i hs hd
          simp at he
          obtain ⟨rfl, rfl⟩ := he
          have he' : e.instr e.src = some (.send e.dst) := by simp [Event.instr]
          rw [he'] at h'
          simp at h'
          refine ⟨[], E, ?_, rfl, rfl, h2, h'.2⟩
          cases e; simp at hd; simp [hd]
        · simp at he
    | none =>
      rw [he] at h
      cases he' : e.instr p with
      | some j =>
        rw [he'] at h'
        simp at h'
        obtain ⟨rfl, h2'⟩ := h'
        simp only [Event.instr] at he'
        split at he'
        · simp at he'
          simp only [Event.instr, he'] at he
          split at he
          · simp at he
          · simp at he
        · split at he' <;> simp at he'
      | none =>
        rw [he'] at h'
        simp at h h'
        obtain ⟨A, B, h1, h2, h3, h4, h5⟩ := ih h h'
        exact ⟨e :: A, B, by simp [h1], by rw [proj_cons, he]; simpa using h2,
          by rw [proj_cons, he']; simpa using h3, h4, h5⟩

/-- well-formed events for a job of `N` ranks -/
def EventsOk (N : Nat) (E : List Event) : Prop :=
  ∀ e ∈ E, e.src ≠ e.dst ∧ e.src < N ∧ e.dst < N

/-- relation between a rank's state and the remaining events -/
def RankInv (E : List Event) (r : Nat) (s : RankSt V) : Prop :=
  match s.sent with
  | some true => s.started = true ∧ ∃ p, s.prog = .send p :: proj r E
  | some false => s.started = true ∧ s.prog = proj r E ∧ ∃ p rest, s.prog = .send p :: rest
  | none => s.prog = proj r E

/-- the invariant of every execution: `E` are the events not yet performed -/
structure NetInv (op : V → V → V) (N : Nat) (E0 : List Event) (v0 : Nat → V)
    (st : Nat → RankSt V) (E : List Event) : Prop where
  ok : EventsOk N E
  vals : runEvents op E (fun r => (st r).val) = runEvents op E0 v0
  rank : ∀ r, RankInv E r (st r)
  idle : ∀ r, (st r).started = false → (st r).prog = proj r E0 ∧ (st r).val = v0 r ∧
    (st r).sent = none

theorem upd_same {β : Type} (f : Nat → β) (i : Nat) (x : β) : upd f i x i = x := by simp [upd]
theorem upd_ne {β : Type} (f : Nat → β) {i j : Nat} (x : β) (h : j ≠ i) : upd f i x j = f j := by
  simp [upd, h]

theorem netInv_initial (N : Nat) (E0 : List Event) (v0 : Nat → V) (h : EventsOk N E0) :
    NetInv op N E0 v0 (initial (fun r => proj r E0) v0) E0 :=
  ⟨h, rfl, fun _ => rfl, fun _ _ => ⟨rfl, rfl, rfl⟩⟩

theorem netInv_step {N : Nat} {E0 : List Event} {v0 : Nat → V} {st st' : Nat → RankSt V}
    {E : List Event} (h : NetInv op N E0 v0 st E) (hstep : Step op N st st') :
    ∃ E', NetInv op N E0 v0 st' E' := by
  obtain ⟨hok, hv, hr, hidle⟩ := h
  cases hstep with
  | start r hrN hs =>
    refine ⟨E, hok, ?_, ?_, ?_⟩
    · rw [← hv]; congr 1; funext j
      by_cases hj : j = r
      · subst hj; simp [upd_same]
      · simp [upd_ne _ _ hj]
    · intro j
      by_cases hj : j = r
      · subst hj
        have := hr j
        simp only [upd_same, RankInv] at this ⊢
        rw [(hidle j hs).2.2] at this ⊢
        exact this
      · rw [upd_ne _ _ hj]; exact hr j
    · intro j hj'
      by_cases hj : j = r
      · subst hj; simp [upd_same] at hj'
      · rw [upd_ne _ _ hj] at hj' ⊢; exact hidle j hj'
  | issue r p rest hs hp hn =>
    refine ⟨E, hok, ?_, ?_, ?_⟩
    · rw [← hv]; congr 1; funext j
      by_cases hj : j = r
      · subst hj; simp [upd_same]
      · simp [upd_ne _ _ hj]
    · intro j
      by_cases hj : j = r
      · subst hj
        have := hr j
        simp only [upd_same, RankInv, hn] at this ⊢
        exact ⟨hs, this, p, rest, hp⟩
      · rw [upd_ne _ _ hj]; exact hr j
    · intro j hj'
      by_cases hj : j = r
      · subst hj; simp [upd_same, hs] at hj'
      · rw [upd_ne _ _ hj] at hj' ⊢; exact hidle j hj'
  | done r p rest hs hp hm =>
    refine ⟨E, hok, ?_, ?_, ?_⟩
    · rw [← hv]; congr 1; funext j
      by_cases hj : j = r
      · subst hj; simp [upd_same]
      · simp [upd_ne _ _ hj]
    · intro j
      by_cases hj : j = r
      · subst hj
        have := hr j
        simp only [upd_same, RankInv, hm] at this ⊢
        obtain ⟨_, q, hq⟩ := this
        rw [hp] at hq
        simp at hq
        exact hq.2
      · rw [upd_ne _ _ hj]; exact hr j
    · intro j hj'
      by_cases hj : j = r
      · subst hj; simp [upd_same, hs] at hj'
      · rw [upd_ne _ _ hj] at hj' ⊢; exact hidle j hj'
  | recv r p k rest rest' hs hp hp' hi =>
    have hne : r ≠ p := by
      rintro rfl; rw [hp] at hp'; simp at hp'
    have h1 := hr r
    have h2 := hr p
    have hrn : (st r).sent = none := by
      simp only [RankInv] at h1
      split at h1
      · obtain ⟨_, q, hq⟩ := h1; rw [hp] at hq; simp at hq
      · obtain ⟨_, _, q, z, hq⟩ := h1; rw [hp] at hq; simp at hq
      · assumption
    simp only [RankInv, hrn] at h1
    simp only [RankInv, hi] at h2
    have hpr : proj r E = .recv p k :: rest := by rw [← h1, hp]
    have hpp : proj p E = .send r :: rest' := by rw [← h2.2.1, hp']
    obtain ⟨A, B, rfl, hA, hA', hB, hB'⟩ := proj_match hpr hpp hne
    refine ⟨A ++ B, ?_, ?_, ?_, ?_⟩
    · intro e he
      refine hok e ?_
      rcases List.mem_append.mp he with he | he
      · simp [he]
      · simp [he]
    · rw [← hv, runEvents_front A B ⟨p, r, k⟩ _ hA' hA]
      congr 1
      funext j
      by_cases hj : j = r
      · subst hj; simp [exec, upd_same]
      · simp only [exec, upd_ne _ _ hj]
        by_cases hj2 : j = p
        · subst hj2; simp [upd_same]
        · simp [upd_ne _ _ hj2]
    · intro j
      by_cases hj : j = r
      · subst hj
        simp only [upd_same, RankInv, hrn]
        rw [proj_append, hA, hB]; rfl
      · rw [upd_ne _ _ hj]
        by_cases hj2 : j = p
        · subst hj2
          simp only [upd_same, RankInv]
          refine ⟨h2.1, r, ?_⟩
          rw [hp', proj_append, hA', hB']; rfl
        · rw [upd_ne _ _ hj2]
          have := hr j
          have hproj : proj j (A ++ ⟨p, r, k⟩ :: B) = proj j (A ++ B) := by
            rw [proj_append, proj_append, proj_cons]
            simp [Event.instr, Ne.symm hj, Ne.symm hj2]
          simp only [RankInv] at this ⊢
          rw [hproj] at this
          exact this
    · intro j hj'
      by_cases hj : j = r
      · subst hj; simp [upd_same, hs] at hj'
      · rw [upd_ne _ _ hj] at hj' ⊢
        by_cases hj2 : j = p
        · subst hj2; simp [upd_same, h2.1] at hj'
        · rw [upd_ne _ _ hj2] at hj' ⊢; exact hidle j hj'

theorem netInv_steps {N : Nat} {E0 : List Event} {v0 : Nat → V} {a b : Nat → RankSt V} {n : Nat}
    (hs : Steps op N n a b) (ha : ∃ E, NetInv op N E0 v0 a E) : ∃ E, NetInv op N E0 v0 b E := by
  induction hs with
  | refl => exact ha
  | tail _ hstep ih =>
    obtain ⟨E, hE⟩ := ih ha
    exact netInv_step hE hstep

/-- a rank that has returned holds its final value, whatever the others are doing -/
theorem returned_value {N : Nat} {E0 : List Event} {v0 : Nat → V} {st : Nat → RankSt V}
    {E : List Event} (h : NetInv op N E0 v0 st E) {r : Nat} (hr : Returned st r) :
    (st r).val = runEvents op E0 v0 r := by
  have h1 := h.rank r
  have hp : proj r E = [] := by
    simp only [RankInv] at h1
    split at h1
    · obtain ⟨_, q, hq⟩ := h1; rw [hr.2] at hq; simp at hq
    · obtain ⟨_, _, q, z, hq⟩ := h1; rw [hr.2] at hq; simp at hq
    · rw [← h1, hr.2]
  rw [← h.vals, runEvents_untouched _ _ _ hp]

/-- no deadlock: unless all ranks have returned, some rank can move -/
theorem progress {N : Nat} {E0 : List Event} {v0 : Nat → V} {st : Nat → RankSt V}
    {E : List Event} (h : NetInv op N E0 v0 st E)
    (hn : ¬ ∀ r, r < N → Returned st r) : ∃ st', Step op N st st' := by
  by_cases hstart : ∃ r, r < N ∧ (st r).started = false
  · obtain ⟨r, hrN, hr⟩ := hstart
    exact ⟨_, Step.start r hrN hr⟩
  · have hst : ∀ r, r < N → (st r).started = true := by
      intro r hr
      cases hs : (st r).started with
      | true => rfl
      | false => exact absurd ⟨r, hr, hs⟩ hstart
    -- a pending completed send can always be finished
    by_cases hpend : ∃ r, (st r).sent = some true
    · obtain ⟨r, hr⟩ := hpend
      have h1 := h.rank r
      simp only [RankInv, hr] at h1
      obtain ⟨hs, p, hp⟩ := h1
      exact ⟨_, Step.done r p _ hs hp hr⟩
    · have hcase : ∀ r, (st r).prog = proj r E := by
        intro r
        have h1 := h.rank r
        simp only [RankInv] at h1
        split at h1
        · rename_i hs; exact absurd ⟨r, hs⟩ hpend
        · exact h1.2.1
        · exact h1
      cases E with
      | nil =>
        exfalso
        apply hn
        intro r hr
        exact ⟨hst r hr, by rw [hcase r]; rfl⟩
      | cons e E =>
        obtain ⟨hok, hsN, hdN⟩ := h.ok e (by simp)
        have hsrc : (st e.src).prog = .send e.dst :: proj e.src E := by
          rw [hcase, proj_cons]; simp [Event.instr]
        have hdst : (st e.dst).prog = .recv e.src e.kind :: proj e.dst E := by
          rw [hcase, proj_cons]; simp [Event.instr, hok]
        cases hsent : (st e.src).sent with
        | none => exact ⟨_, Step.issue e.src e.dst _ (hst _ hsN) hsrc hsent⟩
        | some b =>
          cases b with
          | true => exact absurd ⟨_, hsent⟩ hpend
          | false => exact ⟨_, Step.recv e.dst e.src e.kind _ _ (hst _ hdN) hdst hsrc hsent⟩

/-! ## every execution is finite -/

/-- remaining work of a rank -/
def work (s : RankSt V) : Nat :=
  (if s.started then 0 else 1) + 2 * s.prog.length + (if s.sent = none then 1 else 0)

/-- remaining work of the ranks below `N` -/
def totalWork (N : Nat) (st : Nat → RankSt V) : Nat :=
  ((List.range N).map (fun r => work (st r))).sum

theorem sum_range_upd (N : Nat) (f g : Nat → Nat) (r : Nat) (hr : r < N)
    (h : ∀ j, j ≠ r → g j = f j) :
    ((List.range N).map g).sum + f r = ((List.range N).map f).sum + g r := by
  induction N with
  | zero => omega
  | succ N ih =>
    simp only [List.range_succ, List.map_append, List.sum_append, List.map_cons, List.map_nil,
      List.sum_cons, List.sum_nil, Nat.add_zero]
    by_cases hN : r = N
    · subst hN
      have : (List.range r).map g = (List.range r).map f :=
        List.map_congr_left (fun j hj => h j (by have := List.mem_range.mp hj; omega))
      rw [this]; omega
    · have := ih (by omega)
      have := h N (by omega)
      omega

theorem proj_lt {N r : Nat} {E : List Event} {i : Instr} {rest : List Instr} (hok : EventsOk N E)
    (h : proj r E = i :: rest) : r < N := by
  obtain ⟨A, e, B, rfl, -, he, -⟩ := proj_head h
  have := hok e (by simp)
  simp only [Event.instr] at he
  split at he
  · omega
  · split at he
    · omega
    · simp at he

/-- the original programs only belong to ranks of the job -/
theorem prog_lt {N r : Nat} {E0 : List Event} {v0 : Nat → V} {st : Nat → RankSt V} {E : List Event}
    (h : NetInv op N E0 v0 st E) (hok0 : ∀ r, (st r).sent = some true → r < N)
    {i : Instr} {rest : List Instr} (hp : (st r).prog = i :: rest) : r < N := by
  have h1 := h.rank r
  simp only [RankInv] at h1
  split at h1
  · rename_i hs; exact hok0 r hs
  · exact proj_lt h.ok (by rw [← h1.2.1, hp])
  · exact proj_lt h.ok (by rw [← h1, hp])

/-- only ranks of the job ever start -/
theorem started_lt_step {N : Nat} {st st' : Nat → RankSt V}
    (h : ∀ r, (st r).started = true → r < N) (hs : Step op N st st') :
    ∀ r, (st' r).started = true → r < N := by
  intro j hj
  cases hs with
  | start r hrN _ =>
    by_cases hjr : j = r
    · omega
    · rw [upd_ne _ _ hjr] at hj; exact h j hj
  | issue r p rest hs _ _ =>
    by_cases hjr : j = r
    · subst hjr; exact h j hs
    · rw [upd_ne _ _ hjr] at hj; exact h j hj
  | done r p rest hs _ _ =>
    by_cases hjr : j = r
    · subst hjr; exact h j hs
    · rw [upd_ne _ _ hjr] at hj; exact h j hj
  | recv r p k rest rest' hs _ _ _ =>
    by_cases hjr : j = r
    · subst hjr; exact h j hs
    · rw [upd_ne _ _ hjr] at hj
      by_cases hjp : j = p
      · subst hjp; rw [upd_same] at hj; exact h j hj
      · rw [upd_ne _ _ hjp] at hj; exact h j hj

theorem totalWork_upd (N : Nat) (st : Nat → RankSt V) (r : Nat) (s : RankSt V) (hr : r < N) :
    totalWork N (upd st r s) + work (st r) = totalWork N st + work s := by
  have := sum_range_upd N (fun j => work (st j)) (fun j => work (upd st r s j)) r hr
    (fun j hj => by simp [upd_ne _ _ hj])
  simp only [upd_same] at this
  exact this

theorem totalWork_lt (N : Nat) (st : Nat → RankSt V) (r : Nat) (s : RankSt V) (hr : r < N)
    (h : work s + 1 ≤ work (st r)) : totalWork N (upd st r s) + 1 ≤ totalWork N st := by
  have := totalWork_upd N st r s hr
  omega

theorem work_step {N : Nat} {st st' : Nat → RankSt V}
    (hlt : ∀ r, (st r).started = true → r < N)
    (hlt' : ∀ r, (st r).sent = some false → r < N)
    (hs : Step op N st st') : totalWork N st' + 1 ≤ totalWork N st := by
  cases hs with
  | start r hrN hst =>
    exact totalWork_lt N st r _ hrN (by simp [work, hst]; omega)
  | issue r p rest hst hp hn =>
    exact totalWork_lt N st r _ (hlt r hst) (by simp [work, hn])
  | done r p rest hst hp hm =>
    exact totalWork_lt N st r _ (hlt r hst) (by simp [work, hm, hp]; omega)
  | recv r p k rest rest' hst hp hp' hi =>
    have hne : r ≠ p := by
      rintro rfl; rw [hp] at hp'; simp at hp'
    have h1 := totalWork_upd N st p { st p with sent := some true } (hlt' p hi)
    have h2 := totalWork_lt N (upd st p { st p with sent := some true }) r
      { st r with prog := rest, val := apply op k (st r).val (st p).val } (hlt r hst)
      (by rw [upd_ne _ _ hne]; simp [work, hp]; omega)
    have h3 : work { st p with sent := some true } = work (st p) := by simp [work, hi]
    rw [h3] at h1
    refine Nat.le_trans h2 ?_
    omega

theorem work_steps {N : Nat} {E0 : List Event} {v0 : Nat → V} {a b : Nat → RankSt V} {n : Nat}
    (hs : Steps op N n a b) (ha : ∃ E, NetInv op N E0 v0 a E)
    (hlt : ∀ r, (a r).started = true → r < N) :
    totalWork N b + n ≤ totalWork N a ∧ ∀ r, (b r).started = true → r < N := by
  induction hs with
  | refl => exact ⟨by omega, hlt⟩
  | tail hs' hstep ih =>
    obtain ⟨h1, h2⟩ := ih ha hlt
    obtain ⟨E, hE⟩ := netInv_steps hs' ha
    have := work_step h2 (fun r hr => h2 r (by
      have := hE.rank r
      simp only [RankInv, hr] at this
      exact this.1)) hstep
    exact ⟨by omega, started_lt_step h2 hstep⟩

end Verif.Pcu.Coll
