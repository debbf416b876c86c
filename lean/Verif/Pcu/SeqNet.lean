import Verif.Pcu.SeqModel
import Verif.Pcu.CollProps
/-!
# Many collectives: every execution is the sequential one

The method of CollNet: the programs of the ranks are the projections of one global list of events, and events of different ranks
commute.  An event here is entering a call, a message, or leaving a call.
-/
namespace Verif.Pcu.Seq
open Verif.Pcu.Coll (Kind upd upd_same upd_ne)

/-- an event of the whole job -/
inductive Ev where
  | enter (k r : Nat)
  | comm (k : Nat) (e : Coll.Event)
  | leave (k r : Nat)

/-- the rank whose state changes -/
def Ev.dst : Ev → Nat
  | .enter _ r => r
  | .comm _ e => e.dst
  | .leave _ r => r

/-- the rank whose state is read besides -/
def Ev.src : Ev → Nat
  | .enter _ r => r
  | .comm _ e => e.src
  | .leave _ r => r

/-- the instruction of rank `r` for an event -/
def Ev.instr (r : Nat) : Ev → Option Instr
  | .enter k q => if q = r then some (.enter k) else none
  | .comm k e => (e.instr r).map (tag k)
  | .leave k q => if q = r then some (.leave k) else none

/-- results so far, and the buffer -/
abbrev Cell (V : Type) := List V × V

section
variable {V : Type} (C : Nat → Call V)

/-- what an event does to the state of its rank -/
def Ev.act : Ev → Cell V → Cell V → Cell V
  | .enter k r, x, _ => (x.1, (C k).give r x.1)
  | .comm k e, x, y => (x.1, Coll.apply (C k).op e.kind x.2 y.2)
  | .leave _ _, x, _ => (x.1 ++ [x.2], x.2)

/-- perform one event -/
def exec (w : Nat → Cell V) (e : Ev) : Nat → Cell V := upd w e.dst (e.act C (w e.dst) (w e.src))

/-- perform events in order -/
def run (E : List Ev) (w : Nat → Cell V) : Nat → Cell V := E.foldl (exec C) w

end

/-- the instructions of rank `r` -/
def proj (r : Nat) (E : List Ev) : List Instr := E.filterMap (Ev.instr r)

variable {V : Type} {C : Nat → Call V}

theorem proj_append (r : Nat) (A B : List Ev) : proj r (A ++ B) = proj r A ++ proj r B := by
  simp [proj, List.filterMap_append]

@[simp] theorem proj_nil (r : Nat) : proj r [] = [] := rfl

theorem proj_cons (r : Nat) (e : Ev) (B : List Ev) : proj r (e :: B) = (e.instr r).toList ++ proj r B := by
  simp only [proj, List.filterMap_cons]
  cases e.instr r <;> simp

theorem run_append (A B : List Ev) (w : Nat → Cell V) : run C (A ++ B) w = run C B (run C A w) := by
  simp [run, List.foldl_append]

theorem run_cons (e : Ev) (B : List Ev) (w : Nat → Cell V) : run C (e :: B) w = run C B (exec C w e) := rfl

theorem instr_none {e : Ev} {r : Nat} (h : e.instr r = none) : e.src ≠ r ∧ e.dst ≠ r := by
  cases e with
  | enter k q =>
    simp only [Ev.instr] at h
    split at h
    · simp at h
    · exact ⟨by assumption, by assumption⟩
  | leave k q =>
    simp only [Ev.instr] at h
    split at h
    · simp at h
    · exact ⟨by assumption, by assumption⟩
  | comm k e =>
    simp only [Ev.instr, Option.map_eq_none_iff, Coll.Event.instr] at h
    split at h
    · simp at h
    · split at h
      · simp at h
      · exact ⟨by assumption, by assumption⟩

theorem instr_other {e : Ev} {r : Nat} (h1 : e.src ≠ r) (h2 : e.dst ≠ r) : e.instr r = none := by
  cases e with
  | enter k q => have h1' : q ≠ r := h1; simp only [Ev.instr]; rw [if_neg h1']
  | leave k q => have h1' : q ≠ r := h1; simp only [Ev.instr]; rw [if_neg h1']
  | comm k e =>
    have h1' : e.src ≠ r := h1
    have h2' : e.dst ≠ r := h2
    simp only [Ev.instr, Coll.Event.instr]; rw [if_neg h1', if_neg h2']; rfl

theorem instr_enter {e : Ev} {r k : Nat} (h : e.instr r = some (.enter k)) : e = .enter k r := by
  cases e with
  | enter k' q =>
    simp only [Ev.instr] at h
    split at h
    · rename_i hq; simp at h; rw [h, hq]
    · simp at h
  | leave k' q =>
    simp only [Ev.instr] at h
    split at h <;> simp at h
  | comm k' e =>
    simp only [Ev.instr, Option.map_eq_some_iff] at h
    obtain ⟨i, -, h⟩ := h
    cases i <;> simp [tag] at h

theorem instr_leave {e : Ev} {r k : Nat} (h : e.instr r = some (.leave k)) : e = .leave k r := by
  cases e with
  | leave k' q =>
    simp only [Ev.instr] at h
    split at h
    · rename_i hq; simp at h; rw [h, hq]
    · simp at h
  | enter k' q =>
    simp only [Ev.instr] at h
    split at h <;> simp at h
  | comm k' e =>
    simp only [Ev.instr, Option.map_eq_some_iff] at h
    obtain ⟨i, -, h⟩ := h
    cases i <;> simp [tag] at h

theorem instr_send {e : Ev} {r k p : Nat} (h : e.instr r = some (.send k p)) : ∃ kd, e = .comm k ⟨r, p, kd⟩ := by
  cases e with
  | leave k' q =>
    simp only [Ev.instr] at h
    split at h <;> simp at h
  | enter k' q =>
    simp only [Ev.instr] at h
    split at h <;> simp at h
  | comm k' e =>
    simp only [Ev.instr, Option.map_eq_some_iff] at h
    obtain ⟨i, h1, h⟩ := h
    simp only [Coll.Event.instr] at h1
    split at h1
    · rename_i hs
      simp at h1
      subst h1
      simp only [tag, Instr.send.injEq] at h
      obtain ⟨rfl, rfl⟩ := h
      exact ⟨e.kind, by rw [← hs]⟩
    · split at h1
      · simp at h1; subst h1; simp [tag] at h
      · simp at h1

theorem instr_recv {e : Ev} {r k p : Nat} {kd : Kind} (h : e.instr r = some (.recv k p kd)) : e = .comm k ⟨p, r, kd⟩ := by
  cases e with
  | leave k' q =>
    simp only [Ev.instr] at h
    split at h <;> simp at h
  | enter k' q =>
    simp only [Ev.instr] at h
    split at h <;> simp at h
  | comm k' e =>
    simp only [Ev.instr, Option.map_eq_some_iff] at h
    obtain ⟨i, h1, h⟩ := h
    simp only [Coll.Event.instr] at h1
    split at h1
    · simp at h1; subst h1; simp [tag] at h
    · split at h1
      · rename_i hd
        simp at h1
        subst h1
        simp only [tag, Instr.recv.injEq] at h
        obtain ⟨rfl, rfl, rfl⟩ := h
        rw [← hd]
      · simp at h1

/-- a rank without remaining instructions keeps its state -/
theorem run_untouched (E : List Ev) (w : Nat → Cell V) (r : Nat) (h : proj r E = []) : run C E w r = w r := by
  induction E generalizing w with
  | nil => rfl
  | cons e E ih =>
    rw [proj_cons] at h
    have h1 : e.instr r = none := by
      cases he : e.instr r with
      | none => rfl
      | some i => simp [he] at h
    have h2 : proj r E = [] := by simpa [h1] using h
    rw [run_cons, ih _ h2]
    exact upd_ne _ _ (Ne.symm (instr_none h1).2)

/-- results are only added to -/
theorem run_prefix (E : List Ev) (w : Nat → Cell V) (r : Nat) : (w r).1 <+: (run C E w r).1 := by
  induction E generalizing w with
  | nil => exact List.prefix_refl _
  | cons e E ih =>
    rw [run_cons]
    refine List.IsPrefix.trans ?_ (ih _)
    unfold exec
    by_cases h : r = e.dst
    · subst h
      rw [upd_same]
      cases e with
      | enter k q => exact List.prefix_refl _
      | comm k e => exact List.prefix_refl _
      | leave k q => exact List.prefix_append _ _
    · rw [upd_ne _ _ h]
      exact List.prefix_refl _

theorem exec_comm (w : Nat → Cell V) (a e : Ev) (h1 : a.src ≠ e.dst) (h2 : a.dst ≠ e.src) (h3 : a.dst ≠ e.dst) :
    exec C (exec C w a) e = exec C (exec C w e) a := by
  funext j
  simp only [exec, upd]
  by_cases hj1 : j = e.dst
  · subst hj1
    simp [Ne.symm h3, Ne.symm h2]
  · by_cases hj2 : j = a.dst
    · subst hj2
      simp [h1, h3]
    · simp [hj1, hj2]

theorem none_of_nil {a : Ev} {A : List Ev} {r : Nat} (h : proj r (a :: A) = []) : a.instr r = none ∧ proj r A = [] := by
  rw [proj_cons] at h
  cases he : a.instr r with
  | none => rw [he] at h; exact ⟨rfl, by simpa using h⟩
  | some i => simp [he] at h

/-- an event whose ranks do not occur before it can be performed first -/
theorem run_front (A B : List Ev) (e : Ev) (w : Nat → Cell V) (hs : proj e.src A = []) (hd : proj e.dst A = []) :
    run C (A ++ e :: B) w = run C (A ++ B) (exec C w e) := by
  induction A generalizing w with
  | nil => rfl
  | cons a A ih =>
    obtain ⟨hs1, hs2⟩ := none_of_nil hs
    obtain ⟨hd1, hd2⟩ := none_of_nil hd
    obtain ⟨k1, k2⟩ := instr_none hs1
    obtain ⟨k3, k4⟩ := instr_none hd1
    show run C (A ++ e :: B) (exec C w a) = run C (A ++ B) (exec C (exec C w e) a)
    rw [ih _ hs2 hd2, exec_comm w a e k3 k2 k4]

theorem proj_head {r : Nat} {E : List Ev} {i : Instr} {rest : List Instr} (h : proj r E = i :: rest) :
    ∃ A e B, E = A ++ e :: B ∧ proj r A = [] ∧ e.instr r = some i ∧ proj r B = rest := by
  induction E with
  | nil => simp at h
  | cons e E ih =>
    rw [proj_cons] at h
    cases he : e.instr r with
    | none =>
      rw [he] at h
      simp at h
      obtain ⟨A, e', B, h1, h2, h3, h4⟩ := ih h
      exact ⟨e :: A, e', B, by simp [h1], by rw [proj_cons, he]; simpa using h2, h3, h4⟩
    | some j =>
      rw [he] at h
      simp at h
      exact ⟨[], e, E, rfl, rfl, by rw [he, h.1], h.2⟩

/-- a send at the head of `p` and a receive at the head of `r` are one message of one call -/
theorem proj_match {r p k k' : Nat} {kd : Kind} {E : List Ev} {rest rest' : List Instr}
    (h : proj r E = .recv k p kd :: rest) (h' : proj p E = .send k' r :: rest') (hne : r ≠ p) :
    k' = k ∧ ∃ A B, E = A ++ .comm k ⟨p, r, kd⟩ :: B ∧ proj r A = [] ∧ proj p A = [] ∧ proj r B = rest ∧ proj p B = rest' := by
  induction E with
  | nil => simp at h
  | cons e E ih =>
    rw [proj_cons] at h h'
    cases he : e.instr r with
    | some j =>
      rw [he] at h
      simp at h
      obtain ⟨rfl, h2⟩ := h
      have := instr_recv he
      subst this
      have he' : (Ev.comm k ⟨p, r, kd⟩).instr p = some (.send k r) := by simp [Ev.instr, Coll.Event.instr, tag]
      rw [he'] at h'
      simp at h'
      exact ⟨h'.1.symm, [], E, rfl, rfl, rfl, h2, h'.2⟩
    | none =>
      rw [he] at h
      cases he' : e.instr p with
      | some j =>
        rw [he'] at h'
        simp at h'
        obtain ⟨rfl, h2'⟩ := h'
        obtain ⟨kd', rfl⟩ := instr_send he'
        simp only [Ev.instr, Coll.Event.instr] at he
        split at he <;> simp at he
      | none =>
        rw [he'] at h'
        simp at h h'
        obtain ⟨h0, A, B, h1, h2, h3, h4, h5⟩ := ih h h'
        exact ⟨h0, e :: A, B, by simp [h1], by rw [proj_cons, he]; simpa using h2,
          by rw [proj_cons, he']; simpa using h3, h4, h5⟩

/-- events of a job of `N` ranks -/
def EventsOk (N : Nat) (E : List Ev) : Prop :=
  ∀ e ∈ E, e.src < N ∧ e.dst < N ∧ ∀ k x, e = .comm k x → x.src ≠ x.dst

/-- relation between a rank's state and the remaining events -/
def RankInv (E : List Ev) (r : Nat) (s : RankSt V) : Prop :=
  match s.sent with
  | some true => ∃ k p, s.prog = .send k p :: proj r E
  | some false => s.prog = proj r E ∧ ∃ k p rest, s.prog = .send k p :: rest
  | none => s.prog = proj r E

/-- the invariant of every execution: `E` are the events not yet performed -/
structure NetInv (C : Nat → Call V) (N : Nat) (goal : Nat → Cell V) (st : Nat → RankSt V) (E : List Ev) : Prop where
  ok : EventsOk N E
  vals : run C E (fun r => ((st r).got, (st r).val)) = goal
  rank : ∀ r, RankInv E r (st r)

/-- no send is pending at a rank whose next instruction is not a send -/
theorem inv_none {E : List Ev} {r : Nat} {s : RankSt V} (h : RankInv E r s) {i : Instr} {rest : List Instr} (hp : s.prog = i :: rest)
    (hi : ∀ k p, i ≠ .send k p) : s.sent = none ∧ proj r E = i :: rest := by
  unfold RankInv at h
  split at h
  · obtain ⟨k, p, hq⟩ := h
    rw [hp] at hq
    simp at hq
    exact absurd hq.1 (hi k p)
  · obtain ⟨-, k, p, z, hq⟩ := h
    rw [hp] at hq
    simp at hq
    exact absurd hq.1 (hi k p)
  · exact ⟨by assumption, by rw [← h, hp]⟩

theorem okSub {N : Nat} {A B : List Ev} {e : Ev} (h : EventsOk N (A ++ e :: B)) : EventsOk N (A ++ B) := by
  intro x hx
  refine h x ?_
  rcases List.mem_append.mp hx with hx | hx
  · simp [hx]
  · simp [hx]

/-- performing a local event -/
theorem netInv_local {N : Nat} {goal : Nat → Cell V} {st : Nat → RankSt V} {A B : List Ev} {e : Ev} {r : Nat}
    (h : NetInv C N goal st (A ++ e :: B)) (hs : e.src = r) (hd : e.dst = r) (hA : proj r A = []) (s' : RankSt V)
    (hn : s'.sent = none) (hprog : s'.prog = proj r B)
    (hval : (s'.got, s'.val) = e.act C ((st r).got, (st r).val) ((st r).got, (st r).val)) :
    NetInv C N goal (upd st r s') (A ++ B) := by
  refine ⟨okSub h.ok, ?_, ?_⟩
  · rw [← h.vals, run_front A B e _ (by rw [hs]; exact hA) (by rw [hd]; exact hA)]
    congr 1
    funext j
    unfold exec
    rw [hs, hd]
    by_cases hj : j = r
    · subst hj; rw [upd_same, upd_same]; exact hval
    · rw [upd_ne _ _ hj, upd_ne _ _ hj]
  · intro j
    by_cases hj : j = r
    · subst hj
      rw [upd_same]
      unfold RankInv
      rw [hn, proj_append, hA]
      exact hprog
    · rw [upd_ne _ _ hj]
      have := h.rank j
      have he : proj j (A ++ e :: B) = proj j (A ++ B) := by
        rw [proj_append, proj_append, proj_cons, instr_other (by rw [hs]; exact Ne.symm hj) (by rw [hd]; exact Ne.symm hj)]
        rfl
      unfold RankInv at this ⊢
      rw [he] at this
      exact this

theorem netInv_step {N : Nat} {goal : Nat → Cell V} {st st' : Nat → RankSt V} {E : List Ev}
    (h : NetInv C N goal st E) (hstep : Step C N st st') : ∃ E', E'.Sublist E ∧ NetInv C N goal st' E' := by
  have same : ∀ (r : Nat) (s : RankSt V), s.got = (st r).got → s.val = (st r).val → RankInv E r s →
      NetInv C N goal (upd st r s) E := by
    intro r s h1 h2 h3
    refine ⟨h.ok, ?_, ?_⟩
    · rw [← h.vals]; congr 1; funext j
      by_cases hj : j = r
      · subst hj; rw [upd_same, h1, h2]
      · rw [upd_ne _ _ hj]
    · intro j
      by_cases hj : j = r
      · subst hj; rw [upd_same]; exact h3
      · rw [upd_ne _ _ hj]; exact h.rank j
  have sub : ∀ (A B : List Ev) (e : Ev), (A ++ B).Sublist (A ++ e :: B) := fun A B e =>
    List.Sublist.append (List.Sublist.refl A) (List.sublist_cons_self e B)
  cases hstep with
  | enter r k rest hr hp =>
    obtain ⟨hn, hpr⟩ := inv_none (h.rank r) hp (by simp)
    obtain ⟨A, e, B, rfl, hA, he, hB⟩ := proj_head hpr
    have := instr_enter he
    subst this
    exact ⟨A ++ B, sub A B _, netInv_local h rfl rfl hA _ hn hB.symm rfl⟩
  | leave r k rest hr hp =>
    obtain ⟨hn, hpr⟩ := inv_none (h.rank r) hp (by simp)
    obtain ⟨A, e, B, rfl, hA, he, hB⟩ := proj_head hpr
    have := instr_leave he
    subst this
    exact ⟨A ++ B, sub A B _, netInv_local h rfl rfl hA _ hn hB.symm rfl⟩
  | issue r k p rest hr hp hn =>
    refine ⟨E, List.Sublist.refl _, same r _ rfl rfl ?_⟩
    have := h.rank r
    simp only [RankInv, hn] at this ⊢
    exact ⟨this, k, p, rest, hp⟩
  | done r k p rest hr hp hm =>
    refine ⟨E, List.Sublist.refl _, same r _ rfl rfl ?_⟩
    have := h.rank r
    simp only [RankInv, hm] at this ⊢
    obtain ⟨k', q, hq⟩ := this
    rw [hp] at hq
    simp at hq
    exact hq.2
  | recv r k p kd k' rest rest' hr hp hp' hi =>
    have hne : r ≠ p := by
      rintro rfl; rw [hp] at hp'; simp at hp'
    obtain ⟨hrn, hpr⟩ := inv_none (h.rank r) hp (by simp)
    have h2 := h.rank p
    simp only [RankInv, hi] at h2
    have hpp : proj p E = .send k' r :: rest' := by rw [← h2.1, hp']
    obtain ⟨-, A, B, rfl, hA, hA', hB, hB'⟩ := proj_match hpr hpp hne
    refine ⟨A ++ B, sub A B _, okSub h.ok, ?_, ?_⟩
    · rw [← h.vals, run_front A B (.comm k ⟨p, r, kd⟩) _ hA' hA]
      congr 1
      funext j
      unfold exec
      show _ = upd _ r _ j
      by_cases hj : j = r
      · subst hj; rw [upd_same, upd_same]; rfl
      · rw [upd_ne _ _ hj, upd_ne _ _ hj]
        by_cases hj2 : j = p
        · subst hj2; rw [upd_same]
        · rw [upd_ne _ _ hj2]
    · intro j
      by_cases hj : j = r
      · subst hj
        rw [upd_same]
        simp only [RankInv, hrn]
        rw [proj_append, hA, hB]; rfl
      · rw [upd_ne _ _ hj]
        by_cases hj2 : j = p
        · subst hj2
          rw [upd_same]
          simp only [RankInv]
          refine ⟨k', r, ?_⟩
          rw [hp', proj_append, hA', hB']; rfl
        · rw [upd_ne _ _ hj2]
          have := h.rank j
          have he : proj j (A ++ .comm k ⟨p, r, kd⟩ :: B) = proj j (A ++ B) := by
            rw [proj_append, proj_append, proj_cons,
              instr_other (e := .comm k ⟨p, r, kd⟩) (Ne.symm hj2) (Ne.symm hj)]
            rfl
          unfold RankInv at this ⊢
          rw [he] at this
          exact this

theorem netInv_steps {N n : Nat} {goal : Nat → Cell V} {a b : Nat → RankSt V} (hs : Steps C N n a b)
    {E0 : List Ev} (ha : NetInv C N goal a E0) : ∃ E, E.Sublist E0 ∧ NetInv C N goal b E := by
  induction hs with
  | refl => exact ⟨E0, List.Sublist.refl _, ha⟩
  | tail _ hstep ih =>
    obtain ⟨E, hs, hE⟩ := ih ha
    obtain ⟨E', hs', hE'⟩ := netInv_step hE hstep
    exact ⟨E', hs'.trans hs, hE'⟩

/-- nobody is stuck -/
theorem progress {N : Nat} {goal : Nat → Cell V} {st : Nat → RankSt V} {E : List Ev} (h : NetInv C N goal st E)
    (hlt : ∀ r, (st r).sent = some true → r < N)
    (hn : ¬ ∀ r, r < N → (st r).prog = []) : ∃ st', Step C N st st' := by
  by_cases hpend : ∃ r, (st r).sent = some true
  · obtain ⟨r, hr⟩ := hpend
    have h1 := h.rank r
    simp only [RankInv, hr] at h1
    obtain ⟨k, p, hp⟩ := h1
    exact ⟨_, Step.done r k p _ (hlt r hr) hp hr⟩
  · have hcase : ∀ r, (st r).prog = proj r E := by
      intro r
      have h1 := h.rank r
      unfold RankInv at h1
      split at h1
      · rename_i hs; exact absurd ⟨r, hs⟩ hpend
      · exact h1.1
      · exact h1
    cases E with
    | nil =>
      exfalso
      apply hn
      intro r hr
      rw [hcase r]; rfl
    | cons e E =>
      obtain ⟨hsN, hdN, hok⟩ := h.ok e (by simp)
      cases e with
      | enter k r =>
        exact ⟨_, Step.enter r k (proj r E) hdN (by rw [hcase, proj_cons]; simp [Ev.instr])⟩
      | leave k r =>
        exact ⟨_, Step.leave r k (proj r E) hdN (by rw [hcase, proj_cons]; simp [Ev.instr])⟩
      | comm k e =>
        have hne := hok k e rfl
        have hsrc : (st e.src).prog = .send k e.dst :: proj e.src E := by
          rw [hcase, proj_cons]; simp [Ev.instr, Coll.Event.instr, tag]
        have hdst : (st e.dst).prog = .recv k e.src e.kind :: proj e.dst E := by
          rw [hcase, proj_cons]; simp [Ev.instr, Coll.Event.instr, hne, tag]
        cases hsent : (st e.src).sent with
        | none => exact ⟨_, Step.issue e.src k e.dst _ hsN hsrc hsent⟩
        | some b =>
          cases b with
          | true => exact absurd ⟨_, hsent⟩ hpend
          | false => exact ⟨_, Step.recv e.dst k e.src e.kind k _ _ hdN hdst hsrc hsent⟩

/-! ## every execution is finite -/

/-- remaining work of a rank -/
def work (s : RankSt V) : Nat := 2 * s.prog.length + (if s.sent = none then 1 else 0)

/-- remaining work of all ranks -/
def totalWork (N : Nat) (st : Nat → RankSt V) : Nat := ((List.range N).map (fun r => work (st r))).sum

theorem totalWork_upd (N : Nat) (st : Nat → RankSt V) (r : Nat) (s : RankSt V) (hr : r < N) :
    totalWork N (upd st r s) + work (st r) = totalWork N st + work s := by
  have := Coll.sum_range_upd N (fun j => work (st j)) (fun j => work (upd st r s j)) r hr
    (fun j hj => by simp [upd_ne _ _ hj])
  simp only [upd_same] at this
  exact this

theorem totalWork_lt (N : Nat) (st : Nat → RankSt V) (r : Nat) (s : RankSt V) (hr : r < N)
    (h : work s + 1 ≤ work (st r)) : totalWork N (upd st r s) + 1 ≤ totalWork N st := by
  have := totalWork_upd N st r s hr
  omega

theorem proj_lt {N r : Nat} {E : List Ev} {i : Instr} {rest : List Instr} (hok : EventsOk N E) (h : proj r E = i :: rest) :
    r < N := by
  obtain ⟨A, e, B, rfl, -, he, -⟩ := proj_head h
  have := hok e (by simp)
  by_cases h1 : e.src = r
  · omega
  · by_cases h2 : e.dst = r
    · omega
    · rw [instr_other h1 h2] at he; simp at he

/-- a matched send belongs to a rank of the job -/
def SentOk (N : Nat) (st : Nat → RankSt V) : Prop := ∀ r, (st r).sent = some true → r < N

theorem sent_step {N : Nat} {goal : Nat → Cell V} {st st' : Nat → RankSt V} {E : List Ev} (h : NetInv C N goal st E)
    (h0 : SentOk N st) (hs : Step C N st st') : SentOk N st' := by
  have one : ∀ (r : Nat) (s : RankSt V), r < N → SentOk N (upd st r s) := by
    intro r s hr j hj
    by_cases hjr : j = r
    · omega
    · rw [upd_ne _ _ hjr] at hj; exact h0 j hj
  cases hs with
  | enter r k rest hr hp => exact one r _ hr
  | issue r k p rest hr hp hn => exact one r _ hr
  | done r k p rest hr hp hn => exact one r _ hr
  | leave r k rest hr hp => exact one r _ hr
  | recv r k p kd k' rest rest' hr hp hp' hi =>
    intro j hj
    by_cases hjr : j = r
    · omega
    · rw [upd_ne _ _ hjr] at hj
      by_cases hjp : j = p
      · subst hjp
        have h2 := h.rank j
        simp only [RankInv, hi] at h2
        exact proj_lt h.ok (by rw [← h2.1, hp'])
      · rw [upd_ne _ _ hjp] at hj; exact h0 j hj

theorem work_step {N : Nat} {goal : Nat → Cell V} {st st' : Nat → RankSt V} {E : List Ev} (h : NetInv C N goal st E)
    (hs : Step C N st st') : totalWork N st' + 1 ≤ totalWork N st := by
  cases hs with
  | enter r k rest hr hp =>
    exact totalWork_lt N st r _ hr (by simp only [work, hp, List.length_cons]; omega)
  | leave r k rest hr hp =>
    exact totalWork_lt N st r _ hr (by simp only [work, hp, List.length_cons]; omega)
  | issue r k p rest hr hp hn =>
    exact totalWork_lt N st r _ hr (by simp [work, hn])
  | done r k p rest hr hp hm =>
    exact totalWork_lt N st r _ hr (by simp [work, hm, hp]; omega)
  | recv r k p kd k' rest rest' hr hp hp' hi =>
    have hne : r ≠ p := by
      rintro rfl; rw [hp] at hp'; simp at hp'
    have h2 := h.rank p
    simp only [RankInv, hi] at h2
    have hpN : p < N := proj_lt h.ok (by rw [← h2.1, hp'])
    have h1 := totalWork_upd N st p { st p with sent := some true } hpN
    have h2 := totalWork_lt N (upd st p { st p with sent := some true }) r
      { st r with prog := rest, val := Coll.apply (C k).op kd (st r).val (st p).val } hr
      (by rw [upd_ne _ _ hne]; simp [work, hp]; omega)
    have h3 : work { st p with sent := some true } = work (st p) := by simp [work, hi]
    rw [h3] at h1
    refine Nat.le_trans h2 ?_
    omega

theorem work_steps {N n : Nat} {goal : Nat → Cell V} {a b : Nat → RankSt V} (hs : Steps C N n a b)
    {E0 : List Ev} (ha : NetInv C N goal a E0) (h0 : SentOk N a) : totalWork N b + n ≤ totalWork N a ∧ SentOk N b := by
  induction hs with
  | refl => exact ⟨by omega, h0⟩
  | tail hs' hstep ih =>
    obtain ⟨h1, h2⟩ := ih ha h0
    obtain ⟨E, -, hE⟩ := netInv_steps hs' ha
    have := work_step hE hstep
    exact ⟨by omega, sent_step hE h2 hstep⟩

end Verif.Pcu.Seq
