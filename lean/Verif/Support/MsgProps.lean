import Verif.Support.MsgSpec
/-
C72: messages are printed, and go where they should.
-/
namespace Verif.Support.Msg
open Verif

/-- The code's state and what a user sees. -/
structure Rel (s : St) (v : View) : Prop where
  objs : s.objs = [if v.shut then .closed else if v.toFile then .file else .screenOut, .screenErr]
  pOut : s.pOut = 0
  oldOut : s.oldOut = none ∨ s.oldOut = some 0
  pErr : s.pErr = if v.errToFile then 0 else 1
  lost : v.lost = true → s.oldErr = some 0 ∧ v.errToFile = true
  kept : v.lost = false → (s.oldErr = none ∧ v.errToFile = false) ∨ s.oldErr = some 1
  both : v.errToFile = true → v.toFile = true
  out : s.out = v.out
  err : s.err = v.err
  file : s.file = v.file
  verb : s.verb = v.verb
  flag : s.flag = if v.hit then 1 else 0

theorem rel_start : Rel start viewStart := by
  constructor <;> simp [start, viewStart]

/-- Printing on standard output. -/
theorem print_out {s : St} {v : View} (R : Rel s v) (pre : String) (m : Text) :
    (print s.pOut pre.toList m s = .ub ∧ v.say pre m = .ub) ∨
    ∃ s' v', print s.pOut pre.toList m s = .ok s' ∧ v.say pre m = .ok v' ∧ Rel s' v' ∧ v'.verb = v.verb ∧ v'.shut = v.shut := by
  unfold print View.say
  by_cases hl : pre.toList.length + 1 + m.len + 1 ≤ 1024
  · rw [if_pos hl]
    have h1 : ¬ 1022 < pre.toList.length + m.len := by omega
    simp only [h1, false_or]
    unfold write
    rw [R.pOut]
    have ho := R.objs
    cases hs : v.shut
    · right
      cases ht : v.toFile
      · have h0 : s.objs[0]? = some .screenOut := by rw [ho, hs, ht]; rfl
        rw [h0]
        simp only [Bool.false_eq_true, if_false]
        refine ⟨_, _, rfl, rfl, ?_, rfl, ?_⟩
        · have := R.objs
          rw [hs, ht] at this
          exact { objs := by simpa [hs, ht] using this, pOut := by first | rfl | exact R.pOut, oldOut := R.oldOut, pErr := R.pErr, lost := R.lost, kept := R.kept, both := by simpa [*] using R.both, out := by simp [R.out], err := R.err, file := R.file, verb := R.verb, flag := R.flag }
        · simp [hs]
      · have h0 : s.objs[0]? = some .file := by rw [ho, hs, ht]; rfl
        rw [h0]
        simp only [Bool.false_eq_true, if_false, if_true]
        refine ⟨_, _, rfl, rfl, ?_, rfl, ?_⟩
        · have := R.objs
          rw [hs, ht] at this
          exact { objs := by simpa [View.put, hs, ht] using this, pOut := by first | rfl | exact R.pOut, oldOut := R.oldOut, pErr := R.pErr, lost := R.lost, kept := R.kept, both := fun _ => ht, out := R.out, err := R.err, file := by simp [View.put, R.file], verb := R.verb, flag := R.flag }
        · simp [View.put, hs]
    · left
      have h0 : s.objs[0]? = some .closed := by rw [ho, hs]; rfl
      rw [h0]
      simp
  · left
    rw [if_neg hl, if_pos (.inl (by omega))]
    exact ⟨rfl, rfl⟩

/-- Printing an error. -/
theorem print_err {s : St} {v : View} (R : Rel s v) (m : Text) :
    (error m s = .ub ∧ v.complain m = .ub) ∨
    ∃ s' v', error m s = .ok s' ∧ v.complain m = .ok v' ∧ Rel s' v' := by
  unfold error print View.complain
  have hlen : "[ERROR] ENGPAR".toList.length = 14 := by decide
  rw [hlen]
  generalize "[ERROR] ENGPAR".toList = pre
  by_cases hl : 14 + 1 + m.len + 1 ≤ 1024
  · rw [if_pos hl]
    have h1 : ¬ 1022 < 14 + m.len := by omega
    simp only [h1, false_or]
    unfold write
    dsimp only
    rw [R.pErr]
    have ho := R.objs
    cases he : v.errToFile
    · right
      have h0 : s.objs[if false = true then 0 else 1]? = some .screenErr := by rw [ho]; rfl
      rw [h0]
      simp only [Bool.false_eq_true, if_false, false_and]
      refine ⟨_, _, rfl, rfl, ?_⟩
      exact { objs := ho, pOut := by first | rfl | exact R.pOut, oldOut := R.oldOut, pErr := by simpa [he] using R.pErr, lost := by simpa [he] using R.lost, kept := by simpa [he] using R.kept, both := by simp [he], out := R.out, err := by simp [R.err], file := R.file, verb := R.verb, flag := by simp }
    · have ht := R.both he
      rw [ht] at ho
      cases hs : v.shut
      · right
        rw [hs] at ho
        have h0 : s.objs[if true = true then 0 else 1]? = some .file := by rw [ho]; rfl
        rw [h0]
        simp only [Bool.false_eq_true, if_false, and_false, if_true]
        refine ⟨_, _, rfl, rfl, ?_⟩
        exact { objs := by simpa [View.put, ht, hs] using ho, pOut := by first | rfl | exact R.pOut, oldOut := R.oldOut, pErr := by simpa [View.put, he] using R.pErr, lost := by simpa [View.put, he] using R.lost, kept := by simpa [View.put, he] using R.kept, both := by simp [View.put, ht], out := R.out, err := R.err, file := by simp [View.put, R.file], verb := R.verb, flag := by simp }
      · left
        rw [hs] at ho
        have h0 : s.objs[if true = true then 0 else 1]? = some .closed := by rw [ho]; rfl
        rw [h0]
        simp
  · left
    rw [if_neg hl, if_pos (.inl (by omega))]
    exact ⟨rfl, rfl⟩

theorem freopen_ok {s : St} {d : Dest} (h : s.objs = [d, Dest.screenErr]) (hd : d ≠ .closed) {p : Nat} (hp : p = 0)
    {opens : Bool} : freopen p opens s =
      if opens then .ok { s with objs := [.file, .screenErr], file := some [] }
      else .ok { s with objs := [.closed, .screenErr] } := by
  unfold freopen
  rw [hp, h]
  cases d with
  | closed => exact absurd rfl hd
  | _ => simp

/-- One operation. -/
theorem same_step {rank : Nat} {s : St} {v : View} (R : Rel s v) (op : Op) :
    (step rank s op = .ub ∧ viewStep true rank v op = .ub) ∨
    ∃ r s' v', step rank s op = .ok (r, s') ∧ viewStep true rank v op = .ok (r, v') ∧ Rel s' v' := by
  cases op with
  | setVerbosity x =>
      right
      refine ⟨_, _, _, rfl, rfl, ?_⟩
      exact { objs := R.objs, pOut := by first | rfl | exact R.pOut, oldOut := R.oldOut, pErr := R.pErr, lost := R.lost, kept := R.kept, both := R.both, out := R.out, err := R.err, file := R.file, verb := rfl, flag := R.flag }
  | status m =>
      simp only [step, viewStep, status]
      rcases print_out R "ENGPAR" m with ⟨h1, h2⟩ | ⟨s', v', h1, h2, h3, -, -⟩
      · left; rw [h1, h2]; exact ⟨rfl, rfl⟩
      · right; rw [h1, h2]; exact ⟨_, _, _, rfl, rfl, h3⟩
  | statusV x m =>
      simp only [step, viewStep, statusV, check, R.verb]
      by_cases hx : x ≤ v.verb
      · rw [if_neg (by simp [hx]), if_pos hx]
        rcases print_out R "ENGPAR" m with ⟨h1, h2⟩ | ⟨s', v', h1, h2, h3, -, -⟩
        · left; rw [h1, h2]; exact ⟨rfl, rfl⟩
        · right; rw [h1, h2]; exact ⟨_, _, _, rfl, rfl, h3⟩
      · rw [if_pos (by simp [hx]), if_neg hx]
        exact .inr ⟨_, _, _, rfl, rfl, R⟩
  | warning m =>
      simp only [step, viewStep, warning]
      rcases print_out R "[WARNING] ENGPAR" m with ⟨h1, h2⟩ | ⟨s', v', h1, h2, h3, -, -⟩
      · left; rw [h1, h2]; exact ⟨rfl, rfl⟩
      · right; rw [h1, h2]; exact ⟨_, _, _, rfl, rfl, h3⟩
  | error m =>
      simp only [step, viewStep]
      rcases print_err R m with ⟨h1, h2⟩ | ⟨s', v', h1, h2, h3⟩
      · left; rw [h1, h2]; exact ⟨rfl, rfl⟩
      · right; rw [h1, h2]; exact ⟨_, _, _, rfl, rfl, h3⟩
  | startTest =>
      right
      refine ⟨_, _, _, rfl, rfl, ?_⟩
      exact { objs := R.objs, pOut := by first | rfl | exact R.pOut, oldOut := R.oldOut, pErr := R.pErr, lost := R.lost, kept := R.kept, both := R.both, out := R.out, err := R.err, file := R.file, verb := R.verb, flag := by simp }
  | hitError =>
      right
      refine ⟨_, _, _, rfl, ?_, R⟩
      simp only [viewStep, R.flag]
      cases v.hit <;> rfl
  | debugOpen o e opens =>
      simp only [step, viewStep, debugOpen, check, R.verb]
      by_cases hv : v.verb < 0
      · rw [if_pos (by simpa using hv), if_pos hv]
        exact .inr ⟨_, _, _, rfl, rfl, R⟩
      · rw [if_neg (by simpa using hv), if_neg hv]
        -- the announcement
        have ha : (announce rank s = .ub ∧ v.announce rank = .ub) ∨
            ∃ s' v', announce rank s = .ok s' ∧ v.announce rank = .ok v' ∧ Rel s' v' := by
          unfold announce View.announce
          by_cases hr : rank = 0
          · rw [if_pos hr, if_pos hr]
            unfold status
            rcases print_out R "ENGPAR" opening with h | ⟨s', v', h1, h2, h3, -, -⟩
            · exact .inl h
            · exact .inr ⟨s', v', h1, h2, h3⟩
          · rw [if_neg hr, if_neg hr]
            exact .inr ⟨s, v, rfl, rfl, R⟩
        rcases ha with ⟨h1, h2⟩ | ⟨s, v, h1, h2, R⟩
        · left; rw [h1, h2]; exact ⟨rfl, rfl⟩
        · rw [h1, h2]
          simp only [Outcome.bind_ok]
          cases hoe : o || e
          · simp only [Bool.false_eq_true, if_false, if_true, Outcome.bind_ok, Outcome.pure_eq]
            exact .inr ⟨_, _, _, rfl, rfl, R⟩
          · simp only [Bool.true_eq_false, if_false, if_true]
            have ho := R.objs
            cases hs : v.shut
            · rw [hs] at ho
              simp only [Bool.false_eq_true, if_false] at ho
              have hd : ∃ d, s.objs = [d, Dest.screenErr] ∧ d ≠ .closed := by
                cases ht : v.toFile
                · rw [ht] at ho; exact ⟨_, ho, by decide⟩
                · rw [ht] at ho; exact ⟨_, ho, by decide⟩
              obtain ⟨d, hd, hdc⟩ := hd
              rw [freopen_ok (d := d) (by exact hd) hdc R.pOut]
              cases opens
              · -- the file can not be opened
                have R' : Rel { s with oldOut := some s.pOut, objs := [.closed, .screenErr] } { v with shut := true } :=
                  { objs := by simp, pOut := R.pOut, oldOut := .inr (by simp [R.pOut]), pErr := R.pErr, lost := R.lost, kept := R.kept, both := R.both, out := R.out, err := R.err, file := R.file, verb := R.verb, flag := R.flag }
                simp only [Bool.false_eq_true, if_false, Outcome.bind_ok, if_true]
                rcases print_err R' failed with ⟨h1, h2⟩ | ⟨s', v', h1, h2, h3⟩
                · left; rw [h1, h2]; exact ⟨rfl, rfl⟩
                · right; rw [h1, h2]; exact ⟨_, _, _, rfl, rfl, h3⟩
              · right
                simp only [if_true, Outcome.bind_ok, Bool.true_eq_false, if_false, Bool.false_eq_true]
                cases e
                · simp only [Bool.false_eq_true, if_false, Outcome.bind_ok, Outcome.pure_eq]
                  refine ⟨_, _, _, rfl, rfl, ?_⟩
                  exact { objs := by simp [hs], pOut := R.pOut, oldOut := .inr (by simp [R.pOut]), pErr := by simpa using R.pErr, lost := by simpa using R.lost, kept := by simpa using R.kept, both := by simp, out := R.out, err := R.err, file := rfl, verb := R.verb, flag := R.flag }
                · simp only [if_true, Outcome.bind_ok, Outcome.pure_eq]
                  refine ⟨_, _, _, rfl, rfl, ?_⟩
                  refine { objs := by simp [hs], pOut := R.pOut, oldOut := .inr (by simp [R.pOut]), pErr := by simp [R.pOut], lost := ?_, kept := ?_, both := by simp, out := R.out, err := R.err, file := rfl, verb := R.verb, flag := R.flag }
                  · intro h
                    simp only [Bool.true_and, Bool.or_eq_true] at h
                    have he : v.errToFile = true := by
                      rcases h with h | h
                      · exact (R.lost h).2
                      · exact h
                    simp [R.pErr, he]
                  · intro h
                    simp only [Bool.true_and, Bool.or_eq_false_iff] at h
                    right
                    simp [R.pErr, h.2]
            · left
              rw [hs] at ho
              simp [freopen, ho, R.pOut]
  | debugClose =>
      right
      refine ⟨none, _, _, rfl, rfl, ?_⟩
      unfold debugClose
      have h1 : restoreOut s = s := by
        unfold restoreOut
        have := R.pOut
        rcases R.oldOut with h | h <;> rw [h]
        cases s; simp_all
      rw [h1]
      unfold restoreErr
      cases hl : v.lost
      · rcases R.kept hl with ⟨h, he⟩ | h
        · rw [h]
          dsimp only
          exact { objs := R.objs, pOut := by first | rfl | exact R.pOut, oldOut := R.oldOut, pErr := by simpa [he] using R.pErr, lost := by simp [hl], kept := fun _ => .inl ⟨h, rfl⟩, both := by simp, out := R.out, err := R.err, file := R.file, verb := R.verb, flag := R.flag }
        · rw [h]
          dsimp only
          exact { objs := R.objs, pOut := by first | rfl | exact R.pOut, oldOut := R.oldOut, pErr := by simp, lost := by simp [hl], kept := fun _ => .inr rfl, both := by simp, out := R.out, err := R.err, file := R.file, verb := R.verb, flag := R.flag }
      · obtain ⟨h, he⟩ := R.lost hl
        rw [h]
        dsimp only
        exact { objs := R.objs, pOut := by first | rfl | exact R.pOut, oldOut := R.oldOut, pErr := by simp, lost := fun _ => ⟨rfl, rfl⟩, kept := by simp [hl], both := fun _ => R.both he, out := R.out, err := R.err, file := R.file, verb := R.verb, flag := R.flag }

theorem same_run {rank : Nat} : ∀ (ops : List Op) {s : St} {v : View}, Rel s v →
    shown (run rank s ops) = seen (viewRun true rank v ops)
  | [], s, v, R => by simp [run, viewRun, shown, seen, R.out, R.err, R.file]
  | op :: ops, s, v, R => by
      simp only [run, viewRun]
      rcases same_step (rank := rank) R op with ⟨h1, h2⟩ | ⟨r, s', v', h1, h2, h3⟩
      · rw [h1, h2]; rfl
      · rw [h1, h2]
        simp only [Outcome.bind_ok]
        have ih := same_run (rank := rank) ops h3
        cases e1 : run rank s' ops with
        | ub => rw [e1] at ih; cases e2 : viewRun true rank v' ops <;> rw [e2] at ih <;> simp_all [shown, seen]
        | fail => rw [e1] at ih; cases e2 : viewRun true rank v' ops <;> rw [e2] at ih <;> simp_all [shown, seen]
        | ok x =>
          rw [e1] at ih
          cases e2 : viewRun true rank v' ops with
          | ub => rw [e2] at ih; simp [shown, seen] at ih
          | fail => rw [e2] at ih; simp [shown, seen] at ih
          | ok y =>
            rw [e2] at ih
            simp only [shown, seen, Outcome.ok.injEq, Prod.mk.injEq] at ih
            simp [shown, seen, ih]

/-- **C72, exactly.**  For every history the answers, standard output, standard error and the debug file are as the
specification with `real` says. -/
theorem c72_exact (rank : Nat) (ops : List Op) : shown (run rank start ops) = seen (viewRun true rank viewStart ops) :=
  same_run ops rel_start

/-- The two specifications agree on what they show. -/
structure Near (stale : Bool) (r v : View) : Prop where
  out : r.out = v.out
  err : r.err = v.err
  file : r.file = v.file
  toFile : r.toFile = (v.toFile || stale)
  only : stale = true → v.toFile = false
  errToFile : r.errToFile = v.errToFile
  verb : r.verb = v.verb
  hit : r.hit = v.hit
  lost : r.lost = false
  lost' : v.lost = false
  shut : r.shut = false
  shut' : v.shut = false

theorem near_say {stale : Bool} {r v : View} (N : Near stale r v) (hs : stale = false) (pre : String) (m : Text) :
    (r.say pre m = .ub ∧ v.say pre m = .ub) ∨
    ∃ r' v', r.say pre m = .ok r' ∧ v.say pre m = .ok v' ∧ Near false r' v' ∧ v'.toFile = v.toFile ∧ v'.errToFile = v.errToFile := by
  obtain ⟨h1, h2, h3, h4, h5, h6, h7, h8, h9, h10, h11, h12⟩ := N
  subst hs
  unfold View.say
  rw [h11, h12, h4, Bool.or_false]
  by_cases hl : 1022 < pre.toList.length + m.len
  · left; simp [hl]
  · right
    simp only [hl, Bool.false_eq_true, or_self, if_false]
    cases ht : v.toFile
    · simp only [Bool.false_eq_true, if_false]
      refine ⟨_, _, rfl, rfl, ?_, rfl, rfl⟩
      constructor <;> simp_all
    · simp only [if_true]
      refine ⟨_, _, rfl, rfl, ?_, ?_, rfl⟩
      · constructor <;> simp_all [View.put]
      · simp [View.put, ht]

theorem near_complain {stale : Bool} {r v : View} (N : Near stale r v) (m : Text) :
    (r.complain m = .ub ∧ v.complain m = .ub) ∨
    ∃ r' v', r.complain m = .ok r' ∧ v.complain m = .ok v' ∧ Near stale r' v' ∧ v'.toFile = v.toFile := by
  obtain ⟨h1, h2, h3, h4, h5, h6, h7, h8, h9, h10, h11, h12⟩ := N
  unfold View.complain
  rw [h11, h12, h6]
  by_cases hl : 1022 < 14 + m.len
  · left; simp [hl]
  · right
    simp only [hl, Bool.false_eq_true, and_false, or_self, if_false]
    cases ht : v.errToFile
    · simp only [Bool.false_eq_true, if_false]
      refine ⟨_, _, rfl, rfl, ?_, rfl⟩
      constructor <;> simp_all
    · simp only [if_true]
      refine ⟨_, _, rfl, rfl, ?_, ?_⟩
      · constructor <;> simp_all [View.put]
      · simp [View.put]

theorem near_step {rank : Nat} {stale : Bool} {r v : View} (N : Near stale r v) (op : Op)
    (hp : stale = true → prints rank v.verb op = false)
    (hd : ∀ o e opens, op = .debugOpen o e opens → 0 ≤ v.verb → opens = true ∧ (e = true → v.errToFile = false)) :
    (viewStep true rank r op = .ub ∧ viewStep false rank v op = .ub) ∨
    ∃ a r' v', viewStep true rank r op = .ok (a, r') ∧ viewStep false rank v op = .ok (a, v') ∧
      Near ((stale || v.toFile) && !v'.toFile) r' v' := by
  have hkeep : ((stale || v.toFile) && !v.toFile) = stale := by
    cases hs : stale
    · simp
    · simp [N.only hs]
  have say : ∀ (pre : String) (m : Text), prints rank v.verb op = true →
      ((do let x ← r.say pre m; return ((none : Option Bool), x)) = .ub ∧ (do let x ← v.say pre m; return ((none : Option Bool), x)) = .ub) ∨
      ∃ (a : Option Bool) (r' v' : View), (do let x ← r.say pre m; return (none, x)) = Outcome.ok (a, r') ∧
        (do let x ← v.say pre m; return (none, x)) = Outcome.ok (a, v') ∧ Near ((stale || v.toFile) && !v'.toFile) r' v' := by
    intro pre m hpr
    have hs : stale = false := by
      cases hs : stale
      · rfl
      · rw [hp hs] at hpr; exact absurd hpr (by simp)
    rcases near_say N hs pre m with ⟨h1, h2⟩ | ⟨r', v', h1, h2, h3, h4, -⟩
    · left; rw [h1, h2]; exact ⟨rfl, rfl⟩
    · right; rw [h1, h2]
      refine ⟨_, _, _, rfl, rfl, ?_⟩
      rw [h4, hkeep, hs]; exact h3
  cases op with
  | setVerbosity x =>
      right
      refine ⟨_, _, _, rfl, rfl, ?_⟩
      dsimp only
      rw [hkeep]
      obtain ⟨h1, h2, h3, h4, h5, h6, h7, h8, h9, h10, h11, h12⟩ := N
      constructor <;> simp_all
  | status m => exact say "ENGPAR" m rfl
  | statusV x m =>
      simp only [viewStep, N.verb]
      by_cases hx : x ≤ v.verb
      · rw [if_pos hx, if_pos hx]
        exact say "ENGPAR" m (by simp [prints, hx])
      · rw [if_neg hx, if_neg hx]
        right
        refine ⟨_, _, _, rfl, rfl, ?_⟩
        rw [hkeep]; exact N
  | warning m => exact say "[WARNING] ENGPAR" m rfl
  | error m =>
      simp only [viewStep]
      rcases near_complain N m with ⟨h1, h2⟩ | ⟨r', v', h1, h2, h3, h4⟩
      · left; rw [h1, h2]; exact ⟨rfl, rfl⟩
      · right; rw [h1, h2]
        refine ⟨_, _, _, rfl, rfl, ?_⟩
        rw [h4, hkeep]; exact h3
  | startTest =>
      right
      refine ⟨_, _, _, rfl, rfl, ?_⟩
      dsimp only
      rw [hkeep]
      obtain ⟨h1, h2, h3, h4, h5, h6, h7, h8, h9, h10, h11, h12⟩ := N
      constructor <;> simp_all
  | hitError =>
      right
      refine ⟨_, r, v, rfl, ?_, ?_⟩
      · simp only [viewStep, N.hit]
      · rw [hkeep]; exact N
  | debugOpen o e opens =>
      simp only [viewStep, N.verb]
      by_cases hv : v.verb < 0
      · rw [if_pos hv, if_pos hv]
        right
        refine ⟨_, _, _, rfl, rfl, ?_⟩
        rw [hkeep]; exact N
      · rw [if_neg hv, if_neg hv]
        obtain ⟨ho, he⟩ := hd o e opens rfl (by omega)
        have ha : (r.announce rank = .ub ∧ v.announce rank = .ub) ∨
            ∃ r' v', r.announce rank = .ok r' ∧ v.announce rank = .ok v' ∧ Near stale r' v' ∧ v'.toFile = v.toFile ∧
              v'.errToFile = v.errToFile := by
          unfold View.announce
          by_cases hr : rank = 0
          · rw [if_pos hr, if_pos hr]
            have hs : stale = false := by
              cases hs : stale
              · rfl
              · have := hp hs
                simp [prints, hr, hv] at this
            subst hs
            exact near_say N rfl "ENGPAR" opening
          · rw [if_neg hr, if_neg hr]
            exact .inr ⟨r, v, rfl, rfl, N, rfl, rfl⟩
        rcases ha with ⟨h1, h2⟩ | ⟨r', v', h1, h2, N', h4, h5⟩
        · left; rw [h1, h2]; exact ⟨rfl, rfl⟩
        · right
          rw [h1, h2]
          simp only [Outcome.bind_ok]
          cases hoe : o || e
          · simp only [if_true, Outcome.pure_eq]
            refine ⟨_, _, _, rfl, rfl, ?_⟩
            rw [h4, hkeep]; exact N'
          · simp only [Bool.true_eq_false, if_false, N'.shut, N'.shut', Bool.false_eq_true, ho, if_true, Outcome.pure_eq]
            refine ⟨_, _, _, rfl, rfl, ?_⟩
            simp only [Bool.not_true, Bool.and_false]
            rw [← h5] at he
            obtain ⟨g1, g2, g3, g4, g5, g6, g7, g8, g9, g10, g11, g12⟩ := N'
            constructor <;> try simp_all
  | debugClose =>
      right
      simp only [viewStep, if_true, Bool.false_eq_true, if_false]
      refine ⟨_, _, _, rfl, rfl, ?_⟩
      obtain ⟨h1, h2, h3, h4, h5, h6, h7, h8, h9, h10, h11, h12⟩ := N
      constructor <;> simp_all [Bool.or_comm]

theorem near_run {rank : Nat} : ∀ (ops : List Op) {stale : Bool} {r v : View}, Near stale r v → clean rank stale v ops = true →
    seen (viewRun true rank r ops) = seen (viewRun false rank v ops)
  | [], stale, r, v, N, _ => by simp [viewRun, seen, N.out, N.err, N.file]
  | op :: ops, stale, r, v, N, h => by
      simp only [clean, Bool.and_eq_true, Bool.not_eq_true'] at h
      obtain ⟨⟨h0, h1⟩, hc⟩ := h
      have hp : stale = true → prints rank v.verb op = false := by
        intro e; rw [e] at h0; simpa using h0
      have hd : ∀ o e opens, op = .debugOpen o e opens → 0 ≤ v.verb → opens = true ∧ (e = true → v.errToFile = false) := by
        intro o e opens hop hv
        subst hop
        have h2 : ¬ v.verb < 0 := by omega
        simp only [opensWell, h2, decide_false, Bool.false_or, Bool.and_eq_true, Bool.not_eq_true', Bool.and_eq_false_iff] at h1
        refine ⟨h1.1, fun e => ?_⟩
        rcases h1.2 with h | h
        · simp [h] at e
        · exact h
      simp only [viewRun]
      rcases near_step N op hp hd with ⟨h1, h2⟩ | ⟨a, r', v', h1, h2, h3⟩
      · rw [h1, h2]; rfl
      · rw [h1, h2]
        simp only [Outcome.bind_ok]
        have ih := near_run (rank := rank) ops h3 (by rw [h2] at hc; exact hc)
        cases e1 : viewRun true rank r' ops with
        | ub => rw [e1] at ih; cases e2 : viewRun false rank v' ops <;> rw [e2] at ih <;> simp_all [seen]
        | fail => rw [e1] at ih; cases e2 : viewRun false rank v' ops <;> rw [e2] at ih <;> simp_all [seen]
        | ok x =>
          rw [e1] at ih
          cases e2 : viewRun false rank v' ops with
          | ub => rw [e2] at ih; simp [seen] at ih
          | fail => rw [e2] at ih; simp [seen] at ih
          | ok y =>
            rw [e2] at ih
            simp only [seen, Outcome.ok.injEq, Prod.mk.injEq] at ih
            simp [seen, ih]

/-- **C72.**  A message is printed when the verbosity asks for it, in the order of the calls, on its stream or, while that is
open, in the debug file of the process, which has what was printed since it was opened; after closing the debug file the
streams are as before; `EnGPar_Hit_Error` tells whether there was an error since the test began. For histories that print
nothing on standard output between closing a debug file and opening the next, and do not redirect errors twice, with debug
files that can be opened (without this it is false: `c72_close_keeps`, `c72_errors_lost`, `c72_failed_open`). -/
theorem c72_messages_partial (rank : Nat) (ops : List Op) (h : clean rank false viewStart ops = true) :
    shown (run rank start ops) = seen (viewRun false rank viewStart ops) := by
  rw [c72_exact]
  exact near_run ops (by constructor <;> simp [viewStart]) h

/-- a history that meets the hypothesis: verbosity, a debug file with errors, opened and closed, an error in a test -/
example : let m : Text := ⟨2, "hi".toList⟩
    let ops : List Op := [.setVerbosity 1, .statusV 1 m, .statusV 2 m, .debugOpen true true true, .status m, .error m, .debugClose,
      .startTest, .hitError, .error m, .hitError]
    clean 0 false viewStart ops = true ∧
    shown (run 0 start ops) = .ok ([false, true], ["ENGPAR hi".toList, "ENGPAR ".toList ++ opening.text],
      ["[ERROR] ENGPAR hi".toList], some ["ENGPAR hi".toList, "[ERROR] ENGPAR hi".toList]) := by
  exact ⟨by decide +kernel, rfl⟩

/-- **C72 is false of the code: closing does not restore.**  `freopen` returns the object it is given, so `old_stdout` and
`stdout` are the same: after `EnGPar_Debug_Close` messages still go to the debug file (here on rank 1), and what is printed
after the close is lost when the file is opened again. -/
theorem c72_close_keeps :
    let m : Text := ⟨2, "hi".toList⟩
    seen (viewRun false 1 viewStart [.debugOpen true false true, .debugClose, .status m]) =
      .ok ([], ["ENGPAR hi".toList], [], some []) ∧
    shown (run 1 start [.debugOpen true false true, .debugClose, .status m]) =
      .ok ([], [], [], some ["ENGPAR hi".toList]) ∧
    shown (run 1 start [.debugOpen true false true, .debugClose, .status m, .debugOpen true false true]) =
      .ok ([], [], [], some []) := by
  exact ⟨rfl, rfl, rfl⟩

/-- **C72 is false of the code: errors are lost.**  Redirecting errors twice overwrites `old_stderr`: after closing, errors
still go to the debug file. -/
theorem c72_errors_lost :
    let m : Text := ⟨2, "hi".toList⟩
    seen (viewRun false 1 viewStart [.debugOpen true true true, .debugOpen true true true, .debugClose, .error m]) =
      .ok ([], [], ["[ERROR] ENGPAR hi".toList], some []) ∧
    shown (run 1 start [.debugOpen true true true, .debugOpen true true true, .debugClose, .error m]) =
      .ok ([], [], [], some ["[ERROR] ENGPAR hi".toList]) := by
  exact ⟨rfl, rfl⟩

/-- **C72 is false of the code: a debug file that can not be opened** closes standard output; the next message uses a closed
stream. -/
theorem c72_failed_open :
    let m : Text := ⟨2, "hi".toList⟩
    seen (viewRun false 1 viewStart [.debugOpen true false false, .status m]) =
      .ok ([], ["ENGPAR hi".toList], ["[ERROR] ENGPAR Failed to open debug files\n".toList], none) ∧
    shown (run 1 start [.debugOpen true false false, .status m]) = .ub := by
  exact ⟨rfl, rfl⟩

/-- **C72, long formats.**  A format of 1017 bytes in a status message overruns the 1024 bytes of `EnGPar_Print`, one of 1016
does not. -/
theorem c72_long_format (rank : Nat) (t : List Char) :
    shown (run rank start [.status ⟨1017, t⟩]) = .ub ∧
    shown (run rank start [.status ⟨1016, t⟩]) = .ok ([], ["ENGPAR ".toList ++ t], [], none) := by
  rw [c72_exact, c72_exact]
  constructor <;> simp [viewRun, viewStep, viewStart, View.say, seen]

end Verif.Support.Msg
