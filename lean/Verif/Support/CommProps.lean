import Verif.Support.CommSpec
import Mathlib.Data.List.Nodup
import Mathlib.Data.List.Perm.Basic
/-!
# Property C71: the library, its start and end, and its communicators
-/
namespace Verif.Support
open Verif

/-- How the process and the application's view go together. -/
structure Rel (w : Comm) (s : St) (p : Spec) : Prop where
  len : s.apps.length = p.apps.length
  two : ∃ l, s.apps = 0 :: 1 :: l
  nodup : s.apps.Nodup
  lt : ∀ h ∈ s.apps, h < s.table.length
  app : ∀ (k h : Nat), s.apps[k]? = some h → s.table[h]? = p.apps[k]?
  world : p.apps[0]? = some (some w)
  inited : s.inited = p.cur.isSome
  handling : s.handling = p.took
  cur : ∀ (k : Nat) (c : Comm), p.cur = some (k, c) → s.apps[k]? = some s.orig ∧ s.rank = c.rank ∧ s.size = c.size ∧
    s.table[s.user]? = some (some c) ∧ s.table[s.coll]? = some (some c) ∧ s.user ≠ s.coll ∧
    s.user ∉ s.apps ∧ s.coll ∉ s.apps
  only : ∀ (h : Nat) (c : Comm), s.table[h]? = some (some c) → h ∈ s.apps ∨ (s.inited = true ∧ (h = s.user ∨ h = s.coll))

theorem rel_start (w : Comm) : Rel w (start w) (specStart w) where
  len := rfl
  two := ⟨[], rfl⟩
  nodup := by simp [start]
  lt := by simp [start]
  app := by
    intro k h hk
    rcases k with _ | _ | k <;> simp [start] at hk <;> subst hk <;> rfl
  world := rfl
  inited := rfl
  handling := rfl
  cur := by simp [specStart]
  only := by
    intro h c hc
    rcases h with _ | _ | h <;> simp [start] at hc ⊢

theorem look_ok {s : St} {h : Nat} {c : Comm} (e : s.table[h]? = some (some c)) : look h s = .ok c := by
  unfold look; rw [e]

/-- freeing the two duplicates -/
theorem finalize_ok {w : Comm} {s : St} {p : Spec} (R : Rel w s p) {k : Nat} {c : Comm} (hc : p.cur = some (k, c)) :
    pmpiFinalize s = .ok { s with table := (s.table.set s.user none).set s.coll none } := by
  obtain ⟨h1, -, -, h2, h3, h4, h5, h6⟩ := R.cur k c hc
  obtain ⟨l, hl⟩ := R.two
  have hu : ¬ s.user < 2 := by
    intro h
    have : s.user = 0 ∨ s.user = 1 := by omega
    rw [hl] at h5
    rcases this with e | e <;> rw [e] at h5 <;> simp at h5
  have hv : ¬ s.coll < 2 := by
    intro h
    have : s.coll = 0 ∨ s.coll = 1 := by omega
    rw [hl] at h6
    rcases this with e | e <;> rw [e] at h6 <;> simp at h6
  unfold pmpiFinalize mpiFree
  rw [look_ok h2, Outcome.bind_ok, if_neg hu, Outcome.pure_eq, Outcome.bind_ok]
  rw [look_ok (c := c) (by show (s.table.set s.user none)[s.coll]? = _; rw [List.getElem?_set_ne h4]; exact h3),
    Outcome.bind_ok, if_neg hv]
  rfl

/-- the duplicates made for a communicator that is there -/
theorem init_ok {s : St} {h : Nat} {c : Comm} (e : s.table[h]? = some (some c)) :
    pmpiInit h s = .ok { s with table := s.table ++ [some c] ++ [some c], orig := h, user := s.table.length, coll := s.table.length + 1, rank := c.rank, size := c.size } := by
  have hlt : h < s.table.length := (List.getElem?_eq_some_iff.mp e).1
  unfold pmpiInit dup
  dsimp only
  rw [look_ok (c := c) (by exact e), Outcome.bind_ok]
  simp only [Outcome.pure_eq, Outcome.bind_ok]
  rw [look_ok (c := c) (by show (s.table ++ [some c])[h]? = _; rw [List.getElem?_append_left hlt]; exact e), Outcome.bind_ok]
  simp only [Outcome.pure_eq, Outcome.bind_ok]
  rw [look_ok (c := c) (by
    show (s.table ++ [some c] ++ [some c])[h]? = _
    rw [List.getElem?_append_left (by simp; omega), List.getElem?_append_left hlt]; exact e), Outcome.bind_ok]
  simp

theorem init_ub {s : St} {h : Nat} (e : ∀ c, s.table[h]? ≠ some (some c)) : pmpiInit h s = .ub := by
  unfold pmpiInit dup look
  cases hc : s.table[h]? with
  | none => simp only [hc]; rfl
  | some o =>
    cases o with
    | none => simp only [hc]; rfl
    | some c => exact absurd hc (e c)

/-- the process with the library stopped -/
def stopped (s : St) : St := { s with table := (s.table.set s.user none).set s.coll none, inited := false }

theorem rel_stopped {w : Comm} {s : St} {p : Spec} (R : Rel w s p) {k : Nat} {c : Comm} (hc : p.cur = some (k, c)) :
    Rel w (stopped s) { p with cur := none } := by
  obtain ⟨h1, -, -, h2, h3, h4, h5, h6⟩ := R.cur k c hc
  refine ⟨R.len, R.two, R.nodup, ?_, ?_, R.world, rfl, R.handling, by simp, ?_⟩
  · intro h hh; simpa [stopped] using R.lt h hh
  · intro k h hk
    have hm : h ∈ s.apps := List.mem_of_getElem? hk
    show ((s.table.set s.user none).set s.coll none)[h]? = _
    rw [List.getElem?_set_ne (by intro e; exact h6 (e ▸ hm)), List.getElem?_set_ne (by intro e; exact h5 (e ▸ hm))]
    exact R.app k h hk
  · intro h c' hh
    have hh : ((s.table.set s.user none).set s.coll none)[h]? = some (some c') := hh
    rw [List.getElem?_set, List.getElem?_set] at hh
    split at hh
    · split at hh <;> simp at hh
    · split at hh
      · split at hh <;> simp at hh
      · rename_i n1 n2
        rcases R.only h c' hh with h' | ⟨-, h' | h'⟩
        · exact .inl h'
        · exact absurd h'.symm n2
        · exact absurd h'.symm n1

/-- the process with the library started on `h` -/
def started (h : Nat) (c : Comm) (s : St) : St :=
  { s with table := s.table ++ [some c] ++ [some c], orig := h, user := s.table.length, coll := s.table.length + 1, rank := c.rank, size := c.size, inited := true }

theorem rel_started {w : Comm} {s : St} {p : Spec} (R : Rel w s p) (hi : s.inited = false) {k h : Nat} {c : Comm}
    (hk : s.apps[k]? = some h) (hc : s.table[h]? = some (some c)) (m : Bool) :
    Rel w (started h c s) { p with cur := some (k, c), mine := m } := by
  refine ⟨R.len, R.two, R.nodup, ?_, ?_, R.world, rfl, R.handling, ?_, ?_⟩
  · intro h hh; have := R.lt h hh; simp [started]; omega
  · intro k h hk
    have := R.lt h (List.mem_of_getElem? hk)
    show (s.table ++ [some c] ++ [some c])[h]? = _
    rw [List.getElem?_append_left (by simp; omega), List.getElem?_append_left this]
    exact R.app k h hk
  · intro k' c' e
    have e := Option.some.inj e
    obtain ⟨rfl, rfl⟩ := Prod.mk.inj e
    refine ⟨hk, rfl, rfl, ?_, ?_, ?_, ?_, ?_⟩
    · show (s.table ++ [some c] ++ [some c])[s.table.length]? = _
      simp
    · show (s.table ++ [some c] ++ [some c])[s.table.length + 1]? = _
      rw [List.getElem?_append_right (by simp)]
      simp
    · show s.table.length ≠ s.table.length + 1
      omega
    · intro hm; have : s.table.length < s.table.length := R.lt _ hm; omega
    · intro hm; have : s.table.length + 1 < s.table.length := R.lt _ hm; omega
  · intro h' c' hh
    have hh : (s.table ++ [some c] ++ [some c])[h']? = some (some c') := hh
    by_cases h1 : h' < s.table.length
    · rw [List.getElem?_append_left (by simp; omega), List.getElem?_append_left h1] at hh
      rcases R.only h' c' hh with h2 | ⟨h2, -⟩
      · exact .inl h2
      · rw [hi] at h2; exact absurd h2 (by simp)
    · have h2 := (List.getElem?_eq_some_iff.mp hh).1
      simp at h2
      refine .inr ⟨rfl, ?_⟩
      show h' = s.table.length ∨ h' = s.table.length + 1
      omega

/-- Both outcomes are the same, with related states. -/
def Same (w : Comm) : Outcome (Ret × St) → Outcome (Ret × Spec) → Prop
  | .ok (r, s), .ok (r', p) => r = r' ∧ Rel w s p
  | .fail, .fail => True
  | .ub, .ub => True
  | _, _ => False

theorem same_step {w : Comm} {s : St} {p : Spec} (R : Rel w s p) (op : Op) :
    Same w (step s op) (specStep w actual p op) := by
  have hi := R.inited
  have hw : s.apps[0]? = some 0 := by obtain ⟨l, hl⟩ := R.two; rw [hl]; rfl
  have hw' : s.table[0]? = some (some w) := by rw [R.app 0 0 hw, R.world]
  have hstart : s.inited = false → pcuInit s = .ok (started 0 w s) := by
    intro h
    unfold pcuInit
    rw [h]
    simp only [Bool.false_eq_true, if_false]
    rw [init_ok hw', Outcome.bind_ok]
    rfl
  have hstop : ∀ k c, p.cur = some (k, c) → pcuFree s = .ok (stopped s) := by
    intro k c hc
    unfold pcuFree
    have : s.inited = true := by rw [hi, hc]; rfl
    rw [this]
    simp only [Bool.true_eq_false, if_false]
    rw [finalize_ok R hc, Outcome.bind_ok]
    rfl
  cases op with
  | engparInit =>
    cases hc : p.cur with
    | none =>
      have h : s.inited = false := by rw [hi, hc]; rfl
      simp only [step, initLib, specStep, hc]
      rw [if_pos h, hstart h, Outcome.bind_ok, Outcome.pure_eq, Outcome.bind_ok, Outcome.pure_eq]
      refine ⟨rfl, ?_⟩
      have := rel_started R h hw hw' true
      exact ⟨this.len, this.two, this.nodup, this.lt, this.app, this.world, this.inited, rfl, this.cur, this.only⟩
    | some x =>
      have h : s.inited = true := by rw [hi, hc]; rfl
      simp only [step, initLib, specStep, hc]
      rw [if_neg (by simp [h]), Outcome.bind_ok, Outcome.pure_eq]
      exact ⟨rfl, R⟩
  | engparFinalize =>
    simp only [step, finLib, specStep]
    rw [hi, R.handling]
    cases hc : p.cur with
    | none =>
      simp only [Option.isSome_none, Bool.false_eq_true, and_false, if_false, false_and, Outcome.bind_ok, Outcome.pure_eq]
      exact ⟨rfl, R⟩
    | some x =>
      obtain ⟨k, c⟩ := x
      by_cases ht : p.took = true
      · rw [if_pos ⟨ht, rfl⟩, if_pos ⟨rfl, ht⟩, hstop k c hc, Outcome.bind_ok, Outcome.pure_eq]
        exact ⟨rfl, rel_stopped R hc⟩
      · rw [if_neg (fun h => ht h.1), if_neg (fun h => ht h.2), Outcome.bind_ok, Outcome.pure_eq]
        exact ⟨rfl, R⟩
  | pcuInit =>
    simp only [step, specStep]
    cases hc : p.cur with
    | none =>
      have h : s.inited = false := by rw [hi, hc]; rfl
      rw [hstart h, Outcome.bind_ok, Outcome.pure_eq]
      simp only [Option.isSome_none, Bool.false_eq_true, if_false]
      exact ⟨rfl, rel_started R h hw hw' false⟩
    | some x =>
      have h : s.inited = true := by rw [hi, hc]; rfl
      simp only [pcuInit, h, if_true, Option.isSome_some]
      trivial
  | pcuFree =>
    simp only [step, specStep]
    cases hc : p.cur with
    | none =>
      have h : s.inited = false := by rw [hi, hc]; rfl
      simp only [pcuFree, h, if_true, Option.isSome_none, Bool.false_eq_true, if_false]
      trivial
    | some x =>
      rw [hstop x.1 x.2 hc, Outcome.bind_ok, Outcome.pure_eq]
      simp only [Option.isSome_some, if_true]
      exact ⟨rfl, rel_stopped R hc⟩
  | switch k =>
    simp only [step, specStep]
    by_cases hk : p.apps.length ≤ k
    · have : rd s.apps k = .ub := by
        unfold rd
        rw [List.getElem?_eq_none (by rw [R.len]; exact hk)]
        rfl
      rw [this, if_pos hk]
      trivial
    · have hk' : k < s.apps.length := by rw [R.len]; omega
      rw [rd_ok hk', Outcome.bind_ok, if_neg hk]
      cases hc : p.cur with
      | none =>
        have h : s.inited = false := by rw [hi, hc]; rfl
        simp only [switchComm, h, if_true]
        trivial
      | some x =>
        have h : s.inited = true := by rw [hi, hc]; rfl
        have ha : s.apps[k]? = some s.apps[k] := List.getElem?_eq_getElem hk'
        have R' := rel_stopped R hc
        have ht := R'.app k _ ha
        have ht2 : ((s.table.set s.user none).set s.coll none)[s.apps[k]]? = p.apps[k]? := ht
        have hsw : switchComm s.apps[k] s = (do let s ← pmpiInit s.apps[k] (stopped s); return { s with inited := true }) := by
          unfold switchComm
          rw [h]
          simp only [Bool.true_eq_false, if_false]
          rw [finalize_ok R hc, Outcome.bind_ok]
          cases hq : p.apps[k]? with
          | none => rw [init_ub (by intro c e; have := ht2.symm.trans e; rw [hq] at this; simp at this), init_ub (by intro c; rw [ht]; simp [hq])]; rfl
          | some o =>
            cases o with
            | none => rw [init_ub (by intro c e; have := ht2.symm.trans e; rw [hq] at this; simp at this), init_ub (by intro c; rw [ht]; simp [hq])]; rfl
            | some c =>
              rw [init_ok (c := c) (ht2.trans hq), init_ok (c := c) (by rw [ht]; simp [hq]), Outcome.bind_ok]
              simp only [stopped, Outcome.pure_eq, h]
        rw [hsw]
        simp only [Option.some_ne_none, reduceCtorEq, if_false]
        cases hq : p.apps[k]? with
        | none => rw [init_ub (by intro c; rw [ht]; simp [hq])]; trivial
        | some o =>
          cases o with
          | none => rw [init_ub (by intro c; rw [ht]; simp [hq])]; trivial
          | some c =>
            have htc : (stopped s).table[s.apps[k]]? = some (some c) := by rw [ht]; exact hq
            rw [init_ok htc]
            simp only [Outcome.bind_ok, Outcome.pure_eq]
            exact ⟨rfl, rel_started R' rfl ha htc p.mine⟩
  | self =>
    simp only [step, specStep]
    cases hc : p.cur with
    | none => rw [hi, hc]; simp only [Option.isSome_none, Bool.false_eq_true, if_false]; trivial
    | some x =>
      obtain ⟨k, c⟩ := x
      rw [hi, hc]; simp only [Option.isSome_some, if_true]
      exact ⟨by rw [(R.cur k c hc).2.1], R⟩
  | peers =>
    simp only [step, specStep]
    cases hc : p.cur with
    | none => rw [hi, hc]; simp only [Option.isSome_none, Bool.false_eq_true, if_false]; trivial
    | some x =>
      obtain ⟨k, c⟩ := x
      rw [hi, hc]; simp only [Option.isSome_some, if_true]
      exact ⟨by rw [(R.cur k c hc).2.2.1], R⟩
  | getComm =>
    simp only [step, specStep]
    cases hc : p.cur with
    | none => rw [hi, hc]; simp only [Option.isSome_none, Bool.false_eq_true, if_false]; trivial
    | some x =>
      obtain ⟨k, c⟩ := x
      rw [hi, hc]; simp only [Option.isSome_some, if_true]
      refine ⟨?_, R⟩
      have h1 := (R.cur k c hc).1
      obtain ⟨h2, h3⟩ := List.getElem?_eq_some_iff.mp h1
      rw [← h3, R.nodup.idxOf_getElem]
  | isInit =>
    simp only [step, specStep]
    exact ⟨by rw [hi], R⟩
  | newComm c =>
    simp only [step, specStep]
    refine ⟨by rw [R.len], ?_, ?_, ?_, ?_, ?_, ?_, hi, R.handling, ?_, ?_⟩
    · simp [R.len]
    · obtain ⟨l, hl⟩ := R.two; exact ⟨l ++ [s.table.length], by simp [hl]⟩
    · refine List.nodup_append.mpr ⟨R.nodup, by simp, ?_⟩
      intro a ha b hb e
      have := R.lt a ha
      simp at hb; omega
    · intro h hh
      simp at hh ⊢
      rcases hh with hh | rfl
      · have := R.lt h hh; omega
      · omega
    · intro k h hk
      by_cases hk1 : k < s.apps.length
      · rw [List.getElem?_append_left hk1] at hk
        rw [List.getElem?_append_left (R.lt h (List.mem_of_getElem? hk)), List.getElem?_append_left (by rw [← R.len]; exact hk1)]
        exact R.app k h hk
      · have := (List.getElem?_eq_some_iff.mp hk).1
        have hk2 : k = s.apps.length := by simp at this; omega
        subst hk2
        simp at hk
        subst hk
        rw [R.len]
        simp
    · have : 0 < p.apps.length := (List.getElem?_eq_some_iff.mp R.world).1
      show (p.apps ++ [some c])[0]? = _
      rw [List.getElem?_append_left this]; exact R.world
    · intro k c' hc
      obtain ⟨h1, h2, h3, h4, h5, h6, h7, h8⟩ := R.cur k c' hc
      have hk := (List.getElem?_eq_some_iff.mp h1).1
      have hu := (List.getElem?_eq_some_iff.mp h4).1
      have hv := (List.getElem?_eq_some_iff.mp h5).1
      refine ⟨?_, h2, h3, ?_, ?_, h6, ?_, ?_⟩
      · show (s.apps ++ _)[k]? = _
        rw [List.getElem?_append_left hk]; exact h1
      · show (s.table ++ _)[s.user]? = _
        rw [List.getElem?_append_left hu]; exact h4
      · show (s.table ++ _)[s.coll]? = _
        rw [List.getElem?_append_left hv]; exact h5
      · show s.user ∉ s.apps ++ _
        simp; exact ⟨h7, by omega⟩
      · show s.coll ∉ s.apps ++ _
        simp; exact ⟨h8, by omega⟩
    · intro h c' hh
      have hh : (s.table ++ [some c])[h]? = some (some c') := hh
      by_cases h1 : h < s.table.length
      · rw [List.getElem?_append_left h1] at hh
        rcases R.only h c' hh with h2 | h2
        · exact .inl (by simp [h2])
        · exact .inr h2
      · have := (List.getElem?_eq_some_iff.mp hh).1
        have h2 : h = s.table.length := by simp at this; omega
        exact .inl (by simp [h2])
  | freeComm k =>
    simp only [step, specStep]
    by_cases hk : k < s.apps.length
    · rw [rd_ok hk, Outcome.bind_ok]
      have ha : s.apps[k]? = some s.apps[k] := List.getElem?_eq_getElem hk
      have ht := R.app k _ ha
      cases hq : p.apps[k]? with
      | none => 
        have : look s.apps[k] s = .ub := by unfold look; rw [ht, hq]
        unfold mpiFree; rw [this]; trivial
      | some o =>
        cases o with
        | none =>
          have : look s.apps[k] s = .ub := by unfold look; rw [ht, hq]
          unfold mpiFree; rw [this]; trivial
        | some c =>
          unfold mpiFree
          rw [look_ok (ht.trans hq), Outcome.bind_ok]
          obtain ⟨l, hl⟩ := R.two
          have hmem : s.apps[k] ∈ s.apps := List.getElem_mem hk
          by_cases hk2 : k < 2
          · have : s.apps[k] < 2 := by
              have h3 : k = 0 ∨ k = 1 := by omega
              rcases h3 with rfl | rfl <;> simp [hl]
            rw [if_pos this]
            simp only [hk2, if_true]
            trivial
          · have : ¬ s.apps[k] < 2 := by
              intro h3
              have h4 : s.apps[k] = s.apps[0]'(by omega) ∨ s.apps[k] = s.apps[1]'(by omega) := by
                have e0 : s.apps[0]'(by omega) = 0 := by simp [hl]
                have e1 : s.apps[1]'(by omega) = 1 := by simp [hl]
                omega
              rcases h4 with h4 | h4
              · have := (R.nodup.getElem_inj_iff).mp h4; omega
              · have := (R.nodup.getElem_inj_iff).mp h4; omega
            rw [if_neg this]
            simp only [hk2, if_false, Outcome.bind_ok, Outcome.pure_eq]
            refine ⟨rfl, by simp [R.len], R.two, R.nodup, ?_, ?_, ?_, hi, R.handling, ?_, ?_⟩
            · intro h hh; simpa using R.lt h hh
            · intro j h hj
              show (s.table.set s.apps[k] none)[h]? = (p.apps.set k none)[j]?
              obtain ⟨hj1, hj2⟩ := List.getElem?_eq_some_iff.mp hj
              by_cases hjk : k = j
              · subst hjk
                rw [hj2] at ha
                rw [hj2, List.getElem?_set_self (R.lt h (List.mem_of_getElem? hj)), List.getElem?_set_self (by rw [← R.len]; exact hk)]
              · rw [List.getElem?_set_ne hjk, List.getElem?_set_ne]
                · exact R.app j h hj
                · intro e
                  rw [← hj2] at e
                  exact hjk ((R.nodup.getElem_inj_iff).mp e)
            · show (p.apps.set k none)[0]? = _
              rw [List.getElem?_set_ne (by omega)]; exact R.world
            · intro j c' hc
              obtain ⟨h1, h2, h3, h4, h5, h6, h7, h8⟩ := R.cur j c' hc
              refine ⟨h1, h2, h3, ?_, ?_, h6, h7, h8⟩
              · show (s.table.set s.apps[k] none)[s.user]? = _
                rw [List.getElem?_set_ne (by intro e; exact h7 (e ▸ hmem))]; exact h4
              · show (s.table.set s.apps[k] none)[s.coll]? = _
                rw [List.getElem?_set_ne (by intro e; exact h8 (e ▸ hmem))]; exact h5
            · intro h c' hh
              have hh : (s.table.set s.apps[k] none)[h]? = some (some c') := hh
              rw [List.getElem?_set] at hh
              split at hh
              · split at hh <;> simp at hh
              · exact R.only h c' hh
    · have : rd s.apps k = .ub := by
        unfold rd
        rw [List.getElem?_eq_none (by omega)]
        rfl
      rw [this, List.getElem?_eq_none (by rw [← R.len]; omega)]
      trivial

theorem same_run {w : Comm} : ∀ (ops : List Op) {s : St} {p : Spec}, Rel w s p →
    rets (run s ops) = rets (specRun w actual p ops) ∧
    ∀ rs s', run s ops = .ok (rs, s') → ∃ p', specRun w actual p ops = .ok (rs, p') ∧ Rel w s' p'
  | [], s, p, R => ⟨rfl, by
      intro rs s' e
      simp only [run, Outcome.ok.injEq, Prod.mk.injEq] at e
      obtain ⟨rfl, rfl⟩ := e
      exact ⟨p, rfl, R⟩⟩
  | op :: ops, s, p, R => by
    have h := same_step R op
    simp only [run, specRun]
    cases h1 : step s op with
    | ub =>
      rw [h1] at h
      cases h2 : specStep w actual p op with
      | ub => exact ⟨rfl, by intro rs s' e; simp [Outcome.bind_ub] at e⟩
      | fail => rw [h2] at h; exact h.elim
      | ok y => rw [h2] at h; exact h.elim
    | fail =>
      rw [h1] at h
      cases h2 : specStep w actual p op with
      | fail => exact ⟨rfl, by intro rs s' e; simp [Outcome.bind_fail] at e⟩
      | ub => rw [h2] at h; exact h.elim
      | ok y => rw [h2] at h; exact h.elim
    | ok x =>
      rw [h1] at h
      cases h2 : specStep w actual p op with
      | fail => rw [h2] at h; exact h.elim
      | ub => rw [h2] at h; exact h.elim
      | ok y =>
        rw [h2] at h
        obtain ⟨r, s1⟩ := x
        obtain ⟨r', p1⟩ := y
        obtain ⟨rfl, R1⟩ := h
        obtain ⟨i1, i2⟩ := same_run ops R1
        simp only [Outcome.bind_ok]
        refine ⟨?_, ?_⟩
        · cases e1 : run s1 ops <;> cases e2 : specRun w actual p1 ops <;> rw [e1, e2] at i1 <;> simp only [rets] at i1 ⊢ <;>
            first
              | rfl
              | exact congrArg (fun l => Outcome.ok (r :: l)) (Outcome.ok.inj i1)
              | exact absurd i1 (by simp)
        · intro rs s' e
          obtain ⟨⟨rs1, s2⟩, e1, e2⟩ := bind_ok_iff.mp e
          simp only [Outcome.pure_eq, Outcome.ok.injEq, Prod.mk.injEq] at e2
          obtain ⟨rfl, rfl⟩ := e2
          obtain ⟨p', e3, R2⟩ := i2 _ _ e1
          exact ⟨p', by rw [e3]; rfl, R2⟩

/-- `EnGPar_Finalize` as meant and as it is agree on clean histories. -/
theorem ideal_run {w : Comm} : ∀ (ops : List Op) {p : Spec}, (p.mine = true → p.took = true) → Clean w p ops →
    specRun w ideal p ops = specRun w actual p ops
  | [], _, _, _ => rfl
  | op :: ops, p, hm, hc => by
    obtain ⟨h1, h2⟩ := hc
    have hs : specStep w ideal p op = specStep w actual p op := by
      cases op <;> try rfl
      simp only [specStep]
      by_cases h3 : p.cur.isSome = true
      · have h4 : (ideal p = true) = (actual p = true) := by
          apply propext
          constructor
          · exact hm
          · intro ht
            show p.mine = true
            cases hb : p.mine with
            | true => rfl
            | false => have := h1 rfl h3 hb; exact absurd ht (by show ¬ p.took = true; simp [this])
        by_cases h5 : ideal p = true
        · rw [if_pos ⟨h3, h5⟩, if_pos ⟨h3, h4 ▸ h5⟩]
        · rw [if_neg (fun h => h5 h.2), if_neg (fun h => h5 (h4 ▸ h.2))]
      · rw [if_neg (fun h => h3 h.1), if_neg (fun h => h3 h.1)]
    simp only [specRun]
    rw [hs]
    cases h6 : specStep w actual p op with
    | ub => rfl
    | fail => rfl
    | ok x =>
      obtain ⟨r, p1⟩ := x
      have hm1 : p1.mine = true → p1.took = true := by
        cases op <;> simp only [specStep] at h6 <;> (repeat' split at h6) <;>
          simp only [Outcome.ok.injEq, Prod.mk.injEq, reduceCtorEq] at h6 <;>
          (obtain ⟨-, rfl⟩ := h6) <;> first | exact hm | (intro; rfl) | (intro h; simp at h)
      simp only [Outcome.bind_ok]
      rw [ideal_run ops hm1 (h2 r p1 (hs.trans h6))]

/-! ## the theorems -/

/-- **C71, what the application sees.**  For every history of starting, ending, switching, asking, and making and freeing
communicators: every call returns what the specification says - the rank and size of the communicator last given to the
library, as it was when it was given, whatever has become of it since - and fails or is undefined exactly where the
specification is.  `EnGPar_Finalize` is taken as it is (`actual`): it stops the library if EnGPar has ever started it. -/
theorem c71_exact (w : Comm) (ops : List Op) :
    rets (run (start w) ops) = rets (specRun w actual (specStart w) ops) := (same_run ops (rel_start w)).1

/-- **C71.**  The same with `EnGPar_Finalize` as meant - it stops the library if EnGPar started it, and leaves that of the
application alone - for histories in which the application does not end EnGPar while its own library runs after EnGPar has
had one (without this it is false: `c71_foreign_finalize`). -/
theorem c71_lifetime_partial (w : Comm) (ops : List Op) (h : Clean w (specStart w) ops) :
    rets (run (start w) ops) = rets (specRun w ideal (specStart w) ops) := by
  rw [c71_exact, ideal_run ops (by simp [specStart]) h]

/-- **C71, communicators of its own.**  After every history: while the library is started its messages go over two
different communicators that are alive, are none of the application's and have the group of the communicator last given
(even if the application has freed that); and the communicators alive are those of the application and these: stopping or
switching leaks none. -/
theorem c71_private (w : Comm) (ops : List Op) (rs : List Ret) (s : St) (h : run (start w) ops = .ok (rs, s)) :
    s.used.Nodup ∧ (s.inited = true → s.used.length = 2) ∧
    (∀ u ∈ s.used, u ∉ s.apps ∧ s.table[u]? = some (some ⟨s.rank, s.size⟩)) ∧
    s.live.Perm (s.apps.filter (fun u => (s.table[u]?.join).isSome) ++ s.used) := by
  obtain ⟨p, -, R⟩ := (same_run ops (rel_start w)).2 rs s h
  have hcur : s.inited = true → ∃ k c, p.cur = some (k, c) := by
    intro hi
    rw [R.inited] at hi
    obtain ⟨⟨k, c⟩, e⟩ := Option.isSome_iff_exists.mp hi
    exact ⟨k, c, e⟩
  have hmem : ∀ u ∈ s.used, s.inited = true ∧ (u = s.user ∨ u = s.coll) := by
    intro u hu
    unfold St.used at hu
    split at hu
    · rename_i hi; simp at hu; exact ⟨hi, hu⟩
    · simp at hu
  have hall : ∀ u ∈ s.used, u ∉ s.apps ∧ s.table[u]? = some (some ⟨s.rank, s.size⟩) := by
    intro u hu
    obtain ⟨hi, hu⟩ := hmem u hu
    obtain ⟨k, c, e⟩ := hcur hi
    obtain ⟨-, h2, h3, h4, h5, -, h7, h8⟩ := R.cur k c e
    rw [h2, h3]
    rcases hu with rfl | rfl
    · exact ⟨h7, h4⟩
    · exact ⟨h8, h5⟩
  have hnd : s.used.Nodup := by
    unfold St.used
    split
    · rename_i hi
      obtain ⟨k, c, e⟩ := hcur hi
      have := (R.cur k c e).2.2.2.2.2.1
      simp [this]
    · simp
  refine ⟨hnd, ?_, hall, ?_⟩
  · intro hi; unfold St.used; rw [if_pos hi]; rfl
  · refine (List.perm_ext_iff_of_nodup (List.nodup_range.filter _) ?_).mpr ?_
    · refine List.nodup_append.mpr ⟨R.nodup.filter _, hnd, ?_⟩
      intro a ha b hb e
      subst e
      exact (hall a hb).1 (List.mem_filter.mp ha).1
    · intro u
      rw [List.mem_filter, List.mem_append, List.mem_filter, List.mem_range]
      constructor
      · rintro ⟨h1, h2⟩
        cases e : s.table[u]? with
        | none => rw [e] at h2; simp at h2
        | some o =>
          cases o with
          | none => rw [e] at h2; simp at h2
          | some c =>
            rcases R.only u c e with h3 | ⟨h3, h4⟩
            · exact .inl ⟨h3, by simp⟩
            · refine .inr ?_
              unfold St.used
              rw [if_pos h3]
              simpa using h4
      · rintro (⟨h1, h2⟩ | h1)
        · exact ⟨R.lt u h1, h2⟩
        · have := (hall u h1).2
          exact ⟨(List.getElem?_eq_some_iff.mp this).1, by rw [this]; rfl⟩

/-- **the application's library is stopped by EnGPar** (support/engpar_support.cpp:6-24: `handlingPCU` is never taken back):
the application lets EnGPar start and end the library, later starts it itself and uses EnGPar inside; `EnGPar_Finalize`
stops the application's library, and the application's own `PCU_Comm_Free` aborts. -/
theorem c71_foreign_finalize (w : Comm) :
    rets (specRun w ideal (specStart w)
      [.engparInit, .engparFinalize, .pcuInit, .engparInit, .engparFinalize, .isInit, .pcuFree]) =
        .ok [.unit, .unit, .unit, .unit, .unit, .bool true, .unit] ∧
    rets (run (start w) [.engparInit, .engparFinalize, .pcuInit, .engparInit, .engparFinalize, .isInit]) =
        .ok [.unit, .unit, .unit, .unit, .unit, .bool false] ∧
    rets (run (start w) [.engparInit, .engparFinalize, .pcuInit, .engparInit, .engparFinalize, .pcuFree]) = .fail := by
  rw [c71_exact, c71_exact]
  exact ⟨rfl, rfl, rfl⟩

/-- a history that meets the hypothesis of `c71_lifetime_partial`: twice EnGPar inside the application's library, with a
switch to a communicator that is freed while in use -/
example : let ops : List Op := [.pcuInit, .engparInit, .newComm ⟨1, 3⟩, .switch 2, .freeComm 2, .self, .peers, .getComm,
      .switch 0, .self, .engparFinalize, .isInit, .pcuFree, .pcuInit, .engparInit, .engparFinalize, .pcuFree]
    Clean ⟨4, 8⟩ (specStart ⟨4, 8⟩) ops ∧
    rets (run (start ⟨4, 8⟩) ops) = .ok [.unit, .unit, .nat 2, .unit, .unit, .nat 1, .nat 3, .nat 2,
      .unit, .nat 4, .unit, .bool true, .unit, .unit, .unit, .unit, .unit] := by
  refine ⟨?_, by decide +kernel⟩
  simp [Clean, specStep, specStart, ideal]

/-! ### `split` -/

/-- The switches made by `createLocalSplitInput` or `createGlobalSplitInput` (partition/engpar_input.cpp:29, 46) and then
`split` (partition/Multilevel/engpar_split.cpp:31-59) on a process that is or is not of the small communicator; place 1 is
`MPI_COMM_SELF`. -/
def splitSwitches (zoltan localSplit original : Bool) (small large : Nat) : List Op :=
  [.switch small] ++ (if zoltan then [.switch large, .switch small] else []) ++
    (if localSplit && original then [.switch 1, .switch small] else []) ++ [.switch large]

theorem specRun_append (w : Comm) (fin : Spec → Bool) : ∀ (a b : List Op) (p : Spec), specRun w fin p (a ++ b) = (do
    let (rs, p) ← specRun w fin p a
    let (rs', p) ← specRun w fin p b
    return (rs ++ rs', p))
  | [], b, p => by
    simp only [specRun, List.nil_append, Outcome.bind_ok, Outcome.pure_eq]
    cases specRun w fin p b <;> rfl
  | op :: a, b, p => by
    simp only [specRun, List.cons_append]
    cases h : specStep w fin p op with
    | ub => rfl
    | fail => rfl
    | ok x =>
      simp only [Outcome.bind_ok]
      rw [specRun_append w fin a b]
      cases h1 : specRun w fin x.2 a with
      | ub => rfl
      | fail => rfl
      | ok y =>
        simp only [Outcome.bind_ok, Outcome.pure_eq]
        cases h2 : specRun w fin y.2 b <;> rfl

/-- **C71, splitting.**  After any history that has the library started and the two communicators alive, the switches of
making the input and of `split` return, and afterwards the process is on the large communicator. -/
theorem c71_split (w : Comm) (ops : List Op) (rs : List Ret) (p : Spec) (h : specRun w actual (specStart w) ops = .ok (rs, p))
    (hcur : p.cur.isSome = true) {small large : Nat} {a c : Comm} (hs : p.apps[small]? = some (some a))
    (hl : p.apps[large]? = some (some c)) (hself : p.apps[1]? = some (some ⟨0, 1⟩)) (z l o : Bool) :
    rets (run (start w) (ops ++ (splitSwitches z l o small large ++ [.self, .peers, .getComm]))) =
      .ok (rs ++ ((splitSwitches z l o small large).map (fun _ => .unit) ++ [.nat c.rank, .nat c.size, .nat large])) := by
  rw [c71_exact, specRun_append, h, Outcome.bind_ok]
  have hsw : ∀ (k : Nat) (x : Comm) (q : Option (Nat × Comm)) (more : List Op), q.isSome = true → p.apps[k]? = some (some x) →
      specRun w actual { p with cur := q } (.switch k :: more) =
        (do let (rs, p) ← specRun w actual { p with cur := some (k, x) } more; return (.unit :: rs, p)) := by
    intro k x q more hq hk
    have hlt : k < p.apps.length := (List.getElem?_eq_some_iff.mp hk).1
    simp only [specRun, specStep]
    rw [if_neg (by omega), if_neg (by intro e; rw [e] at hq; simp at hq)]
    simp only [hk, Outcome.bind_ok]
  have hp : p = { p with cur := p.cur } := rfl
  rw [hp]
  cases z <;> cases l <;> cases o <;>
    simp only [splitSwitches, Bool.false_eq_true, if_false, if_true, Bool.and_self, Bool.and_false, Bool.false_and, Bool.true_and,
      List.cons_append, List.nil_append, List.append_nil, List.append_assoc] <;>
    (repeat rw [hsw _ _ _ _ (by first | exact hcur | rfl) (by first | exact hs | exact hl | exact hself)]) <;> rfl

/-- the small communicator has two of the four processes; this one is in it -/
example : ∃ rs p, specRun ⟨2, 4⟩ actual (specStart ⟨2, 4⟩) [.engparInit, .newComm ⟨1, 2⟩, .newComm ⟨2, 4⟩] = .ok (rs, p) ∧
    p.cur.isSome = true ∧ p.apps[2]? = some (some ⟨1, 2⟩) ∧ p.apps[3]? = some (some ⟨2, 4⟩) ∧ p.apps[1]? = some (some ⟨0, 1⟩) :=
  ⟨_, _, rfl, rfl, rfl, rfl, rfl⟩

end Verif.Support
