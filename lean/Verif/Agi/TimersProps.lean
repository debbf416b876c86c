import Verif.Agi.TimersModel
import Mathlib.Data.List.Nodup
import Mathlib.Algebra.BigOperators.Group.List.Basic
import Mathlib.Data.Rat.Defs
/-!
# Property C46: timers

The property is false: adding any timer is undefined behaviour, because the index given to the timer is one
past the element pushed for it.
-/
namespace Verif.Agi

theorem lookup_put (m : List (String × Nat)) (name : String) (i : Nat) (x : String) :
    (putIndex m name i).lookup x = if x = name then some i else m.lookup x := by
  unfold putIndex
  by_cases hx : x = name
  · subst hx; simp [List.lookup]
  · rw [if_neg hx, List.lookup_cons]
    have : (x == name) = false := by simpa using hx
    rw [this]
    simp only
    clear this
    induction m with
    | nil => rfl
    | cons a m ih =>
      obtain ⟨k, v⟩ := a
      by_cases hk : k = name
      · have h1 : (x == k) = false := by simp; intro h; exact hx (h.trans hk)
        rw [List.filter_cons_of_neg (by simp [hk]), List.lookup_cons, h1, ih]
      · rw [List.filter_cons_of_pos (by simp [hk]), List.lookup_cons, List.lookup_cons, ih]

/-- **C46 is false** (agi/agiMigrationTimers.cpp:17-24): on a new object, adding a timer of any name accesses
an element past the end of the vector. -/
theorem c46_add_timer_undefined (name : String) : timersNew.addTimer true name = .ub := by
  unfold Timers.addTimer timersNew
  rfl

/-- Adding several different timers is undefined behaviour at each of them: with `n` timers there, the new
element has index `n` but index `n + 1` is used. -/
theorem c46_add_timer_undefined_later (T : Timers) (name : String) (h : T.index.length = T.times.size) :
    T.addTimer true name = .ub := by
  unfold Timers.addTimer
  have hs : (T.times.push 0).size = T.times.size + 1 := by unfold Vec.push; split <;> rfl
  unfold Vec.store
  dsimp only
  rw [if_pos ⟨rfl, by rw [hs, h]⟩]; rfl

/-! In practice the 16 reserved cells are there.  Under that reading the times of up to 15 timers added
before the first update are right, and the count of the last timer added is never initialised. -/

/-- the state after adding `names` (newest last) under the lenient reading -/
structure Added (names : List String) (T : Timers) : Prop where
  idx : ∀ k, (hk : k < names.length) → T.index.lookup names[k] = some (k + 1)
  absent : ∀ x, x ∉ names → T.index.lookup x = none
  len : T.index.length = names.length
  size : T.times.size = names.length
  csize : T.counts.size = names.length
  cap : T.times.cells.length = 16
  ccap : T.counts.cells.length = 16
  zero : ∀ k, k < names.length → T.times.cells[k + 1]? = some (some 0)
  czero : ∀ k, k + 1 < names.length → T.counts.cells[k + 1]? = some (some 0)
  cnone : ∀ k, names.length ≤ k → k < 16 → T.counts.cells[k]? = some none

theorem added_new : Added [] timersNew := by
  refine ⟨by simp, fun _ _ => rfl, rfl, rfl, rfl, by simp [timersNew, Vec.reserve], by simp [timersNew, Vec.reserve],
    by simp, by simp, fun k _ hk => ?_⟩
  show (List.replicate 16 none : List (Option Int))[k]? = some none
  rw [List.getElem?_replicate, if_pos hk]

theorem putIndex_length {m : List (String × Nat)} {name : String} (h : m.lookup name = none) (i : Nat) :
    (putIndex m name i).length = m.length + 1 := by
  unfold putIndex
  rw [List.length_cons, List.filter_eq_self.mpr]
  intro p hp
  induction m with
  | nil => simp at hp
  | cons a m ih =>
    obtain ⟨k, v⟩ := a
    rw [List.lookup_cons] at h
    by_cases hk : name = k
    · simp [hk] at h
    · have hb : (name == k) = false := by simpa using hk
      rw [hb] at h
      rcases List.mem_cons.mp hp with rfl | hp
      · simp only [ne_eq, decide_eq_true_eq]; exact fun e => hk e.symm
      · exact ih h hp

theorem added_step {names : List String} {T : Timers} (A : Added names T) {name : String} (hn : name ∉ names)
    (hlen : names.length < 15) : ∃ T', T.addTimer false name = .ok T' ∧ Added (names ++ [name]) T' := by
  unfold Timers.addTimer
  have hp : T.times.push 0 = ⟨T.times.cells.set T.times.size (some 0), T.times.size + 1⟩ := by
    unfold Vec.push; rw [if_pos (by rw [A.size, A.cap]; omega)]
  have hc : T.counts.push 0 = ⟨T.counts.cells.set T.counts.size (some 0), T.counts.size + 1⟩ := by
    unfold Vec.push; rw [if_pos (by rw [A.csize, A.ccap]; omega)]
  rw [hp, hc]
  unfold Vec.store
  dsimp only
  rw [if_neg (by simp), Mem.store_ok _ (by simp [A.cap, A.len]; omega)]
  refine ⟨_, rfl, ?_⟩
  refine ⟨?_, ?_, ?_, by simp [A.size], by simp [A.csize], by simp [A.cap], by simp [A.ccap], ?_, ?_, ?_⟩
  · intro k hk
    rw [lookup_put]
    simp only [List.length_append, List.length_cons, List.length_nil] at hk
    by_cases hkn : k < names.length
    · have hne : (names ++ [name])[k] ≠ name := by
        rw [List.getElem_append_left hkn]
        intro e; exact hn (e ▸ List.getElem_mem hkn)
      rw [if_neg hne, List.getElem_append_left hkn]
      exact A.idx k hkn
    · have : k = names.length := by omega
      subst this
      rw [if_pos (by simp), A.len]
  · intro x hx
    rw [lookup_put]
    simp only [List.mem_append, List.mem_cons, List.not_mem_nil, or_false, not_or] at hx
    rw [if_neg hx.2]; exact A.absent x hx.1
  · rw [putIndex_length (A.absent name hn)]; simp [A.len]
  · intro k hk
    simp only [List.length_append, List.length_cons, List.length_nil] at hk
    rw [Mem.getElem?_set', Mem.getElem?_set', A.len, A.size]
    simp only [List.length_set, A.cap]
    by_cases hkn : k = names.length
    · subst hkn; rw [if_pos rfl, if_pos (by omega)]
    · rw [if_neg (by omega)]
      by_cases hk1 : names.length = k + 1
      · rw [if_pos hk1, if_pos (by omega)]
      · rw [if_neg hk1]; exact A.zero k (by omega)
  · intro k hk
    simp only [List.length_append, List.length_cons, List.length_nil] at hk
    simp only [A.csize]
    rw [Mem.getElem?_set', A.ccap]
    by_cases hk1 : names.length = k + 1
    · rw [if_pos hk1, if_pos (by omega)]
    · rw [if_neg hk1]; exact A.czero k (by omega)
  · intro k hk hk16
    simp only [List.length_append, List.length_cons, List.length_nil] at hk
    simp only [A.csize]
    rw [Mem.getElem?_set', if_neg (by omega)]
    exact A.cnone k (by omega) hk16

theorem added_all : ∀ (new names : List String) (T : Timers), Added names T → (names ++ new).Nodup →
    (names ++ new).length ≤ 15 →
    ∃ T', new.foldlM (Timers.addTimer false) T = .ok T' ∧ Added (names ++ new) T' := by
  intro new
  induction new with
  | nil => intro names T A _ _; exact ⟨T, rfl, by simpa using A⟩
  | cons x new ih =>
    intro names T A hnd hlen
    have hx : x ∉ names := by
      intro h
      exact (List.nodup_append.mp hnd).2.2 x h x (by simp) rfl
    obtain ⟨T1, e1, A1⟩ := added_step A hx (by simp at hlen; omega)
    obtain ⟨T2, e2, A2⟩ := ih (names ++ [x]) T1 A1 (by simpa using hnd) (by simpa using hlen)
    refine ⟨T2, ?_, by simpa using A2⟩
    rw [List.foldlM_cons, e1]; exact e2

/-- the total of the updates of a timer -/
def totalOf (x : String) (us : List (String × Rat)) : Rat := ((us.filter (fun u => u.1 = x)).map Prod.snd).sum
/-- how often a timer was updated -/
def countOf (x : String) (us : List (String × Rat)) : Int := (us.filter (fun u => u.1 = x)).length

/-- state during the updates of all timers but the last -/
structure Timed (names : List String) (us : List (String × Rat)) (T : Timers) : Prop where
  idx : ∀ k, (hk : k < names.length) → T.index.lookup names[k] = some (k + 1)
  cap : T.times.cells.length = 16
  ccap : T.counts.cells.length = 16
  time : ∀ k, (hk : k < names.length) → T.times.cells[k + 1]? = some (some (totalOf names[k] us))
  count : ∀ k, (hk : k + 1 < names.length) → T.counts.cells[k + 1]? = some (some (countOf names[k] us))

theorem timed_step {names : List String} (hnd : names.Nodup) (hlen : names.length ≤ 15) {us : List (String × Rat)} {T : Timers}
    (A : Timed names us T) {k : Nat} (hk : k + 1 < names.length) (val : Rat) :
    ∃ T', T.update false names[k] val = .ok T' ∧ Timed names (us ++ [(names[k], val)]) T' := by
  unfold Timers.update Timers.idx
  rw [A.idx k (by omega), Outcome.bind_ok]
  unfold Vec.load Vec.store
  simp only [Bool.false_eq_true, false_and, if_false]
  rw [Mem.load_ok (A.time k (by omega)), Outcome.bind_ok, Mem.store_ok _ (by rw [A.cap]; omega), Outcome.bind_ok,
    Outcome.pure_eq, Outcome.bind_ok, Mem.load_ok (A.count k hk), Outcome.bind_ok, Mem.store_ok _ (by rw [A.ccap]; omega),
    Outcome.bind_ok]
  refine ⟨_, rfl, A.idx, by simp [A.cap], by simp [A.ccap], ?_, ?_⟩
  · intro j hj
    simp only
    rw [Mem.getElem?_set', A.cap]
    by_cases hjk : j = k
    · subst hjk
      rw [if_pos rfl, if_pos (by omega)]
      simp [totalOf, List.filter_append]
    · rw [if_neg (by omega), A.time j hj]
      have hne : names[k] ≠ names[j] := by
        intro e; exact hjk ((List.Nodup.getElem_inj_iff hnd).mp e).symm
      simp [totalOf, List.filter_append, hne]
  · intro j hj
    simp only
    rw [Mem.getElem?_set', A.ccap]
    by_cases hjk : j = k
    · subst hjk
      rw [if_pos rfl, if_pos (by omega)]
      simp [countOf, List.filter_append]
    · rw [if_neg (by omega), A.count j hj]
      have hne : names[k] ≠ names[j] := by
        intro e; exact hjk ((List.Nodup.getElem_inj_iff hnd).mp e).symm
      simp [countOf, List.filter_append, hne]

/-- **C46, what holds in practice** (reserved memory counted as accessible).  Add up to 15 different timers and
then update any of them but the last added, in any order: each timer reads back the sum of its updates, and all
but the last read back the number of their updates.  Missing: the strict reading (where adding a timer is
already undefined), more than 15 timers, adding after updating, and updates of the last timer. -/
theorem c46_timers_partial (names : List String) (hnd : names.Nodup) (hlen : names.length ≤ 15)
    (us : List (String × Rat)) (hus : ∀ u ∈ us, u.1 ∈ names.dropLast) :
    ∃ T T', names.foldlM (Timers.addTimer false) timersNew = .ok T ∧
      us.foldlM (fun (T : Timers) (u : String × Rat) => T.update false u.1 u.2) T = .ok T' ∧
      (∀ x ∈ names, T'.getTime false x = .ok (totalOf x us)) ∧
      (∀ x ∈ names.dropLast, T'.getCount false x = .ok (countOf x us)) := by
  obtain ⟨T, e, A⟩ := added_all names [] timersNew added_new (by simpa using hnd) (by simpa using hlen)
  simp only [List.nil_append] at A
  have A0 : Timed names [] T := ⟨A.idx, A.cap, A.ccap, by simpa [totalOf] using A.zero, by simpa [countOf] using A.czero⟩
  have run : ∀ (us pre : List (String × Rat)) (T : Timers), Timed names pre T → (∀ u ∈ us, u.1 ∈ names.dropLast) →
      ∃ T', us.foldlM (fun (T : Timers) (u : String × Rat) => T.update false u.1 u.2) T = .ok T' ∧
        Timed names (pre ++ us) T' := by
    intro us
    induction us with
    | nil => intro pre T A _; exact ⟨T, rfl, by simpa using A⟩
    | cons u us ih =>
      intro pre T A hus
      obtain ⟨k, hk, hku⟩ := List.getElem_of_mem (hus u (by simp))
      simp only [List.length_dropLast] at hk
      rw [List.getElem_dropLast] at hku
      obtain ⟨T1, e1, A1⟩ := timed_step hnd hlen A (k := k) (by omega) u.2
      obtain ⟨T2, e2, A2⟩ := ih _ T1 A1 (fun x hx => hus x (by simp [hx]))
      refine ⟨T2, ?_, ?_⟩
      · rw [List.foldlM_cons, ← hku, e1]; exact e2
      · rw [List.append_assoc] at A2
        rw [hku] at A2
        simpa using A2
  obtain ⟨T', e', A'⟩ := run us [] T A0 hus
  simp only [List.nil_append] at A'
  refine ⟨T, T', e, e', ?_, ?_⟩
  · intro x hx
    obtain ⟨k, hk, rfl⟩ := List.getElem_of_mem hx
    unfold Timers.getTime Timers.idx Vec.load
    rw [A'.idx k hk, Outcome.bind_ok, if_neg (by simp), Mem.load_ok (A'.time k hk)]
  · intro x hx
    obtain ⟨k, hk, rfl⟩ := List.getElem_of_mem hx
    simp only [List.length_dropLast] at hk
    unfold Timers.getCount Timers.idx Vec.load
    rw [List.getElem_dropLast, A'.idx k (by omega), Outcome.bind_ok, if_neg (by simp),
      Mem.load_ok (A'.count k (by omega))]

/-- non-vacuity -/
example : (["setup", "comm", "build"] : List String).Nodup ∧
    ∀ u ∈ [("comm", (1 : Rat)), ("setup", 2), ("comm", 3)], u.1 ∈ (["setup", "comm", "build"] : List String).dropLast := by
  decide
example : totalOf "comm" [("comm", (1 : Rat)), ("setup", 2), ("comm", 3)] = 4 := by decide +kernel

/-- **Defect, in practice too**: the last timer's count is an uninitialised cell, so its first update reads an
indeterminate value. -/
theorem c46_last_count_uninitialised :
    (do let T ← (["setup", "comm"] : List String).foldlM (Timers.addTimer false) timersNew
        T.update false "comm" 1) = Outcome.ub := by rfl

end Verif.Agi
