import Verif.Pcu.FilesProps
/-
C74: the debug files of PCU.
-/
namespace Verif.Pcu.Files
open Verif Names

theorem dec_no_slash (n : Nat) : '/' ∉ dec n := by
  intro h
  have := Nat.isDigit_of_mem_toDigits (by omega) (by omega) h
  exact absurd this (by decide)

/-- **C74, names.**  With a rank of at most nine digits the name is the prefix, the rank, a dot and the extension; with ten
digits, which the code means to provide for, the last letter is lost. -/
theorem c74_name_partial (pre ext : List Char) (rank : Nat) :
    (rank < 10 ^ 9 → parallelName pre ext rank = pre ++ dec rank ++ ['.'] ++ ext) ∧
    (10 ^ 9 ≤ rank → rank < 10 ^ 10 → ext ≠ [] → parallelName pre ext rank = pre ++ dec rank ++ ['.'] ++ ext.dropLast) := by
  unfold parallelName
  refine ⟨fun h => ?_, fun h1 h2 h3 => ?_⟩
  · have := (dec_length_le (n := rank) (k := 9) (by omega)).mpr h
    refine List.take_of_length_le ?_
    simp
    omega
  · have h4 := (dec_length_le (n := rank) (k := 10) (by omega)).mpr h2
    have h5 : ¬ (dec rank).length ≤ 9 := fun h => by
      have := (dec_length_le (n := rank) (k := 9) (by omega)).mp h
      omega
    have h6 : 0 < ext.length := List.length_pos_iff.mpr h3
    have h7 : pre.length + 10 + ext.length + 1 - 1 = (pre ++ dec rank ++ ['.']).length + (ext.length - 1) := by
      simp; omega
    rw [h7, List.take_length_add_append, List.dropLast_eq_take]

theorem comp_fold (w : List Char) (hw : '/' ∉ w) (d : List (List Char)) : ∀ c, w.foldl compStep (d, c) = (d, c ++ w) := by
  induction w with
  | nil => simp
  | cons x w ih =>
    intro c
    simp only [List.mem_cons, not_or] at hw
    rw [List.foldl_cons]
    have : compStep (d, c) x = (d, c ++ [x]) := by
      unfold compStep
      dsimp only
      rw [if_neg (fun (e : x = '/') => hw.1 e.symm)]
    rw [this, ih hw.2]
    simp

def debugWord : List Char := ['d', 'e', 'b', 'u', 'g']

/-- `debug/` -/
def dirA : List Char := ['d', 'e', 'b', 'u', 'g', '/']
/-- `debug/k/` -/
def dirB (k : Nat) : List Char := dirA ++ (dec k ++ ['/'])

theorem comps_A : comps dirA = [debugWord] := by decide

theorem dec_ne (n : Nat) : dec n ≠ [] := List.length_pos_iff.mp (dec_length_pos n)

theorem split_B (k : Nat) : compSplit (dirB k) = ([debugWord, dec k], []) := by
  unfold compSplit dirB
  rw [List.foldl_append, List.foldl_append]
  have : dirA.foldl compStep ([], []) = ([debugWord], []) := by decide
  rw [this, comp_fold _ (dec_no_slash k), List.nil_append]
  simp [compStep, dec_ne]

theorem comps_B (k : Nat) : comps (dirB k) = [debugWord, dec k] := by
  unfold comps
  rw [split_B]
  simp

theorem comps_dir (pre name : List Char) (d : List (List Char)) (h : compSplit pre = (d, [])) (hn : '/' ∉ name) (hne : name ≠ []) :
    (comps (pre ++ name)).dropLast = d := by
  have : compSplit (pre ++ name) = (d, name) := by
    unfold compSplit at *
    rw [List.foldl_append, h, comp_fold _ hn, List.nil_append]
  unfold comps
  rw [this]
  simp [hne]

/-- The debug file of rank `r` of `P`: `debugR.txt`, or `debug/K/debugR.txt` in jobs of more than 2048 ranks. -/
def debugName (P r : Nat) : List Char :=
  (if P > 2048 then dirB (r / 2048) else []) ++ debugWord ++ dec r ++ ['.', 't', 'x', 't']

theorem debugOpen_eq {P r : Nat} (hr : r < P) (hP : P ≤ 10 ^ 9) : debugOpen P r =
    if P > 2048 then [.act (.mkdir dirA)] ++ (if r % 2048 = 0 then [.act (.mkdir (dirB (r / 2048)))] else []) ++
      [.barrier, .act (.fopen (debugName P r))]
    else [.act (.fopen (debugName P r))] := by
  have h0 : (dec (r / 2048)).length ≤ 9 := (dec_length_le (by omega)).mpr (by omega)
  have h1 : append dirA 1024 (dec (r / 2048) ++ ['/']) = dirB (r / 2048) := by
    unfold append dirB
    rw [List.take_of_length_le]
    simp [dirA]; omega
  have h2 : append (dirB (r / 2048)) 1024 debugWord = dirB (r / 2048) ++ debugWord := by
    unfold append
    rw [List.take_of_length_le]
    simp [dirA, dirB, debugWord]; omega
  have h3 : append [] 1024 debugWord = debugWord := by decide
  have h4 : ∀ pre, parallelName pre ['t', 'x', 't'] r = pre ++ dec r ++ ['.', 't', 'x', 't'] := by
    intro pre
    rw [(c74_name_partial pre ['t', 'x', 't'] r).1 (by omega)]
    simp
  unfold debugOpen debugName
  split
  · rename_i hb
    dsimp only
    have e1 : (['d', 'e', 'b', 'u', 'g', '/'] : List Char) = dirA := rfl
    have e2 : (['d', 'e', 'b', 'u', 'g'] : List Char) = debugWord := rfl
    rw [e1, e2, h1, h2, h4]
  · have e2 : (['d', 'e', 'b', 'u', 'g'] : List Char) = debugWord := rfl
    rw [e2, h3, h4]
    simp

/-- **C74, different files.**  Two ranks have different debug files. -/
theorem c74_different (P q r : Nat) (h : debugName P q = debugName P r) : q = r := by
  unfold debugName at h
  split at h
  · have h' : dec (q / 2048) ++ '/' :: (debugWord ++ dec q ++ ['.', 't', 'x', 't']) =
        dec (r / 2048) ++ '/' :: (debugWord ++ dec r ++ ['.', 't', 'x', 't']) := by
      simp only [dirB, List.append_assoc] at h
      have := List.append_cancel_left h
      simpa using this
    have hno : ∀ n, '/' ∉ debugWord ++ dec n ++ ['.', 't', 'x', 't'] := by
      intro n hm
      simp only [List.mem_append] at hm
      rcases hm with (hm | hm) | hm
      · revert hm; decide
      · exact dec_no_slash n hm
      · revert hm; decide
    have := (split_last (hno q) (hno r) h').2
    exact dec_inj (List.append_cancel_left (List.append_cancel_right this))
  · exact dec_inj (List.append_cancel_left (List.append_cancel_right h))

/-- What holds of the disk in every schedule. -/
structure OnDisk (P : Nat) (s : Job Disk) (w w' : World) : Prop where
  ran : s.log.foldlM onDisk w = .ok w'
  root : w'.dirs false [] = true
  outer : ∀ q, (q, Disk.mkdir dirA) ∈ s.log → w'.dirs false [debugWord] = true
  inner : ∀ q k, (q, Disk.mkdir (dirB k)) ∈ s.log → w'.dirs false [debugWord, dec k] = true
  files : ∀ q path, (q, Disk.fopen path) ∈ s.log → path = debugName P q ∧ w'.file q = some path

theorem abs_A : absolute dirA = false := by decide
theorem abs_B (k : Nat) : absolute (dirB k) = false := by simp [absolute, dirB, dirA]

theorem mkdir_mono {path : List Char} {fs : Fs} {b : Bool} {cs : List (List Char)} (h : fs b cs = true) :
    mkdir path fs b cs = true := by
  unfold mkdir
  split
  · dsimp only
    split
    · rfl
    · exact h
  · exact h

/-- Making a directory whose parent is there. -/
theorem mkdir_ok {w : World} {q : Nat} {path : List Char} (hne : comps path ≠ [])
    (hpar : w.dirs (absolute path) (comps path).dropLast = true) :
    ∃ w', onDisk w (q, .mkdir path) = .ok w' ∧ w'.dirs (absolute path) (comps path) = true ∧
      (∀ b cs, w.dirs b cs = true → w'.dirs b cs = true) ∧ w'.file = w.file := by
  have h1 : mkdir path w.dirs (absolute path) (comps path) = true := by
    unfold mkdir
    rw [if_pos ⟨hne, hpar⟩]
    simp
  refine ⟨{ w with dirs := mkdir path w.dirs }, ?_, h1, fun b cs h => mkdir_mono h, rfl⟩
  unfold onDisk
  dsimp only
  rw [if_pos h1]

theorem onDisk_mkdir {P : Nat} {s : Job Disk} {w w' : World} (D : OnDisk P s w w') {r : Nat} {path : List Char}
    (hp : path = dirA ∨ ∃ k, path = dirB k) (hpar : w'.dirs (absolute path) (comps path).dropLast = true)
    {s' : Job Disk} (hlog : s'.log = s.log ++ [(r, .mkdir path)]) : ∃ w'', OnDisk P s' w w'' := by
  have hne : comps path ≠ [] := by
    rcases hp with rfl | ⟨k, rfl⟩
    · rw [comps_A]; simp
    · rw [comps_B]; simp
  have habs : absolute path = false := by
    rcases hp with rfl | ⟨k, rfl⟩
    · exact abs_A
    · exact abs_B k
  obtain ⟨w'', h1, h2, h3, h4⟩ := mkdir_ok (q := r) hne hpar
  rw [habs] at h2
  refine ⟨w'', ?_, h3 _ _ D.root, ?_, ?_, ?_⟩
  · rw [hlog, List.foldlM_append, D.ran, Outcome.bind_ok, List.foldlM_cons, h1]
    rfl
  · intro q hq
    rw [hlog, List.mem_append, List.mem_singleton] at hq
    rcases hq with hq | hq
    · exact h3 _ _ (D.outer q hq)
    · simp only [Prod.mk.injEq, Disk.mkdir.injEq] at hq
      rw [← hq.2, comps_A] at h2
      exact h2
  · intro q k hq
    rw [hlog, List.mem_append, List.mem_singleton] at hq
    rcases hq with hq | hq
    · exact h3 _ _ (D.inner q k hq)
    · simp only [Prod.mk.injEq, Disk.mkdir.injEq] at hq
      rw [← hq.2, comps_B] at h2
      exact h2
  · intro q p hq
    rw [hlog, List.mem_append, List.mem_singleton] at hq
    rcases hq with hq | hq
    · rw [h4]; exact D.files q p hq
    · simp at hq

theorem onDisk_fopen {P : Nat} {s : Job Disk} {w w' : World} (D : OnDisk P s w w') {r : Nat}
    (hpar : w'.dirs (absolute (debugName P r)) (comps (debugName P r)).dropLast = true)
    {s' : Job Disk} (hlog : s'.log = s.log ++ [(r, .fopen (debugName P r))]) : ∃ w'', OnDisk P s' w w'' := by
  refine ⟨{ w' with file := fun q => if q = r then some (debugName P r) else w'.file q }, ?_, D.root, ?_, ?_, ?_⟩
  · rw [hlog, List.foldlM_append, D.ran, Outcome.bind_ok, List.foldlM_cons]
    unfold onDisk
    dsimp only
    rw [if_pos hpar]
    rfl
  · intro q hq
    rw [hlog, List.mem_append, List.mem_singleton] at hq
    rcases hq with hq | hq
    · exact D.outer q hq
    · simp at hq
  · intro q k hq
    rw [hlog, List.mem_append, List.mem_singleton] at hq
    rcases hq with hq | hq
    · exact D.inner q k hq
    · simp at hq
  · intro q p hq
    rw [hlog, List.mem_append, List.mem_singleton] at hq
    dsimp only
    rcases hq with hq | hq
    · obtain ⟨h1, h2⟩ := D.files q p hq
      refine ⟨h1, ?_⟩
      by_cases hqr : q = r
      · subst hqr; rw [if_pos rfl, h1]
      · rw [if_neg hqr]; exact h2
    · simp only [Prod.mk.injEq, Disk.fopen.injEq] at hq
      obtain ⟨rfl, rfl⟩ := hq
      exact ⟨rfl, by simp⟩

theorem file_dir (P r : Nat) : absolute (debugName P r) = false ∧
    (comps (debugName P r)).dropLast = if P > 2048 then [debugWord, dec (r / 2048)] else [] := by
  have hno : '/' ∉ debugWord ++ dec r ++ ['.', 't', 'x', 't'] := by
    intro hm
    simp only [List.mem_append] at hm
    rcases hm with (hm | hm) | hm
    · revert hm; decide
    · exact dec_no_slash r hm
    · revert hm; decide
  unfold debugName
  split
  · refine ⟨by simp [absolute, dirB, dirA], ?_⟩
    rw [List.append_assoc, List.append_assoc, ← List.append_assoc debugWord]
    exact comps_dir _ _ _ (split_B _) hno (by simp)
  · refine ⟨by simp [absolute, debugWord], ?_⟩
    rw [List.nil_append]
    exact comps_dir [] _ [] rfl hno (by simp)

/-- A log entry of a rank. -/
theorem log_mem {s : Job Disk} {q : Nat} {a : Disk} {l : List Disk} (h : (s.log.filter (fun e => e.1 = q)).map (·.2) = l)
    (ha : a ∈ l) : (q, a) ∈ s.log := by
  rw [← h] at ha
  obtain ⟨⟨x, y⟩, h1, h2⟩ := List.mem_map.mp ha
  rw [List.mem_filter] at h1
  simp only [decide_eq_true_eq] at h1 h2
  obtain ⟨h1, rfl⟩ := h1
  subst h2
  exact h1

/-- One action of one rank. -/
theorem onDisk_advance {P : Nat} (hP : P ≤ 10 ^ 9) {B : Nat} {s : Job Disk} (I : Inv P B (debugOpen P) s) {r : Nat} (hr : r < P)
    {w w' : World} (D : OnDisk P s w w') : ∃ w'', OnDisk P (advance s r) w w'' := by
  unfold advance
  cases hrem : s.rem r with
  | nil => exact ⟨w', D⟩
  | cons x rest =>
    cases x with
    | barrier => exact ⟨w', D.ran, D.root, D.outer, D.inner, D.files⟩
    | act a =>
      obtain ⟨done, h1, h2, h3⟩ := I.split r hr
      rw [hrem, debugOpen_eq hr hP] at h1
      have hfd := file_dir P r
      by_cases hbig : P > 2048
      · rw [if_pos hbig] at h1 hfd
        -- the directories are there once the barrier is passed
        have hdir : s.passed r = 1 → w'.dirs false [debugWord, dec (r / 2048)] = true := by
          intro hpass
          have hq : r / 2048 * 2048 < P := by omega
          have hq0 : r / 2048 * 2048 % 2048 = 0 := by omega
          have hq1 : r / 2048 * 2048 / 2048 = r / 2048 := by omega
          refine D.inner (r / 2048 * 2048) (r / 2048) ?_
          obtain ⟨d, g1, g2, g3⟩ := I.split _ hq
          rw [debugOpen_eq hq hP, if_pos hbig, hq0, hq1] at g1
          simp only [if_true, List.cons_append, List.nil_append] at g1
          refine log_mem g3 ?_
          rcases acting I hr hq hrem with h | ⟨h, h'⟩
          · -- it has left the barrier
            rw [hpass, g2] at h
            match d, g1 with
            | [], g1 => simp at h
            | [_], g1 =>
              simp only [List.cons_append, List.cons.injEq] at g1
              rw [← g1.1] at h; simp at h
            | [_, _], g1 =>
              simp only [List.cons_append, List.cons.injEq] at g1
              rw [← g1.1, ← g1.2.1] at h; simp at h
            | _ :: y :: _ :: _, g1 =>
              simp only [List.cons_append, List.cons.injEq] at g1
              rw [← g1.1, ← g1.2.1]
              simp [acts]
          · obtain ⟨rest', h5⟩ := atBarrier_iff.mp h'
            rw [h5] at g1
            match d, g1 with
            | [], g1 => simp at g1
            | [_], g1 => simp at g1
            | _ :: y :: _, g1 =>
              simp only [List.cons_append, List.cons.injEq] at g1
              rw [← g1.1, ← g1.2.1]
              simp [acts]
        by_cases hz : r % 2048 = 0
        · rw [if_pos hz] at h1
          simp only [List.cons_append, List.nil_append] at h1
          match done, h1 with
          | [], h1 =>
            simp only [List.nil_append, List.cons.injEq, Act.act.injEq] at h1
            refine onDisk_mkdir D (path := dirA) (.inl rfl) ?_ (by rw [← h1.1])
            rw [comps_A, abs_A]; exact D.root
          | [d0], h1 =>
            simp only [List.cons_append, List.nil_append, List.cons.injEq, Act.act.injEq] at h1
            refine onDisk_mkdir D (path := dirB (r / 2048)) (.inr ⟨_, rfl⟩) ?_ (by rw [← h1.2.1])
            rw [comps_B, abs_B]
            refine D.outer r (log_mem h3 ?_)
            rw [← h1.1]
            simp [acts]
          | [d0, d1], h1 => simp at h1
          | [d0, d1, d2], h1 =>
            simp only [List.cons_append, List.nil_append, List.cons.injEq, Act.act.injEq] at h1
            refine onDisk_fopen D ?_ (by rw [← h1.2.2.2.1])
            rw [hfd.1, hfd.2]
            refine hdir ?_
            rw [h2, ← h1.1, ← h1.2.1, ← h1.2.2.1]
            simp
          | d0 :: d1 :: d2 :: d3 :: d4, h1 => simp at h1
        · rw [if_neg hz] at h1
          simp only [List.append_nil, List.cons_append, List.nil_append] at h1
          match done, h1 with
          | [], h1 =>
            simp only [List.nil_append, List.cons.injEq, Act.act.injEq] at h1
            refine onDisk_mkdir D (path := dirA) (.inl rfl) ?_ (by rw [← h1.1])
            rw [comps_A, abs_A]; exact D.root
          | [d0], h1 => simp at h1
          | [d0, d1], h1 =>
            simp only [List.cons_append, List.nil_append, List.cons.injEq, Act.act.injEq] at h1
            refine onDisk_fopen D ?_ (by rw [← h1.2.2.1])
            rw [hfd.1, hfd.2]
            refine hdir ?_
            rw [h2, ← h1.1, ← h1.2.1]
            simp
          | d0 :: d1 :: d2 :: d3, h1 => simp at h1
      · rw [if_neg hbig] at h1 hfd
        match done, h1 with
        | [], h1 =>
          simp only [List.nil_append, List.cons.injEq, Act.act.injEq] at h1
          refine onDisk_fopen D ?_ (by rw [← h1.1])
          rw [hfd.1, hfd.2]; exact D.root
        | d0 :: d1, h1 => simp at h1

theorem onDisk_exec {P : Nat} (hP : P ≤ 10 ^ 9) {B : Nat} {w : World} : ∀ (sched : List Nat) {s : Job Disk} {w' : World},
    Inv P B (debugOpen P) s → OnDisk P s w w' → ∃ w'', OnDisk P (exec P s sched) w w''
  | [], s, w', _, D => ⟨w', D⟩
  | r :: sched, s, w', I, D => by
      unfold exec
      rw [List.foldl_cons]
      by_cases h : (decide (r < P) && enabled P s r) = true
      · rw [if_pos h]
        simp only [Bool.and_eq_true, decide_eq_true_eq] at h
        obtain ⟨w1, D1⟩ := onDisk_advance hP I h.1 D
        exact onDisk_exec hP sched (inv_advance I h.1 h.2) D1
      · rw [if_neg h]
        exact onDisk_exec hP sched I D

/-- **C74, debug files.**  Whatever the number of ranks (up to 10^9), the schedule and the directories there are at the
start: `PCU_Debug_Open` never stops the program, can always be continued until all ranks have returned, and a rank that has
returned has its debug file open. -/
theorem c74_debug (P : Nat) (hP : P ≤ 10 ^ 9) (sched : List Nat) (w : World) (hroot : w.dirs false [] = true) :
    (∃ more, Finished P (exec P (launch (debugOpen P)) (sched ++ more))) ∧
    ∃ w', (exec P (launch (debugOpen P)) sched).log.foldlM onDisk w = .ok w' ∧
      ∀ r, r < P → (exec P (launch (debugOpen P)) sched).rem r = [] → w'.file r = some (debugName P r) := by
  have hB : ∀ r, r < P → bars (debugOpen P r) = if P > 2048 then 1 else 0 := by
    intro r hr
    rw [debugOpen_eq hr hP]
    split
    · split <;> simp
    · simp
  have I := inv_exec (P := P) (B := if P > 2048 then 1 else 0) sched (inv_launch P _ (debugOpen P))
  refine ⟨?_, ?_⟩
  · obtain ⟨more, -, h⟩ := finishes hB _ _ (Nat.le_refl _) I
    exact ⟨more, by rw [exec_append]; exact h⟩
  · obtain ⟨w', D⟩ := onDisk_exec hP (B := if P > 2048 then 1 else 0) (w := w) (w' := w) sched
      (inv_launch P _ (debugOpen P))
      { ran := rfl, root := hroot, outer := by simp [launch], inner := by simp [launch], files := by simp [launch] }
    refine ⟨w', D.ran, fun r hr hfin => ?_⟩
    obtain ⟨done, h1, -, h3⟩ := I.split r hr
    rw [hfin, List.append_nil] at h1
    refine (D.files r _ (log_mem h3 ?_)).2
    rw [← h1, debugOpen_eq hr hP]
    split
    · simp [acts_append, acts]
    · simp [acts]

/-- rank 4100 of 5000 makes no directory of its own and opens `debug/2/debug4100.txt` -/
example : debugOpen 5000 4100 = [.act (.mkdir "debug/".toList), .barrier, .act (.fopen "debug/2/debug4100.txt".toList)] ∧
    debugOpen 5000 4096 = [.act (.mkdir "debug/".toList), .act (.mkdir "debug/2/".toList), .barrier,
      .act (.fopen "debug/2/debug4096.txt".toList)] ∧ debugOpen 7 3 = [.act (.fopen "debug3.txt".toList)] := by
  decide +kernel

end Verif.Pcu.Files
