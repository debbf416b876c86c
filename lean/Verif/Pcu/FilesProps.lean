import Verif.Pcu.FilesSync
import Verif.Io.NameLemmas
import Mathlib.Data.List.Nodup
import Mathlib.Data.List.Perm.Subperm
/-
C74: opening files in groups, debug files, strings in files.
-/
namespace Verif.Pcu.Files
open Verif Names

/-! ### Groups -/

theorem flatMap_range {β : Type} (x : List β) (b : β) (i : Nat) : ∀ n, i < n →
    (List.range n).flatMap (fun j => (if i = j then x else []) ++ [b]) =
      List.replicate i b ++ x ++ List.replicate (n - i) b
  | 0, h => absurd h (by omega)
  | n + 1, h => by
      rw [List.range_succ, List.flatMap_append]
      by_cases hi : i = n
      · subst hi
        have : (List.range i).flatMap (fun j => (if i = j then x else []) ++ [b]) = List.replicate i b := by
          rw [List.flatMap_congr (g := fun _ => [b])]
          · simp [List.flatMap_def, List.map_const']
          · intro j hj
            rw [List.mem_range] at hj
            rw [if_neg (by omega)]; rfl
        rw [this]
        simp
      · rw [flatMap_range x b i n (by omega)]
        simp only [List.flatMap_cons, List.flatMap_nil, if_neg hi, List.nil_append, List.append_nil]
        rw [List.append_assoc, show n + 1 - i = (n - i) + 1 by omega, List.replicate_succ' (n := n - i)]

theorem groups_pos {P : Nat} (h : 0 < P) : 0 < groups P := by
  unfold groups
  split
  · omega
  · omega

theorem le_groups (P : Nat) : P ≤ 4096 * groups P := by
  unfold groups
  split <;> omega

theorem groupOpen_eq {P : Nat} (h : 0 < P) (r : Nat) :
    groupOpen P r = List.replicate (r % groups P) .barrier ++ [.act .call, .act .return] ++
      List.replicate (groups P - r % groups P) .barrier := by
  unfold groupOpen
  exact flatMap_range _ _ _ _ (Nat.mod_lt _ (groups_pos h))

theorem bars_replicate {α : Type} (n : Nat) : bars (List.replicate n (Act.barrier : Act α)) = n := by
  induction n with
  | zero => rfl
  | succ n ih => rw [List.replicate_succ, bars_barrier, ih]

theorem acts_replicate {α : Type} (n : Nat) : acts (List.replicate n (Act.barrier : Act α)) = [] := by
  induction n with
  | zero => rfl
  | succ n ih => rw [List.replicate_succ, acts, ih]

theorem bars_groupOpen {P : Nat} (h : 0 < P) (r : Nat) : bars (groupOpen P r) = groups P := by
  rw [groupOpen_eq h]
  have := Nat.mod_lt r (groups_pos h)
  simp only [bars_append, bars_replicate, bars_act, bars_nil]
  omega

/-- Where a rank is that is inside `fopen`. -/
theorem inFopen_at {P : Nat} (h : 0 < P) {s : Job IO} (I : Inv P (groups P) (groupOpen P) s) {r : Nat} (hr : r < P)
    (hin : inFopen s r = true) : (∃ rest, s.rem r = .act .return :: rest) ∧ s.passed r = r % groups P := by
  have h1 : ∃ rest, s.rem r = .act .return :: rest := by
    unfold inFopen at hin
    split at hin
    · rename_i rest e; exact ⟨rest, e⟩
    · simp at hin
  refine ⟨h1, ?_⟩
  obtain ⟨rest, h1⟩ := h1
  obtain ⟨done, h2, h3, -⟩ := I.split r hr
  rw [h1, groupOpen_eq h] at h2
  rw [h3]
  -- what follows the return is barriers
  have hlen : done.length ≤ r % groups P + 1 ∨ r % groups P + 2 ≤ done.length := by omega
  generalize hi : r % groups P = i at *
  have hget : (List.replicate i (Act.barrier : Act IO) ++ [Act.act IO.call, Act.act IO.return] ++
      List.replicate (groups P - i) Act.barrier)[done.length]? = some (.act .return) := by
    rw [h2]; simp
  have hd : done.length = i + 1 := by
    by_cases c1 : done.length < i
    · rw [List.append_assoc, List.getElem?_append_left (by simpa using c1)] at hget
      simp [List.getElem?_replicate] at hget
    · by_cases c2 : done.length = i
      · rw [List.append_assoc, List.getElem?_append_right (by simp; omega)] at hget
        simp [c2] at hget
      · by_cases c3 : done.length = i + 1
        · exact c3
        · rw [List.getElem?_append_right (by simp; omega)] at hget
          simp [List.getElem?_replicate] at hget
  have hdone : done = List.replicate i (Act.barrier : Act IO) ++ [Act.act IO.call] := by
    have := congrArg (List.take done.length) h2
    rw [List.take_left] at this
    rw [← this, hd]
    simp [List.take_append, List.take_of_length_le]
  rw [hdone]
  simp [bars_replicate]

/-- **C74, groups.**  Whatever the number of ranks and the schedule: at no time are more than 4096 ranks inside `fopen`. -/
theorem c74_groups (P : Nat) (sched : List Nat) :
    ((List.range P).filter (fun r => inFopen (exec P (launch (groupOpen P)) sched) r)).length ≤ 4096 := by
  rcases Nat.eq_zero_or_pos P with h0 | hP
  · subst h0; simp
  have I := inv_exec (P := P) (B := groups P) sched (inv_launch P (groups P) (groupOpen P))
  generalize exec P (launch (groupOpen P)) sched = s at *
  have hG := groups_pos hP
  have hPG := le_groups P
  generalize hG' : groups P = G at *
  -- all have the same residue
  have hsame : ∀ q r, q < P → r < P → inFopen s q = true → inFopen s r = true → q % G = r % G := by
    intro q r hq hr h1 h2
    obtain ⟨⟨x, hx⟩, hx'⟩ := inFopen_at hP (by rw [hG']; exact I) hq h1
    obtain ⟨⟨y, hy⟩, hy'⟩ := inFopen_at hP (by rw [hG']; exact I) hr h2
    rw [hG'] at hx' hy'
    rcases acting I hq hr hx with h | h
    · omega
    · rw [hy] at h; simp [atBarrier] at h
  have hnd : (((List.range P).filter (fun r => inFopen s r)).map (· / G)).Nodup := by
    refine List.Nodup.map_on ?_ (List.nodup_range.filter _)
    intro q hq r hr h
    rw [List.mem_filter, List.mem_range] at hq hr
    have h1 := hsame q r hq.1 hr.1 hq.2 hr.2
    have e1 := Nat.div_add_mod q G
    have e2 := Nat.div_add_mod r G
    rw [← e1, ← e2, h, h1]
  have hsub : ((List.range P).filter (fun r => inFopen s r)).map (· / G) ⊆ List.range 4096 := by
    intro x hx
    obtain ⟨q, hq, rfl⟩ := List.mem_map.mp hx
    rw [List.mem_filter, List.mem_range] at hq
    rw [List.mem_range]
    refine Nat.div_lt_of_lt_mul ?_
    calc q < P := hq.1
      _ ≤ 4096 * G := hPG
      _ = G * 4096 := Nat.mul_comm _ _
  have := (List.subperm_of_subset hnd hsub).length_le
  simpa using this

/-- **C74, everyone opens once.**  Every schedule can be continued until all ranks have returned (there is no deadlock), and
a rank that has returned has called `fopen` once and returned from it. -/
theorem c74_opens (P : Nat) (sched : List Nat) :
    (∃ more, Finished P (exec P (launch (groupOpen P)) (sched ++ more))) ∧
    ∀ r, r < P → (exec P (launch (groupOpen P)) sched).rem r = [] →
      ((exec P (launch (groupOpen P)) sched).log.filter (fun e => e.1 = r)).map (·.2) = [.call, .return] := by
  have I := inv_exec (P := P) (B := groups P) sched (inv_launch P (groups P) (groupOpen P))
  refine ⟨?_, ?_⟩
  · have hB : ∀ r, r < P → bars (groupOpen P r) = groups P := fun r hr => bars_groupOpen (by omega) r
    obtain ⟨more, -, h⟩ := finishes hB _ _ (Nat.le_refl _) I
    exact ⟨more, by rw [exec_append]; exact h⟩
  · intro r hr hfin
    obtain ⟨done, h1, -, h3⟩ := I.split r hr
    rw [hfin, List.append_nil] at h1
    rw [h3, ← h1, groupOpen_eq (by omega)]
    simp [acts_append, acts_replicate, acts]

/-- a job of 8195 ranks has three groups; rank 8194 opens in the second of its three turns -/
example : groups 8195 = 3 ∧ groupOpen 8195 8194 = [.barrier, .act .call, .act .return, .barrier, .barrier] := by
  constructor <;> decide

/-! ### Strings -/

/-- **C74, strings.**  A string that ends with its zero is written up to it and read back, and reading goes on after it;
reading a file that ends before a zero stops the program. -/
theorem c74_strings (text after rest : List UInt8) (h : 0 ∉ text) :
    ∃ bytes, writeString (text ++ 0 :: after) = .ok bytes ∧ readString (bytes ++ rest) = .ok (text ++ [0], rest) ∧
      readString text = .fail := by
  refine ⟨text ++ [0], ?_, ?_, ?_⟩
  · unfold writeString
    rw [if_pos (by simp), List.takeWhile_append_of_pos (by intro a ha; simp; intro e; exact h (e ▸ ha))]
    simp
  · induction text with
    | nil => simp [readString]
    | cons a t ih =>
      simp only [List.mem_cons, not_or] at h
      have ha : ¬ a = 0 := fun e => h.1 e.symm
      simp only [List.cons_append, readString, ha, if_false]
      have := ih h.2
      simp only [List.append_assoc, List.cons_append, List.nil_append] at this ⊢
      rw [this]
      rfl
  · induction text with
    | nil => rfl
    | cons a t ih =>
      simp only [List.mem_cons, not_or] at h
      have ha : ¬ a = 0 := fun e => h.1 e.symm
      simp only [readString, ha, if_false]
      rw [ih h.2]
      rfl

end Verif.Pcu.Files
