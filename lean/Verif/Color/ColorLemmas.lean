import Verif.Color.ColorModel
import Verif.Agi.Bucket
import Verif.Io.FileShows
import Verif.Io.BinLemmas
import Mathlib.Data.List.Nodup
/-!
# The kernels under every interleaving
-/
namespace Verif.Color
open Verif.Agi Verif.Part

/-! ## the map -/

theorem insert_fold (cap : Nat) : ∀ (l m : List (Nat × Nat)), m.Nodup → m.length + l.length ≤ cap →
    (l.foldl (mapInsert cap) m).Nodup ∧ ∀ p, p ∈ l.foldl (mapInsert cap) m ↔ p ∈ m ∨ p ∈ l := by
  intro l
  induction l with
  | nil => intro m h _; exact ⟨h, fun p => by simp⟩
  | cons a l ih =>
    intro m h hc
    rw [List.length_cons] at hc
    rw [List.foldl_cons]
    unfold mapInsert
    by_cases ha : a ∈ m
    · rw [if_pos ha]
      obtain ⟨h1, h2⟩ := ih m h (by omega)
      refine ⟨h1, fun p => ?_⟩
      have := h2 p
      unfold mapInsert at this
      rw [this]
      constructor
      · rintro (h | h)
        · exact .inl h
        · exact .inr (by simp [h])
      · rintro (h | h)
        · exact .inl h
        · rcases List.mem_cons.mp h with rfl | h
          · exact .inl ha
          · exact .inr h
    · rw [if_neg ha, if_pos (by omega)]
      obtain ⟨h1, h2⟩ := ih (m ++ [a]) (List.nodup_append.mpr ⟨h, by simp, by
        intro x hx y hy hxy
        rw [List.mem_singleton] at hy
        subst hy; subst hxy
        exact ha hx⟩) (by rw [List.length_append, List.length_singleton]; omega)
      refine ⟨h1, fun p => ?_⟩
      have := h2 p
      unfold mapInsert at this
      rw [this]
      simp only [List.mem_append, List.mem_cons, List.not_mem_nil, or_false]
      tauto

theorem fillMap_spec (E : Env) (ps : List (List (Nat × Nat))) (hc : numAdj ps ≤ E.cap (numAdj ps)) :
    (fillMap E ps).Nodup ∧ ∀ p, p ∈ fillMap E ps ↔ ∃ row ∈ ps, p ∈ row := by
  have hp := (interleave_sound E.s2 ps).perm
  have hl : (interleave ps E.s2).length ≤ E.cap (numAdj ps) := by
    rw [hp.length_eq, List.length_flatten]; exact hc
  obtain ⟨h1, h2⟩ := insert_fold (E.cap (numAdj ps)) (interleave ps E.s2) [] (by simp) (by simpa using hl)
  refine ⟨h1, fun p => ?_⟩
  unfold fillMap
  rw [h2, hp.mem_iff, List.mem_flatten]
  simp

/-! ## counting -/

theorem flatten_toList {α : Type} (l : List (Option α)) : (l.map (fun o => o.toList)).flatten = l.filterMap id := by
  induction l with
  | nil => rfl
  | cons a l ih =>
    cases a with
    | none => simpa using ih
    | some a => simpa using ih

/-- how many keys start with `a` -/
def deg1 (ks : List (Nat × Nat)) (a : Nat) : Nat := ks.countP (fun p => decide (p.1 = a))

theorem countDeg_spec (E : Env) {N : Nat} {slots : List (Option (Nat × Nat))} (h : ∀ p ∈ slots.filterMap id, p.1 < N) :
    ∃ d, countDeg E N slots = .ok d ∧ d.length = N + 1 ∧ d[0]? = some (some 0) ∧
      ∀ a, a < N → d[a + 1]? = some (some (deg1 (slots.filterMap id) a)) := by
  have hp := (interleave_sound E.s3 (slots.map (fun o => o.toList))).perm
  rw [flatten_toList] at hp
  obtain ⟨d, e, h1, h2, h3⟩ := foldlM_inv degAdd
    (fun (pre : List (Nat × Nat)) (d : Mem Nat) => d.length = N + 1 ∧ d[0]? = some (some 0) ∧
      ∀ a, a < N → d[a + 1]? = some (some (deg1 pre a))) (interleave (slots.map (fun o => o.toList)) E.s3)
    (by
      intro pre p d hpre ⟨h1, h2, h3⟩
      have hpN : p.1 < N := h p (hp.mem_iff.mp (hpre.subset (by simp)))
      refine ⟨_, by
        unfold degAdd
        rw [Mem.load_ok (h3 p.1 hpN), Outcome.bind_ok, Mem.store_ok _ (by omega)], by simpa using h1, ?_, ?_⟩
      · rw [Mem.getElem?_set', if_neg (by omega)]; exact h2
      · intro a ha
        rw [Mem.getElem?_set']
        unfold deg1
        rw [List.countP_append, List.countP_singleton]
        by_cases hpa : p.1 = a
        · subst hpa
          rw [if_pos rfl, if_pos (by omega)]
          simp [deg1]
        · rw [if_neg (by omega), h3 a ha]
          simp [deg1, hpa]) (Mem.ofList (List.replicate (N + 1) 0)) (by
      refine ⟨by simp, by simp [Mem.ofList], ?_⟩
      intro a ha
      simp [Mem.ofList, deg1, ha])
  refine ⟨d, e, h1, h2, ?_⟩
  intro a ha
  rw [h3 a ha]
  unfold deg1
  rw [hp.countP_eq]

theorem scan_spec (c : Nat → Nat) {N : Nat} {d : Mem Nat} (hl : d.length = N + 1) (h0 : d[0]? = some (some 0))
    (hc : ∀ a, a < N → d[a + 1]? = some (some (c a))) :
    ∃ d' x, (List.range N).foldlM scanStep (d, 0) = .ok (d', x) ∧ d' = Mem.ofList ((List.range (N + 1)).map (offs c)) := by
  obtain ⟨s, e, h1, h2, h3, -⟩ := Io.rangeM_inv scanStep
    (fun i (s : Mem Nat × Nat) => s.1.length = N + 1 ∧ s.2 = offs c i ∧ (∀ k, k ≤ i → s.1[k]? = some (some (offs c k))) ∧
      (∀ k, i ≤ k → k < N → s.1[k + 1]? = some (some (c k)))) N
    (by
      intro k s hk ⟨h1, h2, h3, h4⟩
      refine ⟨_, by
        unfold scanStep
        rw [Mem.load_ok (h4 k (Nat.le_refl _) hk), Outcome.bind_ok, Mem.store_ok _ (by omega), Outcome.bind_ok]
        rfl, by simpa using h1, by simp only [offs_succ, h2], ?_, ?_⟩
      · intro j hj
        simp only
        rw [Mem.getElem?_set']
        by_cases hjk : k + 1 = j
        · rw [if_pos hjk, if_pos (by omega), ← hjk, offs_succ, h2]
        · rw [if_neg hjk]; exact h3 j (by omega)
      · intro j hj hjN
        simp only
        rw [Mem.getElem?_set', if_neg (by omega)]
        exact h4 j (by omega) hjN) (d, 0) ⟨hl, rfl, by
      intro k hk
      have : k = 0 := by omega
      subst this
      exact h0, fun k _ hk => hc k hk⟩
  refine ⟨s.1, s.2, e, ?_⟩
  apply ofList_of_get
  · simpa using h1
  · intro k hk
    simp only [List.length_map, List.length_range] at hk
    rw [h3 k (by omega)]
    simp

/-! ## the lists -/

/-- the thread of an action -/
def Act.thread : Act → Nat
  | .base k => k
  | .add k => k
  | .put k => k

/-- the slots whose counter was taken, in this order -/
def taken (pre : List Act) : List Nat := pre.filterMap (fun a => match a with | .add k => some k | _ => none)

theorem mem_taken {pre : List Act} {k : Nat} : k ∈ taken pre ↔ Act.add k ∈ pre := by
  unfold taken
  rw [List.mem_filterMap]
  constructor
  · rintro ⟨a, ha, h⟩
    cases a with
    | base j => simp at h
    | put j => simp at h
    | add j => simp at h; subst h; exact ha
  · intro h
    exact ⟨_, h, rfl⟩

theorem taken_append (a b : List Act) : taken (a ++ b) = taken a ++ taken b := by
  unfold taken; exact List.filterMap_append

section
variable {slots : List (Option (Nat × Nat))}

/-- the key in a slot -/
def keyAt (slots : List (Option (Nat × Nat))) (k : Nat) : Nat × Nat := (slots.getD k none).getD (0, 0)

theorem threads_get {i : Nat} {p : List Act} (h : (putThreads slots)[i]? = some p) :
    (∃ x, slots[i]? = some (some x) ∧ p = [.base i, .add i, .put i]) ∨ (slots[i]? = some none ∧ p = []) := by
  unfold putThreads at h
  rw [List.getElem?_map, List.getElem?_zipIdx] at h
  cases hs : slots[i]? with
  | none => rw [hs] at h; simp at h
  | some o =>
    rw [hs] at h
    cases o with
    | none => right; exact ⟨rfl, by simpa using h.symm⟩
    | some x => left; exact ⟨x, rfl, by simpa using h.symm⟩

theorem threads_key (i : Nat) (p : List Act) (h : (putThreads slots)[i]? = some p) : ∀ a ∈ p, a.thread = i := by
  rcases threads_get h with ⟨x, -, rfl⟩ | ⟨-, rfl⟩
  · intro a ha
    simp only [List.mem_cons, List.not_mem_nil, or_false] at ha
    rcases ha with rfl | rfl | rfl <;> rfl
  · intro a ha; simp at ha

variable {L : List Act} (hL : Interleaving (putThreads slots) L)

include hL in
theorem mem_sched {a : Act} (ha : a ∈ L) : ∃ x, slots[a.thread]? = some (some x) := by
  rw [hL.perm.mem_iff, List.mem_flatten] at ha
  obtain ⟨p, hp, hap⟩ := ha
  obtain ⟨i, hi⟩ := List.mem_iff_getElem?.mp hp
  have hk := threads_key i p hi a hap
  rcases threads_get hi with ⟨x, hx, -⟩ | ⟨-, rfl⟩
  · exact ⟨x, by rw [hk]; exact hx⟩
  · simp at hap

include hL in
theorem thread_order (k : Nat) : L.filter (fun a => decide (a.thread = k)) = [.base k, .add k, .put k] ∨
    L.filter (fun a => decide (a.thread = k)) = [] := by
  rw [hL.thread (key := Act.thread) threads_key k, List.getD_eq_getElem?_getD]
  cases h : (putThreads slots)[k]? with
  | none => right; rfl
  | some p =>
    rcases threads_get h with ⟨x, -, rfl⟩ | ⟨-, rfl⟩
    · left; rfl
    · right; rfl

include hL in
theorem sched_nodup : L.Nodup := by
  rw [List.nodup_iff_count_le_one]
  intro a
  have h1 : L.count a = (L.filter (fun b => decide (b.thread = a.thread))).count a := by
    rw [List.count_filter]; simp
  rw [h1]
  rcases thread_order hL a.thread with h | h <;> rw [h]
  · cases a <;> simp [Act.thread]
  · simp

include hL in
/-- a thread stores after having taken both its numbers -/
theorem put_after {pre : List Act} {k : Nat} (h : pre ++ [.put k] <+: L) : Act.base k ∈ pre ∧ Act.add k ∈ pre := by
  obtain ⟨r, rfl⟩ := h
  have hf := thread_order hL k
  rw [List.filter_append, List.filter_append, List.filter_cons_of_pos (by simp [Act.thread]), List.filter_nil] at hf
  rcases hf with hf | hf
  · have hlen := congrArg List.length hf
    simp only [List.length_append, List.length_cons, List.length_nil] at hlen
    have hm : ∀ b ∈ pre.filter (fun a => decide (a.thread = k)), b ≠ Act.put k := by
      intro b hb hc
      subst hc
      have hnd := sched_nodup hL
      rw [List.append_assoc] at hnd
      exact (List.nodup_append.mp hnd).2.2 _ (List.mem_filter.mp hb).1 _ (by simp) rfl
    generalize hF : pre.filter (fun a => decide (a.thread = k)) = F at *
    have : F = [.base k, .add k] := by
      match F, hf, hm with
      | [], hf, hm => simp at hf
      | [x], hf, hm => simp at hf
      | [x, y], hf, hm => simp at hf; rw [hf.1, hf.2.1]
      | x :: y :: z :: F, hf, hm =>
        simp at hf
    have hb : Act.base k ∈ F ∧ Act.add k ∈ F := by rw [this]; simp
    rw [← hF] at hb
    exact ⟨(List.mem_filter.mp hb.1).1, (List.mem_filter.mp hb.2).1⟩
  · simp at hf

include hL in
/-- the slots, in the order their counters are taken, are the slots with a key -/
theorem taken_keys : ((taken L).map (keyAt slots)).Perm (slots.filterMap id) := by
  have h1 : (taken L).Perm (taken (putThreads slots).flatten) := hL.perm.filterMap _
  refine (h1.map _).trans (List.Perm.of_eq ?_)
  have h2 : ∀ l : List (Option (Nat × Nat) × Nat), taken (l.map (fun x => if x.1.isSome then [Act.base x.2, .add x.2, .put x.2] else [])).flatten =
      l.filterMap (fun x => if x.1.isSome then some x.2 else none) := by
    intro l
    induction l with
    | nil => rfl
    | cons x l ih =>
      rw [List.map_cons, List.flatten_cons, taken_append, ih]
      by_cases hx : x.1.isSome = true
      · rw [if_pos hx, List.filterMap_cons_some (b := x.2) (by rw [if_pos hx])]; rfl
      · rw [if_neg hx, List.filterMap_cons_none (by rw [if_neg hx])]; rfl
  unfold putThreads
  rw [h2, List.map_filterMap]
  have h3 : slots.filterMap id = slots.zipIdx.filterMap (fun x => x.1) := by
    conv => lhs; rw [← List.zipIdx_map_fst 0 slots, List.filterMap_map]
    rfl
  rw [h3]
  apply List.filterMap_congr
  intro x hx
  have hg : slots[x.2]? = some x.1 := by
    have := List.mem_zipIdx_iff_getElem?.mp hx
    exact this
  obtain ⟨o, i⟩ := x
  simp only at hg
  cases o with
  | none => simp
  | some p => simp [keyAt, hg]

/-- the slots with first part `a`, in the order their counters were taken -/
def rowTaken (slots : List (Option (Nat × Nat))) (pre : List Act) (a : Nat) : List Nat :=
  (taken pre).filter (fun k => decide ((keyAt slots k).1 = a))

theorem mem_rowTaken {pre : List Act} {k a : Nat} : k ∈ rowTaken slots pre a ↔ Act.add k ∈ pre ∧ (keyAt slots k).1 = a := by
  unfold rowTaken
  rw [List.mem_filter, mem_taken]
  simp

theorem rowTaken_add (pre : List Act) (k a : Nat) : rowTaken slots (pre ++ [.add k]) a =
    rowTaken slots pre a ++ (if (keyAt slots k).1 = a then [k] else []) := by
  unfold rowTaken
  rw [taken_append, List.filter_append]
  congr 1
  show List.filter _ [k] = _
  by_cases h : (keyAt slots k).1 = a
  · rw [if_pos h, List.filter_cons_of_pos (by simp [h])]; rfl
  · rw [if_neg h, List.filter_cons_of_neg (by simp [h])]; rfl

theorem rowTaken_other (pre : List Act) (x : Act) (hx : ∀ k, x ≠ .add k) (a : Nat) :
    rowTaken slots (pre ++ [x]) a = rowTaken slots pre a := by
  unfold rowTaken
  rw [taken_append, List.filter_append]
  cases x with
  | add k => exact absurd rfl (hx k)
  | base k => simp [taken]
  | put k => simp [taken]

theorem rowTaken_prefix {pre L : List Act} (h : pre <+: L) (a : Nat) : (rowTaken slots pre a).length ≤ (rowTaken slots L a).length := by
  obtain ⟨r, rfl⟩ := h
  unfold rowTaken
  rw [taken_append, List.filter_append, List.length_append]
  omega

include hL in
theorem rowTaken_length (a : Nat) : (rowTaken slots L a).length = deg1 (slots.filterMap id) a := by
  unfold deg1
  rw [← (taken_keys hL).countP_eq, List.countP_map, List.countP_eq_length_filter]
  rfl

theorem taken_nodup {pre : List Act} (h : pre.Nodup) : (taken pre).Nodup := by
  unfold taken
  refine List.Nodup.filterMap ?_ h
  intro a b c ha hb
  cases a <;> cases b <;> simp at ha hb ⊢
  omega

/-- the invariant of the last kernel -/
structure Inv (slots : List (Option (Nat × Nat))) (N total : Nat) (off : Nat → Nat) (pre : List Act) (s : St) : Prop where
  cl : s.cnt.length = N
  cnt : ∀ a, a < N → s.cnt[a]? = some (some (rowTaken slots pre a).length)
  ol : s.out.length = total
  base : ∀ k, Act.base k ∈ pre → s.base k = some (off (keyAt slots k).1)
  idx : ∀ k, Act.add k ∈ pre → s.idx k = some ((rowTaken slots pre (keyAt slots k).1).idxOf k)
  after : ∀ k, Act.put k ∈ pre → Act.add k ∈ pre
  out : ∀ k, Act.put k ∈ pre → s.out[off (keyAt slots k).1 + (rowTaken slots pre (keyAt slots k).1).idxOf k]? = some (some (keyAt slots k).2)

include hL in
theorem putAll_loop {N : Nat} (h : ∀ p ∈ slots.filterMap id, p.1 < N) {deg : Mem Nat}
    (hd : deg = Mem.ofList ((List.range (N + 1)).map (offs (deg1 (slots.filterMap id))))) :
    ∃ s, L.foldlM (act deg (keyAt slots))
        ⟨Mem.ofList (List.replicate N 0), Mem.ofList (List.replicate (offs (deg1 (slots.filterMap id)) N) 0), fun _ => none, fun _ => none⟩ = .ok s ∧
      Inv slots N (offs (deg1 (slots.filterMap id)) N) (offs (deg1 (slots.filterMap id))) L s := by
  set c := deg1 (slots.filterMap id) with hc
  have hvalid : ∀ a ∈ L, (keyAt slots a.thread).1 < N := by
    intro a ha
    obtain ⟨x, hx⟩ := mem_sched hL ha
    have : keyAt slots a.thread = x := by simp [keyAt, hx]
    rw [this]
    exact h x (List.mem_filterMap.mpr ⟨some x, List.mem_of_getElem? hx, rfl⟩)
  refine foldlM_inv (act deg (keyAt slots)) (Inv slots N (offs c N) (offs c)) L ?_ _ ?_
  · intro pre x s hpre hI
    have hxL : x ∈ L := hpre.subset (by simp)
    have hv := hvalid x hxL
    have hnd : (pre ++ [x]).Nodup := (sched_nodup hL).sublist hpre.sublist
    have hxn : x ∉ pre := fun hc => (List.nodup_append.mp hnd).2.2 x hc x (by simp) rfl
    have hpp : pre <+: L := (List.prefix_append pre [x]).trans hpre
    have hcl : ∀ a, (rowTaken slots pre a).length ≤ c a := by
      intro a
      rw [hc, ← rowTaken_length hL a]
      exact rowTaken_prefix hpp a
    cases x with
    | base k =>
      have hv : (keyAt slots k).1 < N := hv
      refine ⟨_, by
        simp only [act]
        rw [hd, Mem.load_ofList (by simp; omega), Outcome.bind_ok]
        rfl, ?_⟩
      have hr : ∀ a, rowTaken slots (pre ++ [Act.base k]) a = rowTaken slots pre a := fun a =>
        rowTaken_other pre _ (by intro j hj; cases hj) a
      constructor
      · exact hI.cl
      · intro a ha; rw [hr]; exact hI.cnt a ha
      · exact hI.ol
      · intro j hj
        simp only
        by_cases hjk : j = k
        · rw [if_pos hjk, hjk]
          simp
        · rw [if_neg hjk]
          apply hI.base
          simpa [hjk] using hj
      · intro j hj
        rw [hr]
        exact hI.idx j (by simpa using hj)
      · intro j hj
        have := hI.after j (by simpa using hj)
        simp [this]
      · intro j hj
        rw [hr]
        exact hI.out j (by simpa using hj)
    | add k =>
      have hv : (keyAt slots k).1 < N := hv
      refine ⟨_, by
        simp only [act]
        rw [Mem.load_ok (hI.cnt _ hv), Outcome.bind_ok, Mem.store_ok _ (by rw [hI.cl]; exact hv), Outcome.bind_ok]
        rfl, ?_⟩
      have hkn : k ∉ rowTaken slots pre (keyAt slots k).1 := fun hm => hxn (mem_rowTaken.mp hm).1
      have hix : ∀ j, Act.add j ∈ pre → (rowTaken slots (pre ++ [Act.add k]) (keyAt slots j).1).idxOf j =
          (rowTaken slots pre (keyAt slots j).1).idxOf j := by
        intro j hj
        rw [rowTaken_add]
        exact List.idxOf_append_of_mem (mem_rowTaken.mpr ⟨hj, rfl⟩)
      constructor
      · simpa using hI.cl
      · intro a ha
        simp only
        rw [Mem.getElem?_set', rowTaken_add]
        by_cases hka : (keyAt slots k).1 = a
        · rw [if_pos hka, if_pos (by rw [hI.cl]; exact hv), if_pos hka, hka]
          simp
        · rw [if_neg hka, if_neg hka, List.append_nil]
          exact hI.cnt a ha
      · exact hI.ol
      · intro j hj
        exact hI.base j (by simpa using hj)
      · intro j hj
        simp only
        by_cases hjk : j = k
        · subst hjk
          rw [if_pos rfl, rowTaken_add, if_pos rfl, List.idxOf_append_of_notMem hkn]
          simp
        · rw [if_neg hjk]
          have hj' : Act.add j ∈ pre := by simpa [hjk] using hj
          rw [hix j hj']
          exact hI.idx j hj'
      · intro j hj
        have := hI.after j (by simpa using hj)
        simp [this]
      · intro j hj
        have hj' : Act.put j ∈ pre := by simpa using hj
        rw [hix j (hI.after j hj')]
        exact hI.out j hj'
    | put k =>
      have hv : (keyAt slots k).1 < N := hv
      obtain ⟨hb, ha⟩ := put_after hL hpre
      have hmem : k ∈ rowTaken slots pre (keyAt slots k).1 := mem_rowTaken.mpr ⟨ha, rfl⟩
      have hlt := List.idxOf_lt_length_of_mem hmem
      have hrow : ∀ j, (keyAt slots j).1 < N → offs c (keyAt slots j).1 + c (keyAt slots j).1 ≤ offs c N := by
        intro j hj
        rw [← offs_succ]
        exact offs_mono c (by omega)
      refine ⟨_, by
        simp only [act]
        rw [hI.base k hb, hI.idx k ha]
        simp only [deref, Outcome.ofOption_some, Outcome.bind_ok]
        rw [Mem.store_ok _ (by
          rw [hI.ol]
          have := hcl (keyAt slots k).1
          have := hrow k hv
          omega), Outcome.bind_ok]
        rfl, ?_⟩
      have hr : ∀ a, rowTaken slots (pre ++ [Act.put k]) a = rowTaken slots pre a := fun a =>
        rowTaken_other pre _ (by intro j hj; cases hj) a
      constructor
      · exact hI.cl
      · intro a ha; rw [hr]; exact hI.cnt a ha
      · simpa using hI.ol
      · intro j hj
        exact hI.base j (by simpa using hj)
      · intro j hj
        rw [hr]
        exact hI.idx j (by simpa using hj)
      · intro j hj
        simp only [List.mem_append, List.mem_singleton, Act.put.injEq] at hj
        rcases hj with hj | rfl
        · simp [hI.after j hj]
        · simp [ha]
      · intro j hj
        simp only
        rw [hr, Mem.getElem?_set']
        by_cases hjk : j = k
        · subst hjk
          rw [if_pos rfl, if_pos (by
            rw [hI.ol]
            have := hcl (keyAt slots j).1
            have := hrow j hv
            omega)]
        · have hj' : Act.put j ∈ pre := by simpa [hjk] using hj
          have hja := hI.after j hj'
          have hjm : j ∈ rowTaken slots pre (keyAt slots j).1 := mem_rowTaken.mpr ⟨hja, rfl⟩
          have hjl := List.idxOf_lt_length_of_mem hjm
          rw [if_neg]
          · exact hI.out j hj'
          · intro heq
            have e1 : (keyAt slots k).1 = (keyAt slots j).1 := by
              have h1 := hcl (keyAt slots k).1
              have h2 := hcl (keyAt slots j).1
              apply offs_unique c (e := offs c (keyAt slots k).1 + (rowTaken slots pre (keyAt slots k).1).idxOf k)
              · omega
              · rw [offs_succ]; omega
              · omega
              · rw [offs_succ]; omega
            rw [e1] at heq hmem
            have : (rowTaken slots pre (keyAt slots j).1).idxOf k = (rowTaken slots pre (keyAt slots j).1).idxOf j := by omega
            exact hjk ((List.idxOf_inj hmem).mp this).symm
  · constructor
    · simp
    · intro a ha
      simp [Mem.ofList, rowTaken, taken, ha]
    · simp
    · intro k hk; simp at hk
    · intro k hk; simp at hk
    · intro k hk; simp at hk
    · intro k hk; simp at hk

end

/-- the lists: row `a` has the second parts of the keys starting with `a`, each once -/
theorem putAll_spec (E : Env) {N : Nat} {slots : List (Option (Nat × Nat))} (h : ∀ p ∈ slots.filterMap id, p.1 < N) :
    ∃ rows : List (List Nat), rows.length = N ∧
      (∀ a (ha : a < rows.length), rows[a].Perm (((slots.filterMap id).filter (fun p => decide (p.1 = a))).map Prod.snd)) ∧
      putAll E N (offs (deg1 (slots.filterMap id)) N) (Mem.ofList ((List.range (N + 1)).map (offs (deg1 (slots.filterMap id))))) slots =
        .ok (Mem.ofList rows.flatten) := by
  have hL := interleave_sound E.s4 (putThreads slots)
  set L := interleave (putThreads slots) E.s4 with hLd
  obtain ⟨s, e, hI⟩ := putAll_loop hL h rfl
  set c := deg1 (slots.filterMap id) with hc
  refine ⟨(List.range N).map (fun a => (rowTaken slots L a).map (fun k => (keyAt slots k).2)), by simp, ?_, ?_⟩
  · intro a ha
    simp only [List.getElem_map, List.getElem_range]
    have h1 := (taken_keys hL).filter (fun p => decide (p.1 = a))
    rw [List.filter_map] at h1
    have h2 := h1.map Prod.snd
    rw [List.map_map] at h2
    exact h2
  · unfold putAll
    rw [show (fun k => (slots.getD k none).getD (0, 0)) = keyAt slots from rfl, e, Outcome.bind_ok, Outcome.pure_eq]
    congr 1
    have hsum : ∀ n, ((List.range n).map (fun a => (rowTaken slots L a).map (fun k => (keyAt slots k).2))).flatten.length = offs c n := by
      intro n
      rw [List.length_flatten, List.map_map]
      unfold offs
      congr 1
      apply List.map_congr_left
      intro a _
      simp only [Function.comp_apply, List.length_map]
      exact rowTaken_length hL a
    apply ofList_of_get
    · rw [hI.ol, hsum]
    · intro i hi
      rw [hsum] at hi
      obtain ⟨a, j, ha, hj, rfl⟩ := Io.offs_find c N i hi
      have hjl : j < (rowTaken slots L a).length := by rw [rowTaken_length hL a]; exact hj
      have hkm : (rowTaken slots L a)[j] ∈ rowTaken slots L a := List.getElem_mem hjl
      obtain ⟨hk1, hk2⟩ := mem_rowTaken.mp hkm
      have hnd : (rowTaken slots L a).Nodup := (taken_nodup (sched_nodup hL)).filter _
      have hput : Act.put (rowTaken slots L a)[j] ∈ L := by
        have := thread_order hL (rowTaken slots L a)[j]
        rcases this with h | h
        · have : Act.put (rowTaken slots L a)[j] ∈ L.filter (fun b => decide (b.thread = (rowTaken slots L a)[j])) := by rw [h]; simp
          exact (List.mem_filter.mp this).1
        · have : Act.add (rowTaken slots L a)[j] ∈ L.filter (fun b => decide (b.thread = (rowTaken slots L a)[j])) :=
            List.mem_filter.mpr ⟨hk1, by simp [Act.thread]⟩
          rw [h] at this; simp at this
      have ho := hI.out _ hput
      rw [hk2, hnd.idxOf_getElem] at ho
      rw [ho]
      congr 2
      have hN : (List.range N) = List.range a ++ a :: (List.range' (a + 1) (N - (a + 1))) := by
        rw [List.range_eq_range', List.range_eq_range', ← List.range'_succ]
        rw [show N = a + (N - (a + 1) + 1) by omega]
        have := List.range'_append_1 (s := 0) (m := a) (n := N - (a + 1) + 1)
        rw [Nat.zero_add] at this
        rw [show a + (N - (a + 1) + 1) - (a + 1) = N - (a + 1) by omega]
        exact this.symm
      symm
      rw [List.getElem_eq_iff]
      conv => lhs; rw [hN, List.map_append, List.flatten_append, List.map_cons, List.flatten_cons]
      rw [List.getElem?_append_right (by rw [hsum]; omega), hsum, Nat.add_sub_cancel_left,
        List.getElem?_append_left (by simpa using hjl)]
      simp [hjl]

end Verif.Color
