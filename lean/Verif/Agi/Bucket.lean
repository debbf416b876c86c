import Verif.Agi.ScanLemmas
/-!
# Counting sort: prefix sums and cursor fill

Used by `constructEdges` (agi/agiConstruct.cpp:204-246) and by the binary graph loader.
-/
namespace Verif.Agi

/-- sum of the first `k` counts -/
def offs (c : Nat → Nat) (k : Nat) : Nat := ((List.range k).map c).sum

theorem offs_succ (c : Nat → Nat) (k : Nat) : offs c (k + 1) = offs c k + c k := by
  simp [offs, List.range_succ]

theorem offs_zero (c : Nat → Nat) : offs c 0 = 0 := rfl

theorem offs_mono (c : Nat → Nat) {a b : Nat} (h : a ≤ b) : offs c a ≤ offs c b := by
  induction b with
  | zero => rw [Nat.le_zero.mp h]; exact Nat.le_refl _
  | succ b ih =>
    rcases Nat.lt_or_ge a (b + 1) with h' | h'
    · rw [offs_succ]; have := ih (by omega); omega
    · rw [show a = b + 1 by omega]; exact Nat.le_refl _

/-- the prefix sum loop -/
theorem prefix_loop (c : Nat → Nat) (n : Nat) (m : Mem Nat) (hlen : m.length = n + 1)
    (h0 : m[0]? = some (some 0)) (hc : ∀ k, k < n → m[k + 1]? = some (some (c k))) :
    ∃ m', (List.range' 1 n).foldlM prefixStep m = .ok m' ∧ m'.length = n + 1 ∧
      ∀ k, k ≤ n → m'[k]? = some (some (offs c k)) := by
  obtain ⟨m', e, hl, ha, -⟩ := range_inv prefixStep
    (fun i m => m.length = n + 1 ∧ (∀ k, k ≤ i → m[k]? = some (some (offs c k))) ∧
      (∀ k, i ≤ k → k < n → m[k + 1]? = some (some (c k)))) 1 n
    (by
      intro i m hi ⟨hl, h1, h2⟩
      have e1 := Mem.load_ok (h2 i (Nat.le_refl _) hi)
      have e2 := Mem.load_ok (h1 i (Nat.le_refl _))
      refine ⟨m.set (1 + i) (some (c i + offs c i)), ?_, ?_, ?_, ?_⟩
      · unfold prefixStep
        rw [show 1 + i = i + 1 by omega, e1, Nat.add_sub_cancel, Outcome.bind_ok, e2]
        rw [Outcome.bind_ok, Mem.store_ok _ (by omega)]
      · simpa using hl
      · intro k hk
        rw [List.getElem?_set]
        by_cases hki : 1 + i = k
        · subst hki
          rw [if_pos rfl, if_pos (by omega), Nat.add_comm 1 i, offs_succ, Nat.add_comm]
        · rw [if_neg hki]; exact h1 k (by omega)
      · intro k hk hkn
        rw [List.getElem?_set, if_neg (by omega)]
        exact h2 k (by omega) hkn)
    m ⟨hlen, fun k hk => by rw [Nat.le_zero.mp hk]; exact h0, fun k _ hk => hc k hk⟩
  exact ⟨m', e, hl, ha⟩

/-- the values destined for bucket `u` -/
def bucket (u : Nat) (items : List (Nat × Nat)) : List Nat :=
  (items.filter (fun p => p.1 == u)).map (·.2)

theorem bucket_append (u : Nat) (a b : List (Nat × Nat)) :
    bucket u (a ++ b) = bucket u a ++ bucket u b := by simp [bucket]

theorem bucket_snoc_self (u x : Nat) (a : List (Nat × Nat)) :
    bucket u (a ++ [(u, x)]) = bucket u a ++ [x] := by simp [bucket]

theorem bucket_snoc_ne {u w : Nat} (x : Nat) (a : List (Nat × Nat)) (h : w ≠ u) :
    bucket u (a ++ [(w, x)]) = bucket u a := by simp [bucket, h]

/-- invariant of the fill loop after the items `done`; `c u` is the final size of bucket `u` -/
structure FillInv (nl : Nat) (c : Nat → Nat) (done : List (Nat × Nat)) (temp edgeList : Mem Nat) :
    Prop where
  temp_len : temp.length = nl
  temp_eq : ∀ u, u < nl → temp[u]? = some (some (offs c u + (bucket u done).length))
  list_len : edgeList.length = offs c nl
  list_eq : ∀ u, u < nl → ∀ k (h : k < (bucket u done).length),
    edgeList[offs c u + k]? = some (some (bucket u done)[k])

theorem fillPut_inv {nl : Nat} {c : Nat → Nat} {done : List (Nat × Nat)} {s : Fill} {u x : Nat}
    (h : FillInv nl c done s.temp s.edgeList)
    (hroom : ∀ w, w < nl → (bucket w (done ++ [(u, x)])).length ≤ c w) :
    ∃ s', fillPut nl s u x = .ok s' ∧ FillInv nl c (done ++ [(u, x)]) s'.temp s'.edgeList ∧
      s'.ghostUnmap = s.ghostUnmap := by
  unfold fillPut
  by_cases hu : u < nl
  · rw [if_pos hu]
    have hr := hroom u hu
    rw [bucket_snoc_self, List.length_append, List.length_singleton] at hr
    have hoff := offs_succ c u
    have hmono := offs_mono c (show u + 1 ≤ nl by omega)
    have hb : offs c u + (bucket u done).length < s.edgeList.length := by rw [h.list_len]; omega
    rw [Mem.load_ok (h.temp_eq u hu), Outcome.bind_ok, Mem.store_ok _ hb, Outcome.bind_ok,
      Mem.store_ok _ (by rw [h.temp_len]; exact hu), Outcome.bind_ok]
    refine ⟨_, rfl, ⟨?_, ?_, ?_, ?_⟩, rfl⟩
    · simpa using h.temp_len
    · intro w hw
      simp only
      rw [List.getElem?_set]
      by_cases hwu : u = w
      · subst hwu; rw [if_pos rfl, if_pos (by rw [h.temp_len]; exact hu), bucket_snoc_self]; simp; omega
      · rw [if_neg hwu, bucket_snoc_ne x done hwu]; exact h.temp_eq w hw
    · simpa using h.list_len
    · intro w hw k hk
      simp only
      rw [List.getElem?_set]
      by_cases hwu : u = w
      · subst hwu
        have hk' : k < (bucket u done).length + 1 := by
          rw [bucket_snoc_self] at hk; simpa using hk
        rcases Nat.lt_or_ge k (bucket u done).length with hlt | hge
        · rw [if_neg (by omega), h.list_eq u hu k hlt]
          congr 2
          simp only [bucket_snoc_self]
          rw [List.getElem_append_left]
        · have : k = (bucket u done).length := by omega
          subst this
          rw [if_pos rfl, if_pos (by omega)]
          simp [bucket_snoc_self]
      · have hrw := hroom w hw
        rw [bucket_snoc_ne x done hwu] at hrw
        have hk' : k < (bucket w done).length := by rw [bucket_snoc_ne x done hwu] at hk; exact hk
        have hne : offs c u + (bucket u done).length ≠ offs c w + k := by
          have h1 := offs_succ c w
          rcases Nat.lt_or_gt_of_ne hwu with h' | h'
          · have := offs_mono c (show u + 1 ≤ w by omega); omega
          · have := offs_mono c (show w + 1 ≤ u by omega); omega
        rw [if_neg hne, h.list_eq w hw k hk']
        simp only [bucket_snoc_ne x done hwu]
  · rw [if_neg hu]
    refine ⟨s, rfl, ⟨h.temp_len, ?_, h.list_len, ?_⟩, rfl⟩
    · intro w hw; rw [bucket_snoc_ne x done (by omega)]; exact h.temp_eq w hw
    · intro w hw k hk
      simp only [bucket_snoc_ne x done (show u ≠ w by omega)] at hk ⊢
      exact h.list_eq w hw k hk

end Verif.Agi
