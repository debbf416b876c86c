import Verif.Part.DistQueueModel
import Verif.Part.SortProps
import Mathlib.Data.List.Perm.Subperm
import Mathlib.Logic.Function.Basic
/-!
# The distance queue: arrays, the state of a search, the two visit functions
-/
namespace Verif.Part
open Verif.Agi

/-- a block of `n` written cells, cell `k` holding `f k` -/
structure Arr {α : Type} (m : Mem α) (n : Nat) (f : Nat → α) : Prop where
  len : m.length = n
  at' : ∀ k, k < n → m[k]? = some (some (f k))

theorem Arr.load {α : Type} {m : Mem α} {n : Nat} {f : Nat → α} (h : Arr m n f) {k : Nat} (hk : k < n) :
    m.load k = .ok (f k) := Mem.load_ok (h.at' k hk)

theorem Arr.loadI {α : Type} {m : Mem α} {n : Nat} {f : Nat → α} (h : Arr m n f) {k : Int} (h0 : 0 ≤ k) (hk : k < n) :
    loadI m k = .ok (f k.toNat) := by
  unfold Verif.Part.loadI
  rw [if_neg (by omega), h.load (by omega)]

theorem Arr.store {α : Type} {m : Mem α} {n : Nat} {f : Nat → α} (h : Arr m n f) {k : Nat} (hk : k < n) (x : α) :
    ∃ m', m.store k x = .ok m' ∧ Arr m' n (Function.update f k x) := by
  refine ⟨_, Mem.store_ok x (by rw [h.len]; exact hk), by simp [h.len], ?_⟩
  intro j hj
  rw [Mem.getElem?_set']
  by_cases hjk : k = j
  · subst hjk
    rw [if_pos rfl, if_pos (by rw [h.len]; exact hk), Function.update_self]
  · rw [if_neg hjk, Function.update_of_ne (by omega), h.at' j hj]

theorem Arr.storeI {α : Type} {m : Mem α} {n : Nat} {f : Nat → α} (h : Arr m n f) {k : Int} (h0 : 0 ≤ k) (hk : k < n)
    (x : α) : ∃ m', storeI m k x = .ok m' ∧ Arr m' n (Function.update f k.toNat x) := by
  unfold Verif.Part.storeI
  rw [if_neg (by omega)]
  exact h.store (by omega) x

theorem Arr.congr {α : Type} {m : Mem α} {n : Nat} {f f' : Nat → α} (h : Arr m n f) (hf : ∀ k, k < n → f k = f' k) :
    Arr m n f' := ⟨h.len, fun k hk => by rw [h.at' k hk, hf k hk]⟩

/-- writing all cells one after the other -/
theorem fill_arr {α : Type} (n : Nat) (f : Nat → α) :
    ∃ m, (List.range n).foldlM (fun (m : Mem α) i => m.store i (f i)) (Mem.alloc n) = .ok m ∧ Arr m n f := by
  obtain ⟨m, e, h1, h2⟩ := range_inv (fun (m : Mem α) i => m.store i (f i))
    (fun k m => m.length = n ∧ ∀ j, j < k → m[j]? = some (some (f j))) 0 n (by
      intro k m hk ⟨h1, h2⟩
      rw [Nat.zero_add]
      refine ⟨_, Mem.store_ok _ (by omega), by simp [h1], ?_⟩
      intro j hj
      rw [Mem.getElem?_set']
      by_cases hjk : k = j
      · subst hjk; rw [if_pos rfl, if_pos (by omega)]
      · rw [if_neg hjk, h2 j (by omega)]) (Mem.alloc n) ⟨by simp, by omega⟩
  rw [← List.range_eq_range'] at e
  exact ⟨m, e, h1, h2⟩

theorem minusOnes_spec (n : Nat) : ∃ m, minusOnes n = .ok m ∧ Arr m n (fun _ => -1) := fill_arr n (fun _ => (-1 : Int))

/-- the seeds of a search are the list `L` (room for `N`) -/
structure Seeds (s : Inputs) (N : Nat) (L : List Nat) : Prop where
  len : s.seeds.length = N
  num : s.numSeeds = L.length
  at' : ∀ k (h : k < L.length), s.seeds[k]? = some (some L[k])
  nodup : L.Nodup
  lt : ∀ e ∈ L, e < N

theorem Seeds.load {s : Inputs} {N : Nat} {L : List Nat} (h : Seeds s N L) {k : Nat} (hk : k < L.length) :
    s.seeds.load k = .ok L[k] := Mem.load_ok (h.at' k hk)

theorem Seeds.le {s : Inputs} {N : Nat} {L : List Nat} (h : Seeds s N L) : L.length ≤ N := by
  have := List.Nodup.subperm h.nodup (l₂ := List.range N) (fun x hx => List.mem_range.mpr (h.lt x hx))
  simpa using this.length_le

theorem seeds_room {N : Nat} {L : List Nat} (hn : L.Nodup) (hlt : ∀ e ∈ L, e < N) {e : Nat} (he : e < N) (hL : e ∉ L) :
    L.length < N := by
  have hn' : (e :: L).Nodup := List.nodup_cons.mpr ⟨hL, hn⟩
  have := List.Nodup.subperm hn' (l₂ := List.range N) (fun x hx => by
    rcases List.mem_cons.mp hx with rfl | hx
    · exact List.mem_range.mpr he
    · exact List.mem_range.mpr (hlt x hx))
  have := this.length_le
  simp only [List.length_cons, List.length_range] at this
  omega

/-- `seeds[numSeeds++] = e` -/
theorem Seeds.store {s : Inputs} {N : Nat} {L : List Nat} (h : Seeds s N L) {e : Nat} (he : e < N) (hL : e ∉ L) :
    ∃ m, s.seeds.store s.numSeeds e = .ok m ∧ ∀ s' : Inputs, s'.seeds = m → s'.numSeeds = s.numSeeds + 1 →
      Seeds s' N (L ++ [e]) := by
  have hr := seeds_room h.nodup h.lt he hL
  refine ⟨_, Mem.store_ok _ (by rw [h.len, h.num]; exact hr), ?_⟩
  intro s' e1 e2
  refine ⟨by rw [e1]; simp [h.len], by rw [e2, h.num]; simp, ?_, ?_, ?_⟩
  · intro k hk
    rw [e1, Mem.getElem?_set', h.num]
    by_cases hkl : L.length = k
    · subst hkl
      rw [if_pos rfl, if_pos (by rw [h.len]; exact hr)]; simp
    · rw [if_neg hkl]
      rw [List.length_append, List.length_singleton] at hk
      have hlt : k < L.length := by omega
      rw [h.at' k hlt, List.getElem_append_left hlt]
  · rw [List.nodup_append]
    exact ⟨h.nodup, by simp, fun a ha b hb => by rw [List.mem_singleton] at hb; subst hb; rintro rfl; exact hL ha⟩
  · intro x hx
    rcases List.mem_append.mp hx with hx | hx
    · exact h.lt x hx
    · rw [List.mem_singleton] at hx; subst hx; exact he

theorem Seeds.of_eq {s s' : Inputs} {N : Nat} {L : List Nat} (h : Seeds s N L) (h1 : s'.seeds = s.seeds)
    (h2 : s'.numSeeds = s.numSeeds) : Seeds s' N L :=
  ⟨by rw [h1]; exact h.len, by rw [h2]; exact h.num, fun k hk => by rw [h1]; exact h.at' k hk, h.nodup, h.lt⟩

/-- a search in progress: seeds `L`, depths `vis`, -1 for the edges not reached -/
structure St (s : Inputs) (N : Nat) (L : List Nat) (vis : Nat → Int) : Prop where
  seeds : Seeds s N L
  arr : Arr s.visited N vis
  ge : ∀ e ∈ L, 0 ≤ vis e
  un : ∀ e, e < N → e ∉ L → vis e = -1

/-- what a visit function does, `Old` being the seeds of earlier rounds and `E` the pairs visited so far -/
structure VisitOk (visit : Visit) (N : Nat) (Old : List Nat)
    (I : List Nat → (Nat → Int) → List (Nat × Nat) → Inputs → Prop) : Prop where
  base : ∀ New vis E s, I New vis E s → St s N (Old ++ New) vis
  old : ∀ New vis E s src dst, I New vis E s → src ∈ New → dst ∈ New →
    ∃ s', visit s src dst = .ok (s', false) ∧ I New vis ((src, dst) :: E) s'
  new : ∀ New vis E s src dst, I New vis E s → src ∈ New → dst < N → dst ∉ Old → dst ∉ New →
    ∃ s', visit s src dst = .ok (s', true) ∧ I (New ++ [dst]) (Function.update vis dst (vis src + 1)) ((src, dst) :: E) s'

theorem St.ne {s : Inputs} {N : Nat} {L : List Nat} {vis : Nat → Int} (h : St s N L vis) {e : Nat} (he : e ∈ L) :
    vis e ≠ -1 := by have := h.ge e he; omega

theorem St.put {s s' : Inputs} {N : Nat} {L : List Nat} {vis : Nat → Int} (h : St s N L vis) {src dst : Nat}
    (hs : src ∈ L) (hd : dst ∉ L) (h1 : Seeds s' N (L ++ [dst]))
    (h2 : Arr s'.visited N (Function.update vis dst (vis src + 1))) :
    St s' N (L ++ [dst]) (Function.update vis dst (vis src + 1)) := by
  refine ⟨h1, h2, ?_, ?_⟩
  · intro e he
    by_cases hed : e = dst
    · subst hed; rw [Function.update_self]; have := h.ge src hs; omega
    · rw [Function.update_of_ne hed]
      rcases List.mem_append.mp he with he | he
      · exact h.ge e he
      · rw [List.mem_singleton] at he; exact absurd he hed
  · intro e he hn
    rw [List.mem_append, List.mem_singleton, not_or] at hn
    rw [Function.update_of_ne hn.2]
    exact h.un e he hn.1

/-- `depth_visit` -/
theorem depthVisit_ok (N : Nat) : VisitOk depthVisit N [] (fun New vis _ s => St s N New vis) := by
  refine ⟨fun New vis E s h => by simpa using h, ?_, ?_⟩
  · intro New vis E s src dst h hs hd
    refine ⟨s, ?_, h⟩
    unfold depthVisit
    rw [h.arr.load (h.seeds.lt _ hs), Outcome.bind_ok, h.arr.load (h.seeds.lt _ hd), Outcome.bind_ok, if_neg (h.ne hd)]
    rfl
  · intro New vis E s src dst h hs hd _ hn
    obtain ⟨m, e1, h1⟩ := h.seeds.store hd hn
    obtain ⟨v, e2, h2⟩ := h.arr.store hd (vis src + 1)
    refine ⟨{ s with seeds := m, numSeeds := s.numSeeds + 1, visited := v }, ?_, h.put hs hn (h1 _ rfl rfl) h2⟩
    unfold depthVisit
    rw [h.arr.load (h.seeds.lt _ hs), Outcome.bind_ok, h.arr.load hd, Outcome.bind_ok, if_pos (h.un _ hd hn), e1,
      Outcome.bind_ok, e2, Outcome.bind_ok]
    rfl

end Verif.Part
