import Verif.Io.BinProps
import Verif.Agi.IterLemmas
import Mathlib.Data.List.Dedup
import Mathlib.Algebra.BigOperators.Group.List.Basic
/-!
# Lemmas on `create_dist_csr`
-/
namespace Verif.Io
open Verif.Agi

section
variable (owner : Nat → Nat) (me : Nat)

/-- the ids of `xs` on rank `me`, in order of first appearance -/
def firsts (xs : List Nat) : List Gid := extend [] ((xs.filter (fun x => owner x == me)).map Int.ofNat)

/-- what the first loop makes of an id -/
def labOf (L : List Gid) (x : Nat) : Int := if owner x = me then (L.idxOf (x : Int) : Int) else (x : Int)

theorem firsts_snoc (xs : List Nat) (x : Nat) : firsts owner me (xs ++ [x]) =
    if owner x = me ∧ (x : Int) ∉ firsts owner me xs then firsts owner me xs ++ [(x : Int)] else firsts owner me xs := by
  unfold firsts
  rw [List.filter_append, List.map_append, extend_append]
  by_cases h : owner x = me
  · rw [List.filter_cons_of_pos (by simpa using h)]
    simp only [h, true_and, List.filter_nil, List.map_cons, List.map_nil]
    by_cases hm : (x : Int) ∈ extend [] ((xs.filter (fun x => owner x == me)).map Int.ofNat)
    · rw [if_neg (by simpa using hm)]
      show (if (x : Int) ∈ _ then _ else _) = _
      rw [if_pos hm]
    · rw [if_pos hm]
      show (if (x : Int) ∈ _ then _ else _) = _
      rw [if_neg hm]
      rfl
  · rw [List.filter_cons_of_neg (by simpa using h), if_neg (by simp [h])]
    rfl

theorem mem_firsts (xs : List Nat) (z : Int) : z ∈ firsts owner me xs ↔ ∃ x ∈ xs, owner x = me ∧ z = (x : Int) := by
  unfold firsts
  rw [mem_extend]
  simp only [List.not_mem_nil, false_or, List.mem_map, List.mem_filter]
  constructor
  · rintro ⟨x, ⟨h1, h2⟩, rfl⟩; exact ⟨x, h1, by simpa using h2, rfl⟩
  · rintro ⟨x, h1, h2, rfl⟩; exact ⟨x, ⟨h1, by simpa using h2⟩, rfl⟩

theorem nodup_firsts (xs : List Nat) : (firsts owner me xs).Nodup := by
  induction xs using List.reverseRecOn with
  | nil => exact List.nodup_nil
  | append_singleton xs x ih =>
    rw [firsts_snoc]
    split
    · rename_i h
      exact List.nodup_append.mpr ⟨ih, by simp, by
        intro a ha b hb
        rw [List.mem_singleton.mp hb]
        exact fun e => h.2 (e ▸ ha)⟩
    · exact ih

theorem firsts_prefix (xs ys : List Nat) : firsts owner me xs <+: firsts owner me (xs ++ ys) := by
  unfold firsts
  rw [List.filter_append, List.map_append, extend_append]
  exact extend_prefix _ _

/-- the vertices of rank `me` -/
def idsOf (n : Nat) : List Nat := (List.range n).filter (fun i => owner i == me)

theorem firsts_length_le {n : Nat} {xs : List Nat} (h : ∀ x ∈ xs, x < n) :
    (firsts owner me xs).length ≤ (idsOf owner me n).length := by
  have hs : firsts owner me xs ⊆ (idsOf owner me n).map Int.ofNat := by
    intro z hz
    obtain ⟨x, hx, ho, rfl⟩ := (mem_firsts owner me xs z).mp hz
    exact List.mem_map.mpr ⟨x, by simp [idsOf, ho, h x hx], rfl⟩
  have := (List.subperm_of_subset (nodup_firsts owner me xs) hs).length_le
  simpa using this

theorem idxOf_prefix {a b : List Gid} (h : a <+: b) {z : Gid} (hz : z ∈ a) : b.idxOf z = a.idxOf z := by
  obtain ⟨c, rfl⟩ := h
  rw [List.idxOf_append, if_pos hz]

theorem labOf_prefix {a b : List Gid} (h : a <+: b) {x : Nat} (hz : owner x = me → (x : Int) ∈ a) :
    labOf owner me b x = labOf owner me a x := by
  unfold labOf
  by_cases hx : owner x = me
  · rw [if_pos hx, if_pos hx, idxOf_prefix h (hz hx)]
  · rw [if_neg hx, if_neg hx]

theorem set_mid {α : Type} (A B : List α) (x y : α) : (A ++ x :: B).set A.length y = A ++ y :: B := by
  rw [List.set_append_right _ _ (Nat.le_refl _)]; simp

theorem rankAt {n : Nat} {x : Nat} (hx : x < n) :
    (Mem.ofList ((List.range n).map (fun i => (owner i : Int)))).load x = .ok (owner x : Int) := by
  apply Mem.load_ok
  rw [Mem.ofList, List.getElem?_map, getElem?_range_map _ _ hx]; rfl

/-- the first loop -/
theorem relabel_spec {n : Nat} {xs : List Nat} (hx : ∀ x ∈ xs, x < n) :
    (List.range xs.length).foldlM (relabelStep (me : Int) (Mem.ofList ((List.range n).map (fun i => (owner i : Int)))))
      ⟨Mem.ofList (xs.map Int.ofNat), GMap.empty, Mem.alloc (idsOf owner me n).length, 0⟩ =
    .ok ⟨Mem.ofList (xs.map (labOf owner me (firsts owner me xs))), lookup (firsts owner me xs),
      Mem.ofList (firsts owner me xs) ++ Mem.alloc ((idsOf owner me n).length - (firsts owner me xs).length),
      (firsts owner me xs).length⟩ := by
  set nl := (idsOf owner me n).length
  set ranks : Mem Int := Mem.ofList ((List.range n).map (fun i => (owner i : Int)))
  obtain ⟨s, e, hs⟩ := rangeM_inv (relabelStep (me : Int) ranks)
    (fun k s => s = (⟨Mem.ofList ((xs.take k).map (labOf owner me (firsts owner me (xs.take k))) ++ (xs.drop k).map Int.ofNat),
      lookup (firsts owner me (xs.take k)),
      Mem.ofList (firsts owner me (xs.take k)) ++ Mem.alloc (nl - (firsts owner me (xs.take k)).length),
      (firsts owner me (xs.take k)).length⟩ : Relabel)) xs.length (by
      intro k s hk hs
      have hdrop : xs.drop k = xs[k] :: xs.drop (k + 1) := List.drop_eq_getElem_cons hk
      have htake : xs.take (k + 1) = xs.take k ++ [xs[k]] := by
        rw [List.take_add_one, List.getElem?_eq_getElem hk]; rfl
      have hle : (firsts owner me (xs.take (k + 1))).length ≤ nl :=
        firsts_length_le owner me (fun x hm => hx x (List.mem_of_mem_take hm))
      have hstab : (xs.take k).map (labOf owner me (firsts owner me (xs.take (k + 1)))) =
          (xs.take k).map (labOf owner me (firsts owner me (xs.take k))) := by
        apply List.map_congr_left
        intro x hm
        apply labOf_prefix
        · rw [htake]; exact firsts_prefix owner me _ _
        · intro ho; exact (mem_firsts owner me _ _).mpr ⟨x, hm, ho, rfl⟩
      have hx0 := hx xs[k] (List.getElem_mem hk)
      set x := xs[k]
      set Lk := firsts owner me (xs.take k)
      set A : List Int := (xs.take k).map (labOf owner me Lk) with hA
      have hAl : A.length = k := by simp [hA]; omega
      have hload : (Mem.ofList (A ++ (xs.drop k).map Int.ofNat)).load k = .ok (x : Int) := by
        apply Mem.load_ok
        rw [hdrop, Mem.ofList, List.getElem?_map, List.getElem?_append_right (by omega), hAl]
        simp
      have hstore : ∀ y : Int, (Mem.ofList (A ++ (xs.drop k).map Int.ofNat)).store k y =
          .ok (Mem.ofList (A ++ y :: (xs.drop (k + 1)).map Int.ofNat)) := by
        intro y
        rw [Mem.store_ok _ (by simp [Mem.ofList, hAl]; omega)]
        congr 1
        rw [hdrop]
        simp only [Mem.ofList, List.map_append, List.map_cons]
        have := set_mid (A.map some) (((xs.drop (k + 1)).map Int.ofNat).map some) (some (Int.ofNat x)) (some y)
        rw [List.length_map, hAl] at this
        exact this
      have hfin : ∀ L', firsts owner me (xs.take (k + 1)) = L' →
          Mem.ofList (A ++ labOf owner me L' x :: (xs.drop (k + 1)).map Int.ofNat) =
          Mem.ofList ((xs.take (k + 1)).map (labOf owner me (firsts owner me (xs.take (k + 1)))) ++ (xs.drop (k + 1)).map Int.ofNat) := by
        intro L' hL'
        rw [htake, List.map_append, ← htake, hstab, hL']
        simp [hA]
      unfold relabelStep
      rw [hs]
      simp only
      rw [hload, Outcome.bind_ok, toIdx_nat, Outcome.bind_ok, rankAt owner hx0, Outcome.bind_ok]
      by_cases ho : owner x = me
      · rw [if_neg (by rw [ho]; simp)]
        by_cases hm : (x : Int) ∈ Lk
        · have hL' : firsts owner me (xs.take (k + 1)) = Lk := by
            rw [htake, firsts_snoc, if_neg (by simpa [ho] using hm)]
          rw [lookup_of_mem hm]
          simp only
          rw [hstore, Outcome.bind_ok]
          refine ⟨_, rfl, ?_⟩
          have h := hfin Lk hL'
          rw [labOf, if_pos ho] at h
          rw [h, hL']
        · have hL' : firsts owner me (xs.take (k + 1)) = Lk ++ [(x : Int)] := by
            rw [htake, firsts_snoc, if_pos ⟨ho, hm⟩]
          rw [hL', List.length_append, List.length_singleton] at hle
          rw [lookup_of_not_mem hm]
          simp only
          rw [show nl - Lk.length = (nl - (Lk.length + 1)) + 1 by omega, store_next, Outcome.bind_ok, hstore, Outcome.bind_ok]
          refine ⟨_, rfl, ?_⟩
          have h := hfin (Lk ++ [(x : Int)]) hL'
          rw [labOf, if_pos ho] at h
          rw [show ((Lk ++ [(x : Int)]).idxOf (x : Int)) = Lk.length by simp [List.idxOf_append, hm]] at h
          rw [h, hL', lookup_snoc hm, List.length_append, List.length_singleton]
      · rw [if_pos (by omega)]
        refine ⟨_, rfl, ?_⟩
        have hL' : firsts owner me (xs.take (k + 1)) = Lk := by
          rw [htake, firsts_snoc, if_neg (by simp [ho])]
        have h := hfin Lk hL'
        rw [labOf, if_neg ho] at h
        rw [← h, hL', hdrop]
        rfl) ⟨Mem.ofList (xs.map Int.ofNat), GMap.empty, Mem.alloc nl, 0⟩ (by
          simp [firsts, extend, Mem.ofList]
          funext z; simp [lookup, GMap.empty])
  rw [e, hs, List.take_length, List.drop_length]
  simp

/-! ## rows -/

theorem sum_range_indicator (n k : Nat) (h : k < n) : ((List.range n).map (fun u => if k = u then 1 else 0)).sum = 1 := by
  induction n with
  | zero => omega
  | succ n ih =>
    rw [List.range_succ, List.map_append, List.sum_append]
    by_cases hk : k < n
    · rw [ih hk]; simp; omega
    · have hkn : k = n := by omega
      subst hkn
      have h0 : ((List.range k).map (fun u => if k = u then 1 else 0)) = (List.range k).map (fun _ => 0) := by
        apply List.map_congr_left
        intro u hu
        have := List.mem_range.mp hu
        rw [if_neg (by omega)]
      rw [h0]; simp

theorem bkt_total {α : Type} (n : Nat) (items : List (Nat × α)) (h : ∀ p ∈ items, p.1 < n) :
    offs (fun u => (bkt u items).length) n = items.length := by
  induction items with
  | nil =>
    unfold offs
    simp [bkt]
  | cons p items ih =>
    have hc : ∀ u, (bkt u (p :: items)).length = (bkt u items).length + if p.1 = u then 1 else 0 := by
      intro u
      rw [show p :: items = [p] ++ items from rfl, bkt_append, List.length_append]
      by_cases hu : p.1 = u
      · rw [if_pos hu, show p = (p.1, p.2) from rfl, hu, bkt_one_self]; simp; omega
      · rw [if_neg hu, show p = (p.1, p.2) from rfl, bkt_one_ne _ hu]; simp
    have hf : (fun u => (bkt u (p :: items)).length) = fun u => (bkt u items).length + if p.1 = u then 1 else 0 :=
      funext hc
    have ih' := ih (fun q hq => h q (by simp [hq]))
    unfold offs at ih' ⊢
    rw [hf, List.sum_map_add, ih', sum_range_indicator n p.1 (h p (by simp)), List.length_cons]

theorem blocks_list {α : Type} (B : Nat → List α) : ∀ (n : Nat) (m : List α), m.length = offs (fun u => (B u).length) n →
    (∀ u, u < n → ∀ k (h : k < (B u).length), m[offs (fun u => (B u).length) u + k]? = some (B u)[k]) →
    m = (List.range n).flatMap B
  | 0, m, hl, _ => by
    rw [offs_zero] at hl
    rw [List.eq_nil_of_length_eq_zero hl]; rfl
  | n + 1, m, hl, h => by
    rw [offs_succ] at hl
    have ih := blocks_list B n (m.take (offs (fun u => (B u).length) n)) (by rw [List.length_take]; omega) (by
      intro u hu k hk
      have h1 := offs_succ (fun u => (B u).length) u
      have h2 := offs_mono (fun u => (B u).length) (show u + 1 ≤ n by omega)
      rw [List.getElem?_take_of_lt (by omega)]
      exact h u (by omega) k hk)
    rw [List.range_succ, List.flatMap_append, ← ih, List.flatMap_singleton]
    have : m.drop (offs (fun u => (B u).length) n) = B n := by
      apply List.ext_getElem?
      intro k
      rw [List.getElem?_drop]
      by_cases hk : k < (B n).length
      · rw [h n (by omega) k hk, List.getElem?_eq_getElem hk]
      · rw [List.getElem?_eq_none (by omega), List.getElem?_eq_none (by omega)]
    conv_lhs => rw [← List.take_append_drop (offs (fun u => (B u).length) n) m, this]

theorem csrRows_spec (nl : Nat) (F : List (Nat × Int)) (h : ∀ p ∈ F, p.1 < nl) :
    ∃ deg, csrRows nl F.length (Mem.ofList (flat (F.map (fun p => ((p.1 : Int), p.2))))) =
        .ok (deg, Mem.ofList ((List.range nl).flatMap (fun u => bkt u F))) ∧
      ∀ k, k ≤ nl → deg[k]? = some (some (offs (fun u => (bkt u F).length) k)) := by
  set el : Mem Int := Mem.ofList (flat (F.map (fun p => ((p.1 : Int), p.2)))) with hel
  have hload : ∀ k (hk : k < F.length), el.load (2 * k) = .ok (F[k].1 : Int) ∧ el.load (2 * k + 1) = .ok F[k].2 := by
    intro k hk
    have h := flat_get (F.map (fun p => ((p.1 : Int), p.2))) k (by simpa using hk)
    rw [List.getElem_map] at h
    constructor
    · apply Mem.load_ok; rw [hel, Mem.ofList, List.getElem?_map, h.1]; rfl
    · apply Mem.load_ok; rw [hel, Mem.ofList, List.getElem?_map, h.2]; rfl
  obtain ⟨temp, e1, hl1, hc1⟩ := count_loop nl 1 (F.map (·.1)) (by
    intro t ht
    obtain ⟨p, hp, rfl⟩ := List.mem_map.mp ht
    exact h p hp)
  rw [List.foldlM_map] at e1
  have hcnt : ∀ u, 1 * (F.map (·.1)).count u = (bkt u F).length := by
    intro u
    rw [Nat.one_mul, List.count_eq_countP, List.countP_map, List.countP_eq_length_filter]
    simp [bkt]; rfl
  obtain ⟨deg, e2, hl2, hd⟩ := displ_loop (fun u => (bkt u F).length) temp nl (fun k hk => by rw [hc1 k hk, hcnt])
  obtain ⟨s, e3, hl3, hb⟩ := put_loop nl F h (deg.take nl) (Mem.alloc F.length) (by rw [List.length_take, hl2]; omega)
    (fun u hu => by rw [List.getElem?_take_of_lt hu, hd u (by omega)]) (by rw [bkt_total nl F h]; simp)
  refine ⟨deg, ?_, hd⟩
  unfold csrRows
  have f1 := foldlM_range_get (f := fun (m : Mem Nat) k => do
    let x ← el.load (2 * k)
    let l ← toIdx x
    incr m l 1) (h := fun m (p : Nat × Int) => incr m p.1 1) F (by
      intro m k hk
      rw [(hload k hk).1, Outcome.bind_ok, toIdx_nat, Outcome.bind_ok]) (List.replicate nl (some 0))
  rw [f1, e1, Outcome.bind_ok, e2, Outcome.bind_ok]
  have f2 := foldlM_range_get (f := fun (s : Mem Nat × Mem Int) k => do
    let x ← el.load (2 * k)
    let l ← toIdx x
    let y ← el.load (2 * k + 1)
    cursorPut s l y) (h := fun s (p : Nat × Int) => cursorPut s p.1 p.2) F (by
      intro m k hk
      rw [(hload k hk).1, Outcome.bind_ok, toIdx_nat, Outcome.bind_ok, (hload k hk).2, Outcome.bind_ok])
      (deg.take nl, Mem.alloc F.length)
  rw [f2, e3, Outcome.bind_ok]
  congr 2
  have := blocks_list (fun u => (bkt u F).map some) nl s.2 (by
    simp only [List.length_map]
    rw [hl3, bkt_total nl F h]; simp) (by
    intro u hu k hk
    simp only [List.length_map] at hk ⊢
    rw [hb u hu k hk, List.getElem_map])
  rw [this]
  simp only [Mem.ofList]
  rw [List.map_flatMap]

/-! ## ghosts -/

/-- the loop over the ghosts always ends; it only takes numbers of the list as ids -/
theorem ghost_total (nl : Nat) (E : List Int) (map : GMap Nat) :
    ∃ s, (List.range E.length).foldlM (ghostStep nl) ⟨Mem.ofList E, map, nl, []⟩ = .ok s ∧ s.edges.length = E.length ∧
      ∀ z ∈ s.ids, z ∈ E := by
  obtain ⟨s, e, h1, -, h3⟩ := rangeM_inv (ghostStep nl)
    (fun k s => s.edges.length = E.length ∧ (∀ j, k ≤ j → s.edges[j]? = (Mem.ofList E)[j]?) ∧ ∀ z ∈ s.ids, z ∈ E) E.length (by
      intro k s hk ⟨h1, h2, h3⟩
      unfold ghostStep
      have hl : s.edges.load k = .ok E[k] := by
        apply Mem.load_ok
        rw [h2 k (Nat.le_refl _)]
        simp [Mem.ofList, hk]
      rw [hl, Outcome.bind_ok]
      cases hm : s.map E[k] with
      | none =>
        simp only
        rw [Mem.store_ok _ (by omega), Outcome.bind_ok]
        refine ⟨_, rfl, by simpa using h1, ?_, ?_⟩
        · intro j hj
          simp only
          rw [List.getElem?_set, if_neg (by omega)]
          exact h2 j (by omega)
        · intro z hz
          rcases List.mem_append.mp hz with hz | hz
          · exact h3 z hz
          · rw [List.mem_singleton.mp hz]; exact List.getElem_mem hk
      | some l =>
        simp only
        by_cases hle : nl ≤ l
        · rw [if_pos hle, Mem.store_ok _ (by omega), Outcome.bind_ok]
          refine ⟨_, rfl, by simpa using h1, ?_, h3⟩
          intro j hj
          simp only
          rw [List.getElem?_set, if_neg (by omega)]
          exact h2 j (by omega)
        · rw [if_neg hle]
          exact ⟨_, rfl, h1, fun j hj => h2 j (by omega), h3⟩) ⟨Mem.ofList E, map, nl, []⟩
    ⟨by simp [Mem.ofList], fun j _ => rfl, by simp⟩
  exact ⟨s, e, h1, h3⟩

/-- the loop over the ghosts, when the label of every local destination is also the id of a vertex of the part -/
theorem ghost_spec (L : List Gid) (hL : ∀ z ∈ L, ∃ x : Nat, z = (x : Int) ∧ owner x = me) (D : List Nat)
    (hD : ∀ d ∈ D, owner d = me → (d : Int) ∈ L)
    (hgood : ∀ d ∈ D, owner d = me → ((L.idxOf (d : Int) : Nat) : Int) ∈ L) :
    ∃ G, (List.range D.length).foldlM (ghostStep L.length) ⟨Mem.ofList (D.map (labOf owner me L)), lookup L, L.length, []⟩ =
        .ok ⟨Mem.ofList (D.map (fun d : Nat => (((L ++ G).idxOf (d : Int) : Nat) : Int))), lookup (L ++ G), L.length + G.length, G⟩ ∧
      (∀ z, z ∈ G ↔ ∃ d ∈ D, owner d ≠ me ∧ z = (d : Int)) ∧ G.Nodup := by
  have key : ∃ s, (List.range D.length).foldlM (ghostStep L.length)
      ⟨Mem.ofList (D.map (labOf owner me L)), lookup L, L.length, []⟩ = .ok s ∧
      ∃ G, s = (⟨Mem.ofList ((D.take D.length).map (fun d : Nat => (((L ++ G).idxOf (d : Int) : Nat) : Int)) ++
          (D.drop D.length).map (labOf owner me L)), lookup (L ++ G), L.length + G.length, G⟩ : GhostScan) ∧
        (∀ z, z ∈ G ↔ ∃ d ∈ D.take D.length, owner d ≠ me ∧ z = (d : Int)) ∧ G.Nodup := by
    refine rangeM_inv (ghostStep L.length) (fun k s => ∃ G, s = (⟨Mem.ofList ((D.take k).map
        (fun d : Nat => (((L ++ G).idxOf (d : Int) : Nat) : Int)) ++
          (D.drop k).map (labOf owner me L)), lookup (L ++ G), L.length + G.length, G⟩ : GhostScan) ∧
        (∀ z, z ∈ G ↔ ∃ d ∈ D.take k, owner d ≠ me ∧ z = (d : Int)) ∧ G.Nodup) D.length ?_ _ ?_
    · intro k s hk ⟨G, hs, hG, hnd⟩
      have hdrop : D.drop k = D[k] :: D.drop (k + 1) := List.drop_eq_getElem_cons hk
      have htake : D.take (k + 1) = D.take k ++ [D[k]] := by
        rw [List.take_add_one, List.getElem?_eq_getElem hk]; rfl
      have hdm : D[k] ∈ D := List.getElem_mem hk
      set d := D[k]
      set A : List Int := (D.take k).map (fun d : Nat => (((L ++ G).idxOf (d : Int) : Nat) : Int)) with hA
      have hAl : A.length = k := by simp [hA]; omega
      have hload : (Mem.ofList (A ++ (D.drop k).map (labOf owner me L))).load k = .ok (labOf owner me L d) := by
        apply Mem.load_ok
        rw [hdrop, Mem.ofList, List.getElem?_map, List.getElem?_append_right (by omega), hAl]
        simp
      have hstore : ∀ y : Int, (Mem.ofList (A ++ (D.drop k).map (labOf owner me L))).store k y =
          .ok (Mem.ofList (A ++ y :: (D.drop (k + 1)).map (labOf owner me L))) := by
        intro y
        rw [Mem.store_ok _ (by simp [Mem.ofList, hAl]; omega)]
        congr 1
        rw [hdrop]
        simp only [Mem.ofList, List.map_append, List.map_cons]
        have := set_mid (A.map some) (((D.drop (k + 1)).map (labOf owner me L)).map some) (some (labOf owner me L d)) (some y)
        rw [List.length_map, hAl] at this
        exact this
      unfold ghostStep
      rw [hs]
      simp only
      rw [hload, Outcome.bind_ok]
      by_cases ho : owner d = me
      · -- a local destination: its label is also the id of a vertex, so nothing happens
        have hz := hgood d hdm ho
        have hdL := hD d hdm ho
        have hlab : labOf owner me L d = ((L.idxOf (d : Int) : Nat) : Int) := by rw [labOf, if_pos ho]
        rw [hlab, lookup_of_mem (List.mem_append_left _ hz)]
        simp only
        have hlt : (L ++ G).idxOf ((L.idxOf (d : Int) : Nat) : Int) < L.length := by
          rw [List.idxOf_append, if_pos hz]; exact List.idxOf_lt_length_of_mem hz
        rw [if_neg (by omega)]
        refine ⟨_, rfl, G, ?_, ?_, hnd⟩
        · congr 2
          rw [htake, List.map_append, hdrop, List.map_cons, hlab, List.append_assoc]
          simp only [List.map_cons, List.map_nil, List.singleton_append]
          rw [List.idxOf_append, if_pos hdL]
        · intro z
          rw [hG, htake]
          constructor
          · rintro ⟨x, h1, h2, h3⟩; exact ⟨x, List.mem_append_left _ h1, h2, h3⟩
          · rintro ⟨x, h1, h2, h3⟩
            rcases List.mem_append.mp h1 with h1 | h1
            · exact ⟨x, h1, h2, h3⟩
            · rw [List.mem_singleton.mp h1] at h2; exact absurd ho h2
      · have hlab : labOf owner me L d = (d : Int) := by rw [labOf, if_neg ho]
        have hdL : (d : Int) ∉ L := by
          intro hm
          obtain ⟨x, hx, hox⟩ := hL _ hm
          have : d = x := by exact_mod_cast hx
          rw [this] at ho; exact ho hox
        rw [hlab]
        by_cases hm : (d : Int) ∈ G
        · rw [lookup_of_mem (List.mem_append_right _ hm)]
          simp only
          have hge : L.length ≤ (L ++ G).idxOf (d : Int) := by
            rw [List.idxOf_append, if_neg hdL]; omega
          rw [if_pos hge, hstore, Outcome.bind_ok]
          refine ⟨_, rfl, G, ?_, ?_, hnd⟩
          · congr 2
            rw [htake, List.map_append, List.append_assoc]
            rfl
          · intro z
            rw [hG, htake]
            constructor
            · rintro ⟨x, h1, h2, h3⟩; exact ⟨x, List.mem_append_left _ h1, h2, h3⟩
            · rintro ⟨x, h1, h2, h3⟩
              rcases List.mem_append.mp h1 with h1 | h1
              · exact ⟨x, h1, h2, h3⟩
              · rw [List.mem_singleton.mp h1] at h3; rw [h3]; exact (hG _).mp hm
        · have hnm : (d : Int) ∉ L ++ G := by simp [hdL, hm]
          rw [lookup_of_not_mem hnm]
          simp only
          rw [hstore, Outcome.bind_ok]
          refine ⟨_, rfl, G ++ [(d : Int)], ?_, ?_, ?_⟩
          · have hput := lookup_snoc hnm
            rw [List.length_append] at hput
            rw [hput]
            congr 1
            · congr 1
              rw [htake, List.map_append, List.append_assoc, ← List.append_assoc L G]
              have hst : (D.take k).map (fun x : Nat => (((L ++ G ++ [(d : Int)]).idxOf (x : Int) : Nat) : Int)) = A := by
                rw [hA]
                apply List.map_congr_left
                intro x hx
                rw [idxOf_prefix (List.prefix_append (L ++ G) [(d : Int)])]
                by_cases hox : owner x = me
                · exact List.mem_append_left _ (hD x (List.mem_of_mem_take hx) hox)
                · exact List.mem_append_right _ ((hG _).mpr ⟨x, hx, hox, rfl⟩)
              rw [hst]
              simp only [List.map_cons, List.map_nil, List.singleton_append]
              rw [List.idxOf_append, if_neg hnm]
              simp
            · rw [List.append_assoc]
            · simp; omega
          · intro z
            rw [List.mem_append, hG, htake, List.mem_singleton]
            constructor
            · rintro (⟨x, h1, h2, h3⟩ | rfl)
              · exact ⟨x, List.mem_append_left _ h1, h2, h3⟩
              · exact ⟨d, by simp, ho, rfl⟩
            · rintro ⟨x, h1, h2, h3⟩
              rcases List.mem_append.mp h1 with h1 | h1
              · exact Or.inl ⟨x, h1, h2, h3⟩
              · rw [List.mem_singleton.mp h1] at h3; exact Or.inr h3
          · exact List.nodup_append.mpr ⟨hnd, by simp, by
              intro a ha b hb
              rw [List.mem_singleton.mp hb]
              exact fun e => hm (e ▸ ha)⟩
    · exact ⟨[], by simp, by simp, List.nodup_nil⟩
  obtain ⟨s, e, G, hs, hG, hnd⟩ := key
  refine ⟨G, ?_, ?_, hnd⟩
  · rw [e, hs]; simp
  · simpa using hG

end

end Verif.Io
