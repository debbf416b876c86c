import Verif.Io.VcModel
import Verif.Io.BinGraphProps
import Verif.Part.CutLemmas
/-!
# Lemmas on the migration of edges
-/
namespace Verif.Io
open Verif.Agi

/-! ## the ranks -/

theorem vcRanks_spec (me : Int) {n : Nat} (xs : List Nat) (h : ∀ x ∈ xs, x < n) :
    ∃ R, vcRanks me n (xs.map Int.ofNat) = .ok R ∧ R.length = n ∧
      ∀ i, i < n → R[i]? = some (some (if i ∈ xs then me else -1)) := by
  unfold vcRanks
  rw [List.foldlM_map]
  obtain ⟨R, e, h1, h2⟩ := foldlM_inv (fun (m : Mem Int) (x : Nat) => do
      let i ← toIdx (Int.ofNat x)
      m.store i me)
    (fun done (m : Mem Int) => m.length = n ∧ ∀ i, i < n → m[i]? = some (some (if i ∈ done then me else -1))) xs (by
      intro pre x m hp ⟨h1, h2⟩
      have hx : x < n := h x (hp.subset (by simp))
      refine ⟨m.set x (some me), ?_, by simpa using h1, ?_⟩
      · show (toIdx (x : Int)).bind _ = _
        rw [toIdx_nat]
        exact Mem.store_ok _ (by omega)
      · intro i hi
        rw [List.getElem?_set]
        by_cases hxi : x = i
        · subst hxi
          rw [if_pos rfl, if_pos (by omega), if_pos (by simp)]
        · rw [if_neg hxi, h2 i hi]
          congr 3
          simp [Ne.symm hxi]) (Mem.ofList (List.replicate n (-1))) (by
      refine ⟨by simp [Mem.ofList], ?_⟩
      intro i hi
      simp [Mem.ofList, hi])
  exact ⟨R, e, h1, h2⟩

/-- `me` for the ids of `xs`, something else for the others -/
def ownOf (me : Nat) (xs : List Nat) (x : Nat) : Nat := if x ∈ xs then me else me + 1

/-- two tables that agree on what belongs to `me` -/
def SameFor (me : Int) (R R' : Mem Int) : Prop :=
  ∀ v, (∃ r r', R.load v = .ok r ∧ R'.load v = .ok r' ∧ (r = me ↔ r' = me)) ∨ (R.load v = .ub ∧ R'.load v = .ub)

theorem relabelStep_congr {me : Int} {R R' : Mem Int} (h : SameFor me R R') : relabelStep me R = relabelStep me R' := by
  funext s i
  unfold relabelStep
  cases s.el.load i with
  | ub => rfl
  | fail => rfl
  | ok out =>
    rw [Outcome.bind_ok, Outcome.bind_ok]
    cases toIdx out with
    | ub => rfl
    | fail => rfl
    | ok v =>
      rw [Outcome.bind_ok, Outcome.bind_ok]
      rcases h v with ⟨r, r', e1, e2, hr⟩ | ⟨e1, e2⟩
      · rw [e1, e2, Outcome.bind_ok, Outcome.bind_ok]
        by_cases hm : r = me
        · rw [if_neg (by simpa using hm), if_neg (by simpa using hr.mp hm)]
        · rw [if_pos hm, if_pos (fun hc => hm (hr.mpr hc))]
      · rw [e1, e2]

theorem countLocal_congr {me : Int} {R R' : Mem Int} (h : SameFor me R R') (n : Nat) : countLocal me R n = countLocal me R' n := by
  unfold countLocal
  congr 1
  funext c i
  rcases h i with ⟨r, r', e1, e2, hr⟩ | ⟨e1, e2⟩
  · rw [e1, e2, Outcome.bind_ok, Outcome.bind_ok]
    by_cases hm : r = me
    · rw [if_pos hm, if_pos (hr.mp hm)]
    · rw [if_neg hm, if_neg (fun hc => hm (hr.mpr hc))]
  · rw [e1, e2]

theorem same_ranks (me : Nat) {n : Nat} (xs : List Nat) {R : Mem Int} (hl : R.length = n)
    (h : ∀ i, i < n → R[i]? = some (some (if i ∈ xs then (me : Int) else -1))) :
    SameFor (me : Int) R (Mem.ofList ((List.range n).map (fun i => (ownOf me xs i : Int)))) := by
  intro v
  by_cases hv : v < n
  · left
    refine ⟨_, _, Mem.load_ok (h v hv), rankAt (ownOf me xs) hv, ?_⟩
    unfold ownOf
    by_cases hx : v ∈ xs
    · simp [hx]
    · simp only [hx, if_false]
      omega
  · right
    have key : ∀ m : Mem Int, m.length = n → m.load v = .ub := by
      intro m hm
      unfold Mem.load
      rw [List.getElem?_eq_none (by omega)]
    exact ⟨key R hl, key _ (by simp [Mem.ofList])⟩

/-! ## the new arrays -/

/-- the ids in order of first appearance -/
def vcIds (me : Nat) (F : List (Nat × Nat)) : List Gid := labels (ownOf me (flat F)) me F

/-- the edges in the order of the new numbers: vertex by vertex -/
def vcOrder (me : Nat) (F : List (Nat × Nat)) : List (Nat × Nat) :=
  (List.range (vcIds me F).length).flatMap (fun u => F.filter (fun e => (vcIds me F).idxOf (e.1 : Int) == u))

theorem own_all {me : Nat} {F : List (Nat × Nat)} {x : Nat} (h : x ∈ flat F) : ownOf me (flat F) x = me := by
  unfold ownOf
  rw [if_pos h]

theorem mem_vcIds {me : Nat} {F : List (Nat × Nat)} {z : Int} : z ∈ vcIds me F ↔ ∃ x ∈ flat F, z = (x : Int) := by
  unfold vcIds labels
  rw [mem_firsts]
  constructor
  · rintro ⟨x, hx, -, rfl⟩; exact ⟨x, hx, rfl⟩
  · rintro ⟨x, hx, rfl⟩; exact ⟨x, hx, own_all hx, rfl⟩

theorem nodup_vcIds (me : Nat) (F : List (Nat × Nat)) : (vcIds me F).Nodup := nodup_firsts _ _ _

theorem ids_count (me : Nat) {n : Nat} {F : List (Nat × Nat)} (hF : ∀ e ∈ F, e.1 < n ∧ e.2 < n) :
    (idsOf (ownOf me (flat F)) me n).length = (vcIds me F).length := by
  have hp : (vcIds me F).Perm ((idsOf (ownOf me (flat F)) me n).map Int.ofNat) := by
    refine (List.perm_ext_iff_of_nodup (nodup_vcIds me F) ?_).mpr ?_
    · refine List.Nodup.map ?_ (List.nodup_range.filter _)
      intro a b h; exact Int.ofNat.inj h
    · intro z
      rw [mem_vcIds]
      simp only [idsOf, List.mem_map, List.mem_filter, List.mem_range]
      constructor
      · rintro ⟨x, hx, rfl⟩
        obtain ⟨e, he, h⟩ := mem_flat.mp hx
        have := hF e he
        exact ⟨x, ⟨by rcases h with rfl | rfl <;> omega, by simpa using own_all hx⟩, rfl⟩
      · rintro ⟨x, ⟨-, h2⟩, rfl⟩
        refine ⟨x, ?_, rfl⟩
        by_contra hc
        have h2 : ownOf me (flat F) x = me := by simpa using h2
        unfold ownOf at h2
        rw [if_neg hc] at h2
        omega
  rw [hp.length_eq, List.length_map]

theorem bucket_perm {α : Type} [DecidableEq α] (f : α → Nat) (k : Nat) (F : List α) (hall : ∀ e ∈ F, f e < k) :
    ((List.range k).flatMap (fun u => F.filter (fun e => f e == u))).Perm F := by
  rw [List.perm_iff_count]
  intro x
  rw [List.count_flatMap]
  by_cases hx : x ∈ F
  · have h1 : ∀ u, (List.count x ∘ fun u => F.filter (fun e => f e == u)) u = if f x = u then F.count x else 0 := by
      intro u
      show List.count x (F.filter (fun e => f e == u)) = _
      by_cases hu : f x = u
      · rw [if_pos hu, List.count_filter (by simpa using hu)]
      · rw [if_neg hu, List.count_eq_zero_of_not_mem]
        intro hc
        exact hu (by simpa using (List.mem_filter.mp hc).2)
    rw [List.map_congr_left (fun u _ => h1 u)]
    have hlt := hall x hx
    have : ∀ k, f x < k → ((List.range k).map (fun u => if f x = u then F.count x else 0)).sum = F.count x := by
      intro k
      induction k with
      | zero => intro h; omega
      | succ k ih =>
        intro hk
        rw [List.range_succ, List.map_append, List.sum_append]
        by_cases hlt : f x < k
        · rw [ih hlt]; simp; omega
        · have hz : ((List.range k).map (fun u => if f x = u then F.count x else 0)) = (List.range k).map (fun _ => 0) := by
            apply List.map_congr_left
            intro u hu
            have := List.mem_range.mp hu
            rw [if_neg (by omega)]
          rw [hz]
          simp
          omega
    exact this k hlt
  · rw [List.count_eq_zero_of_not_mem hx]
    apply List.sum_eq_zero
    intro y hy
    obtain ⟨u, -, rfl⟩ := List.mem_map.mp hy
    exact List.count_eq_zero_of_not_mem (fun hc => hx (List.mem_filter.mp hc).1)

theorem order_perm (me : Nat) (F : List (Nat × Nat)) : (vcOrder me F).Perm F := by
  unfold vcOrder
  refine bucket_perm (fun e : Nat × Nat => (vcIds me F).idxOf (e.1 : Int)) _ F ?_
  intro e he
  exact List.idxOf_lt_length_of_mem (mem_vcIds.mpr ⟨e.1, mem_flat.mpr ⟨e, he, Or.inl rfl⟩, rfl⟩)

/-- the new arrays of a part -/
theorem vcBuild_spec (g : Graph) (me : Nat) {n : Nat} (m : Int) {F : List (Nat × Nat)} (hF : ∀ e ∈ F, e.1 < n ∧ e.2 < n)
    (ht : 0 < g.types.length) :
    ∃ g' et, vcBuild g me n m (F.map (fun e => ((e.1 : Int), (e.2 : Int)))) = .ok g' ∧
      g'.numLocal = (vcIds me F).length ∧ g'.numGhost = g.numGhost ∧ g'.isHyper = g.isHyper ∧ g'.self = g.self ∧
      g'.numTypes = (if g.numTypes = 0 then 1 else g.numTypes) ∧ g'.globalVerts = (n : Int) ∧
      g'.localUnmap = Mem.ofList (vcIds me F) ∧ g'.vtxMap = lookup (vcIds me F) ∧
      g'.weights = List.replicate (vcIds me F).length (some 1) ∧ g'.types[0]? = some (some et) ∧
      et.numEdges = F.length ∧ et.globalEdges = m ∧
      (∀ k, k ≤ (vcIds me F).length → et.degreeList[k]? =
        some (some (offs (fun u => (F.filter (fun e => (vcIds me F).idxOf (e.1 : Int) == u)).length) k))) ∧
      et.edgeList = Mem.ofList ((vcOrder me F).map (fun e => (vcIds me F).idxOf (e.2 : Int))) := by
  set L := vcIds me F with hL
  have hxs : ∀ x ∈ flat F, x < n := by
    intro x hx
    obtain ⟨e, he, h⟩ := mem_flat.mp hx
    have := hF e he
    rcases h with rfl | rfl
    · exact this.1
    · exact this.2
  have hids : (F.map (fun e => ((e.1 : Int), (e.2 : Int)))).flatMap (fun e => [e.1, e.2]) = (flat F).map Int.ofNat := by
    exact flat_map Int.ofNat F
  obtain ⟨R, eR, hRl, hR⟩ := vcRanks_spec (me : Int) (flat F) hxs
  have hsame := same_ranks me (flat F) hRl hR
  have hcnt := ids_count me hF
  have hrel := relabel_spec (ownOf me (flat F)) me hxs
  rw [hcnt, show firsts (ownOf me (flat F)) me (flat F) = L from rfl, Nat.sub_self] at hrel
  have hlab : (flat F).map (labOf (ownOf me (flat F)) me L) =
      flat ((F.map (fun e => (L.idxOf (e.1 : Int), ((L.idxOf (e.2 : Int) : Nat) : Int)))).map (fun p => ((p.1 : Int), p.2))) := by
    have hfm := flat_map (fun x : Nat => ((L.idxOf (x : Int) : Nat) : Int)) F
    rw [List.map_map]
    refine Eq.trans ?_ hfm.symm
    apply List.map_congr_left
    intro x hx
    rw [labOf, if_pos (own_all hx)]
  have hmem : ∀ e ∈ F, (e.1 : Int) ∈ L ∧ (e.2 : Int) ∈ L := fun e he =>
    ⟨mem_vcIds.mpr ⟨e.1, mem_flat.mpr ⟨e, he, Or.inl rfl⟩, rfl⟩, mem_vcIds.mpr ⟨e.2, mem_flat.mpr ⟨e, he, Or.inr rfl⟩, rfl⟩⟩
  obtain ⟨deg, hcsr, hdeg⟩ := csrRows_spec L.length (F.map (fun e => (L.idxOf (e.1 : Int), ((L.idxOf (e.2 : Int) : Nat) : Int)))) (by
      intro p hp
      obtain ⟨e, he, rfl⟩ := List.mem_map.mp hp
      exact List.idxOf_lt_length_of_mem (hmem e he).1)
  rw [List.length_map] at hcsr
  have hbk : ∀ u, bkt u (F.map (fun e => (L.idxOf (e.1 : Int), ((L.idxOf (e.2 : Int) : Nat) : Int)))) =
      (F.filter (fun e => L.idxOf (e.1 : Int) == u)).map (fun e => ((L.idxOf (e.2 : Int) : Nat) : Int)) :=
    fun u => bkt_map u F (fun e => L.idxOf (e.1 : Int)) (fun e => ((L.idxOf (e.2 : Int) : Nat) : Int))
  set et := vcEdges ((g.types[0]?).join) F.length m deg (Mem.ofList ((List.range L.length).flatMap (fun u =>
    bkt u (F.map (fun e => (L.idxOf (e.1 : Int), ((L.idxOf (e.2 : Int) : Nat) : Int))))))) with het
  have e : vcBuild g me n m (F.map (fun e => ((e.1 : Int), (e.2 : Int)))) = .ok { g with numTypes := if g.numTypes = 0 then 1 else g.numTypes, globalVerts := n, numLocal := L.length, weights := List.replicate L.length (some 1), localUnmap := Mem.ofList L ++ Mem.alloc 0, vtxMap := lookup L, types := g.types.set 0 (some et) } := by
    unfold vcBuild
    simp only
    rw [hids, eR, Outcome.bind_ok, countLocal_congr hsame, countLocal_eq, Outcome.bind_ok, hcnt, relabelStep_congr hsame,
      List.length_map, show 2 * F.length = (flat F).length by rw [flat_length], hrel, Outcome.bind_ok]
    simp only
    rw [hlab, hcsr, Outcome.bind_ok]
    rfl
  refine ⟨_, et, e, ?_⟩
  · refine ⟨rfl, rfl, rfl, rfl, rfl, rfl, by simp [Mem.alloc], rfl, rfl, by simp [ht], rfl, rfl, ?_, ?_⟩
    · intro k hk
      show deg[k]? = _
      rw [hdeg k hk]
      congr 3
      funext u
      rw [hbk, List.length_map]
    · show (Mem.ofList _).map (Option.map Int.toNat) = _
      simp only [Mem.ofList, List.map_map]
      rw [show ((fun u => bkt u (F.map (fun e => (L.idxOf (e.1 : Int), ((L.idxOf (e.2 : Int) : Nat) : Int)))))) =
        fun u => (F.filter (fun e => L.idxOf (e.1 : Int) == u)).map (fun e => ((L.idxOf (e.2 : Int) : Nat) : Int)) from funext hbk]
      unfold vcOrder
      rw [← hL, List.map_flatMap, List.map_flatMap]
      congr 1
      funext u
      rw [List.map_map]
      rfl

end Verif.Io
