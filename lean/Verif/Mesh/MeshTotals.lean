import Verif.Mesh.MeshViews
import Mathlib.Data.List.Nodup
import Mathlib.Data.List.Perm.Subperm
import Mathlib.Algebra.BigOperators.Group.List.Basic
/-!
# Counting over the whole mesh
-/
namespace Verif.Mesh
open Verif.Agi

section
variable {ms : List MeshPart} {T : Nat} {own : Gid → Nat}

theorem sum_parts (ms : List MeshPart) (f : MeshPart → Int) :
    (ms.map f).sum = ((List.range ms.length).map (fun p => f (part ms p))).sum := by
  conv => lhs; rw [show ms = (List.range ms.length).map (part ms) from list_range ms ⟨[], []⟩]
  rw [List.map_map]
  rfl

theorem cast_sum (l : List Nat) : ((l.sum : Nat) : Int) = (l.map (fun k : Nat => (k : Int))).sum := by
  induction l with
  | nil => rfl
  | cons a l ih => rw [List.sum_cons, List.map_cons, List.sum_cons, ← ih]; omega

/-- every entity is counted by one part -/
theorem edges_total (h : MeshOk ms T own) {t : Nat} (ht : t < T) :
    (ms.map (fun m => (m.ownedEnts t : Int))).sum = ((allEnts ms t).length : Int) := by
  have hperm : ((List.range ms.length).flatMap (fun p => (((part ms p).entsOf t).filter (fun x => x.owned)).map Ent.gid)).Perm
      (allEnts ms t) := by
    rw [List.perm_ext_iff_of_nodup]
    · intro e
      unfold allEnts
      rw [List.mem_dedup, List.mem_flatMap, List.mem_flatMap]
      constructor
      · rintro ⟨p, hp, he⟩
        obtain ⟨x, hx, rfl⟩ := List.mem_map.mp he
        exact ⟨p, hp, List.mem_map.mpr ⟨x, (List.mem_filter.mp hx).1, rfl⟩⟩
      · rintro ⟨p, hp, he⟩
        obtain ⟨x, hx, rfl⟩ := List.mem_map.mp he
        obtain ⟨q, ⟨hq, y, hy, hye, hyo⟩, -⟩ := h.one_owned p (List.mem_range.mp hp) t ht x hx
        exact ⟨q, List.mem_range.mpr hq, List.mem_map.mpr ⟨y, List.mem_filter.mpr ⟨hy, hyo⟩, hye⟩⟩
    · rw [List.nodup_flatMap]
      refine ⟨fun p hp => ?_, ?_⟩
      · exact List.Nodup.sublist ((List.filter_sublist).map _) ((h.ents p (List.mem_range.mp hp)).2 t ht)
      · refine List.Pairwise.imp_of_mem ?_ (List.nodup_range (n := ms.length))
        intro p q hp hq hne
        simp only [Function.onFun, List.disjoint_left]
        intro e he1 he2
        obtain ⟨x, hx, hxe⟩ := List.mem_map.mp he1
        obtain ⟨y, hy, hye⟩ := List.mem_map.mp he2
        rw [List.mem_filter] at hx hy
        obtain ⟨r, -, huniq⟩ := h.one_owned p (List.mem_range.mp hp) t ht x hx.1
        have h1 := huniq p (List.mem_range.mp hp) ⟨x, hx.1, rfl, hx.2⟩
        have h2 := huniq q (List.mem_range.mp hq) ⟨y, hy.1, hye.trans hxe.symm, hy.2⟩
        exact hne (h1.trans h2.symm)
    · exact List.nodup_dedup _
  rw [← hperm.length_eq, List.length_flatMap, cast_sum, List.map_map, sum_parts]
  congr 1
  apply List.map_congr_left
  intro p _
  simp [MeshPart.ownedEnts, MeshPart.entsOf]

theorem sum_zero {l : List Nat} (h : ∀ x ∈ l, x = 0) : l.sum = 0 := by
  induction l with
  | nil => rfl
  | cons a l ih => rw [List.sum_cons, h a (by simp), ih (fun x hx => h x (by simp [hx]))]

/-! ## pins -/

theorem mine_nodup {x : Ent} (h : (x.adj.map Prod.fst).Nodup) : x.mine.Nodup :=
  List.Nodup.sublist ((List.filter_sublist).map _) h

theorem gid_inj {α : Type} {f : α → Gid} {l : List α} (h : (l.map f).Nodup) {x y : α} (hx : x ∈ l) (hy : y ∈ l) (e : f x = f y) : x = y :=
  List.inj_on_of_nodup_map h hx hy e

/-- the pairs of edge and vertex, counted from the vertices and from the edges -/
theorem adj_pins (h : MeshOk ms T own) {p t : Nat} (hp : p < ms.length) (ht : t < T) :
    (adjN t (part ms p)).flatten.length = (ownPins ((part ms p).entsOf t)).length := by
  have hperm : ((ownedL (part ms p).elms).flatMap (fun y => (y.down.getD t []).map (fun e => (e, y.gid)))).Perm
      (ownPins ((part ms p).entsOf t)) := by
    rw [List.perm_ext_iff_of_nodup]
    · rintro ⟨e, v⟩
      unfold ownPins ownedL
      rw [List.mem_flatMap, List.mem_flatMap]
      constructor
      · rintro ⟨y, hy, hev⟩
        rw [List.mem_filter] at hy
        obtain ⟨e', he', heq⟩ := List.mem_map.mp hev
        rw [Prod.mk.injEq] at heq
        obtain ⟨rfl, rfl⟩ := heq
        obtain ⟨x, hx, hxe, hadj⟩ := (((h.down p hp y hy.1 hy.2).2 t ht).2 e').mp he'
        refine ⟨x, hx, List.mem_map.mpr ⟨y.gid, ?_, by rw [hxe]⟩⟩
        rw [mem_mine]
        obtain ⟨a, ha, hay⟩ := List.mem_map.mp hadj
        obtain ⟨y', hy', e1, e2⟩ := (h.adj p hp t ht x hx).2 a ha
        have : y' = y := gid_inj (h.elms p hp).1 hy' hy.1 (e1.trans hay)
        have hb : a.2 = true := by rw [← e2, this]; exact hy.2
        rw [← hay, ← hb]; exact ha
      · rintro ⟨x, hx, hev⟩
        obtain ⟨v', hv', heq⟩ := List.mem_map.mp hev
        rw [Prod.mk.injEq] at heq
        obtain ⟨rfl, rfl⟩ := heq
        have hv'' := mem_mine.mp hv'
        obtain ⟨y, hy, e1, e2⟩ := (h.adj p hp t ht x hx).2 _ hv''
        simp only at e1 e2
        refine ⟨y, List.mem_filter.mpr ⟨hy, e2⟩, List.mem_map.mpr ⟨x.gid, ?_, by rw [e1]⟩⟩
        exact (((h.down p hp y hy e2).2 t ht).2 x.gid).mpr ⟨x, hx, rfl, by rw [e1]; exact List.mem_map.mpr ⟨_, hv'', rfl⟩⟩
    · rw [List.nodup_flatMap]
      refine ⟨fun y hy => ?_, ?_⟩
      · unfold ownedL at hy
        rw [List.mem_filter] at hy
        exact List.Nodup.map (fun a b hab => (Prod.mk.inj hab).1) ((h.down p hp y hy.1 hy.2).2 t ht).1
      · have hnd := verts_nodup h hp
        rw [verts_eq, List.Nodup, List.pairwise_map] at hnd
        refine hnd.imp ?_
        intro a b hab
        simp only [Function.onFun, List.disjoint_left]
        intro z hz1 hz2
        obtain ⟨e1, -, rfl⟩ := List.mem_map.mp hz1
        obtain ⟨e2, -, he⟩ := List.mem_map.mp hz2
        rw [Prod.mk.injEq] at he
        exact hab he.2.symm
    · unfold ownPins
      rw [List.nodup_flatMap]
      refine ⟨fun x hx => ?_, ?_⟩
      · exact List.Nodup.map (fun a b hab => (Prod.mk.inj hab).2) (mine_nodup (h.adj p hp t ht x hx).1)
      · have hnd := (h.ents p hp).2 t ht
        rw [List.Nodup, List.pairwise_map] at hnd
        refine hnd.imp ?_
        intro a b hab
        simp only [Function.onFun, List.disjoint_left]
        intro z hz1 hz2
        obtain ⟨e1, -, rfl⟩ := List.mem_map.mp hz1
        obtain ⟨e2, -, he⟩ := List.mem_map.mp hz2
        rw [Prod.mk.injEq] at he
        exact hab he.1.symm
  rw [← hperm.length_eq, List.length_flatMap, List.length_flatten]
  unfold adjN
  rw [List.map_map]
  congr 1
  apply List.map_congr_left
  intro y _
  simp

theorem sum_indicator {E : List Gid} (hE : E.Nodup) {a : Gid} (ha : a ∈ E) :
    (E.map (fun e => if a = e then 1 else 0)).sum = 1 := by
  induction E with
  | nil => simp at ha
  | cons b E ih =>
    rw [List.nodup_cons] at hE
    rw [List.map_cons, List.sum_cons]
    rcases List.mem_cons.mp ha with rfl | h
    · rw [if_pos rfl]
      have : (E.map (fun e => if a = e then 1 else 0)).sum = 0 := by
        apply sum_zero
        intro x hx
        obtain ⟨e, he, rfl⟩ := List.mem_map.mp hx
        rw [if_neg]
        rintro rfl
        exact hE.1 he
      omega
    · rw [if_neg (by rintro rfl; exact hE.1 h), ih hE.2 h]

theorem sum_pinsOf {E : List Gid} (hE : E.Nodup) (L : List (Gid × Gid)) (hL : ∀ m ∈ L, m.1 ∈ E) :
    (E.map (fun e => (pinsOf e L).length)).sum = L.length := by
  induction L with
  | nil => 
    apply sum_zero
    intro x hx
    obtain ⟨e, -, rfl⟩ := List.mem_map.mp hx
    rfl
  | cons m L ih =>
    have : ∀ e, (pinsOf e (m :: L)).length = (if m.1 = e then 1 else 0) + (pinsOf e L).length := by
      intro e
      unfold pinsOf
      rw [List.length_map, List.length_map, List.filter_cons]
      by_cases h : m.1 = e
      · simp [h]; omega
      · simp [h]
    simp only [this]
    rw [List.sum_map_add, sum_indicator hE (hL m (by simp)), ih (fun m hm => hL m (by simp [hm])), List.length_cons]
    omega

theorem pinsIn_length (ms : List MeshPart) (t : Nat) (e : Gid) :
    (pinsIn ms t e).length = (pinsOf e ((List.range ms.length).flatMap (fun p => ownPins ((part ms p).entsOf t)))).length := by
  unfold pinsIn
  rw [pinsOf_flatMap, List.length_flatMap, List.length_flatMap]
  congr 1
  apply List.map_congr_left
  intro q _
  rw [List.length_map, pinsOf_own]
  rfl

theorem pins_total (h : MeshOk ms T own) {t : Nat} (ht : t < T) :
    pinTotal ms t = (((allEnts ms t).map (fun e => (pinsIn ms t e).length)).sum : Nat) := by
  have h1 : pinTotal ms t = ((List.range ms.length).flatMap (fun p => ownPins ((part ms p).entsOf t))).length := by
    unfold pinTotal
    rw [List.length_flatMap, cast_sum, List.map_map]
    congr 1
    apply List.map_congr_left
    intro p hp
    rw [adj_pins h (List.mem_range.mp hp) ht]
    rfl
  rw [h1]
  congr 1
  have h2 : (allEnts ms t).map (fun e => (pinsIn ms t e).length) = (allEnts ms t).map (fun e =>
      (pinsOf e ((List.range ms.length).flatMap (fun p => ownPins ((part ms p).entsOf t)))).length) := by
    apply List.map_congr_left
    intro e _
    exact pinsIn_length ms t e
  rw [h2]
  refine (sum_pinsOf (List.nodup_dedup _) _ ?_).symm
  intro m hm
  obtain ⟨p, hp, hm⟩ := List.mem_flatMap.mp hm
  obtain ⟨x, hx, hm⟩ := List.mem_flatMap.mp hm
  obtain ⟨v, -, rfl⟩ := List.mem_map.mp hm
  exact List.mem_dedup.mpr (List.mem_flatMap.mpr ⟨p, hp, List.mem_map.mpr ⟨x, hx, rfl⟩⟩)

/-! ## the pins on a part are the pins in the mesh -/

theorem split_part {α : Type} (f : Nat → List α) {p : Nat} : ∀ {l : List Nat}, l.Nodup → p ∈ l →
    (f p ++ l.flatMap (fun q => if q = p then [] else f q)).Perm (l.flatMap f) := by
  intro l
  induction l with
  | nil => simp
  | cons a l ih =>
    intro hn hp
    rw [List.nodup_cons] at hn
    rw [List.flatMap_cons, List.flatMap_cons]
    by_cases ha : a = p
    · subst ha
      rw [if_pos rfl, List.nil_append]
      have : l.flatMap (fun q => if q = a then [] else f q) = l.flatMap f := by
        apply List.flatMap_congr
        intro q hq
        rw [if_neg]
        rintro rfl
        exact hn.1 hq
      rw [this]
    · rw [if_neg ha]
      have hp' : p ∈ l := by
        rcases List.mem_cons.mp hp with h | h
        · exact absurd h.symm ha
        · exact h
      refine List.Perm.trans ?_ (List.Perm.append_left (f a) (ih hn.2 hp'))
      rw [← List.append_assoc, ← List.append_assoc]
      exact List.Perm.append_right _ List.perm_append_comm

theorem pinsAt_perm (h : MeshOk ms T own) {t : Nat} (ht : t < T) {ord : Nat → List Nat} (ho : Orders ms.length ord) {p : Nat}
    (hp : p < ms.length) (x : Gid) :
    ((pinsAt ms t ord p x).map (fun v => (v, (own v : Int)))).Perm (pinsIn ms t x) := by
  have h1 : (pinsAt ms t ord p x).Perm ((List.range ms.length).flatMap (fun q => pinsFrom (part ms q) t x)) := by
    unfold pinsAt
    refine (split_part (fun q => pinsFrom (part ms q) t x) ((ho p hp).nodup_iff.mpr List.nodup_range)
      ((ho p hp).mem_iff.mpr (List.mem_range.mpr hp))).trans ?_
    exact (ho p hp).flatMap_right _
  refine (h1.map _).trans (List.Perm.of_eq ?_)
  unfold pinsIn
  rw [List.map_flatMap]
  apply List.flatMap_congr
  intro q hq
  apply List.map_congr_left
  intro v hv
  rw [(pinsFrom_own h (List.mem_range.mp hq) ht hv).2]

end
end Verif.Mesh
