import Verif.Mesh.MeshPins
/-!
# The messages of a mesh graph
-/
namespace Verif.Mesh
open Verif.Agi

/-- the vertices of an edge as part `p` lists them: its own, and then those of the other parts as they arrive -/
def pinsAt (ms : List MeshPart) (t : Nat) (ord : Nat → List Nat) (p : Nat) (x : Gid) : List Gid :=
  pinsFrom (part ms p) t x ++ (ord p).flatMap (fun q => if q = p then [] else pinsFrom (part ms q) t x)

theorem mem_mine {x : Ent} {v : Gid} : v ∈ x.mine ↔ (v, true) ∈ x.adj := by
  unfold Ent.mine
  rw [List.mem_map]
  constructor
  · rintro ⟨⟨w, b⟩, h, rfl⟩
    rw [List.mem_filter] at h
    obtain ⟨h1, h2⟩ := h
    simp only at h2
    rw [← h2]; exact h1
  · intro h
    exact ⟨(v, true), by rw [List.mem_filter]; exact ⟨h, rfl⟩, rfl⟩

theorem mem_pinsFrom {m : MeshPart} {t : Nat} {e v : Gid} :
    v ∈ pinsFrom m t e ↔ ∃ x ∈ m.entsOf t, x.gid = e ∧ (v, true) ∈ x.adj := by
  unfold pinsFrom
  rw [List.mem_flatMap]
  constructor
  · rintro ⟨x, hx, h⟩
    by_cases he : x.gid = e
    · rw [if_pos he, mem_mine] at h; exact ⟨x, hx, he, h⟩
    · rw [if_neg he] at h; simp at h
  · rintro ⟨x, hx, he, h⟩
    exact ⟨x, hx, by rw [if_pos he, mem_mine]; exact h⟩

section
variable {ms : List MeshPart} {T : Nat} {own : Gid → Nat}

theorem mine_own (h : MeshOk ms T own) {p t : Nat} (hp : p < ms.length) (ht : t < T) {x : Ent}
    (hx : x ∈ (part ms p).entsOf t) {v : Gid} (hv : v ∈ x.mine) : v ∈ (part ms p).verts ∧ own v = p := by
  obtain ⟨y, hy, h1, h2⟩ := (h.adj p hp t ht x hx).2 _ (mem_mine.mp hv)
  simp only at h1 h2
  refine ⟨List.mem_map.mpr ⟨y, by rw [List.mem_filter]; exact ⟨hy, h2⟩, h1⟩, ?_⟩
  rw [← h1]
  exact ((h.elms p hp).2 y hy).mp h2

theorem pinsFrom_own (h : MeshOk ms T own) {p t : Nat} (hp : p < ms.length) (ht : t < T) {x v : Gid}
    (hv : v ∈ pinsFrom (part ms p) t x) : v ∈ (part ms p).verts ∧ own v = p := by
  obtain ⟨y, hy, -, h2⟩ := mem_pinsFrom.mp hv
  exact mine_own h hp ht hy (mem_mine.mpr h2)

/-- `others` of a copy of an entity that part `p` has too -/
theorem others_filter (h : MeshOk ms T own) {p q t : Nat} (hp : p < ms.length) (hq : q < ms.length) (ht : t < T) {y : Ent}
    (hy : y ∈ (part ms q).entsOf t) (hx : y.gid ∈ ((part ms p).entsOf t).map Ent.gid) :
    (others q y).filter (fun r => decide (r = p)) = if q = p then [] else [p] := by
  obtain ⟨h1, h2, -⟩ := h.copies q hq t ht y hy
  have hpm : p ∈ y.res := (h2 p).mpr ⟨hp, by
    obtain ⟨z, hz, e⟩ := List.mem_map.mp hx
    exact ⟨z, hz, e⟩⟩
  unfold others
  rw [List.filter_filter]
  by_cases hqp : q = p
  · rw [if_pos hqp, List.filter_eq_nil_iff]
    intro r _
    simp only [Bool.and_eq_true, decide_eq_true_eq]
    rintro ⟨h3, h4⟩
    exact h4 (h3.trans hqp.symm)
  · rw [if_neg hqp]
    have : y.res.filter (fun a => decide (a = p) && decide (a ≠ q)) = y.res.filter (fun a => a == p) := by
      apply List.filter_congr
      intro a _
      rw [Bool.eq_iff_iff]
      simp only [Bool.and_eq_true, decide_eq_true_eq, beq_iff_eq]
      exact ⟨fun h => h.1, fun h => ⟨h, fun h' => hqp (h'.symm.trans h)⟩⟩
    rw [this, List.filter_beq, List.count_eq_one_of_mem h1 hpm]
    rfl

theorem shared_of (h : MeshOk ms T own) {p q t : Nat} (hp : p < ms.length) (hq : q < ms.length) (ht : t < T) {y : Ent}
    (hy : y ∈ (part ms q).entsOf t) (hx : y.gid ∈ ((part ms p).entsOf t).map Ent.gid) (hqp : q ≠ p) :
    y.shared = true := by
  obtain ⟨-, h2, h3⟩ := h.copies q hq t ht y hy
  refine h3.mpr ⟨p, (h2 p).mpr ⟨hp, ?_⟩, fun h => hqp h.symm⟩
  obtain ⟨z, hz, e⟩ := List.mem_map.mp hx
  exact ⟨z, hz, e⟩

/-- what the other parts have to do with a message -/
theorem mem_others (h : MeshOk ms T own) {q t r : Nat} (hq : q < ms.length) (ht : t < T) {y : Ent}
    (hy : y ∈ (part ms q).entsOf t) (hr : r ∈ others q y) :
    r < ms.length ∧ y.gid ∈ ((part ms r).entsOf t).map Ent.gid := by
  unfold others at hr
  rw [List.mem_filter] at hr
  obtain ⟨h1, z, hz, e⟩ := (((h.copies q hq t ht y hy).2.1) r).mp hr.1
  exact ⟨h1, List.mem_map.mpr ⟨z, hz, e⟩⟩

/-! ## counts -/

theorem counted_flatMap {α : Type} (l : List α) (f : α → List (Nat × (Gid × Nat))) (x : Gid) :
    counted (l.flatMap f) x = (l.map (fun a => counted (f a) x)).sum := by
  induction l with
  | nil => rfl
  | cons a l ih =>
    rw [List.flatMap_cons, List.map_cons, List.sum_cons, ← ih]
    unfold counted
    rw [List.filter_append, List.map_append, List.sum_append]

/-- the messages of `q` that reach `p` -/
theorem counted_from (h : MeshOk ms T own) {p q t : Nat} (hp : p < ms.length) (hq : q < ms.length) (ht : t < T) {x : Gid}
    (hx : x ∈ ((part ms p).entsOf t).map Ent.gid) :
    counted (((countMsgs q ((part ms q).entsOf t)).filter (fun m => decide (m.1 = (p : Int)))).map (fun m => (q, m.2))) x =
      if q = p then 0 else (pinsFrom (part ms q) t x).length := by
  unfold countMsgs pinsFrom
  have hmem : ∀ y ∈ (part ms q).entsOf t, y ∈ (part ms q).entsOf t := fun _ h => h
  generalize hL : (part ms q).entsOf t = L at hmem ⊢
  rw [← hL] at hmem
  replace hmem : ∀ y ∈ L, y ∈ (part ms q).entsOf t := by rw [hL]; exact fun _ h => h
  clear hL
  induction L with
  | nil => by_cases hqp : q = p <;> simp [counted, hqp]
  | cons y L ih =>
    have ih := ih (fun z hz => hmem z (by simp [hz]))
    have hy := hmem y (by simp)
    rw [List.flatMap_cons, List.filter_append, List.map_append, List.flatMap_cons, List.length_append]
    have happ : ∀ a b : List (Nat × (Gid × Nat)), counted (a ++ b) x = counted a x + counted b x := by
      intro a b; unfold counted; rw [List.filter_append, List.map_append, List.sum_append]
    rw [happ, ih]
    have hone : counted (((if y.shared = true then (others q y).map (fun r : Nat => ((r : Int), (y.gid, y.mine.length))) else []).filter
        (fun m => decide (m.1 = (p : Int)))).map (fun m => (q, m.2))) x =
        if q = p then 0 else (if y.gid = x then y.mine else []).length := by
      by_cases hg : y.gid = x
      · have hx' : y.gid ∈ ((part ms p).entsOf t).map Ent.gid := by rw [hg]; exact hx
        have hof := others_filter h hp hq ht hy hx'
        have hfm : ((others q y).map (fun r : Nat => ((r : Int), (y.gid, y.mine.length)))).filter (fun m => decide (m.1 = (p : Int))) =
            ((others q y).filter (fun r => decide (r = p))).map (fun r : Nat => ((r : Int), (y.gid, y.mine.length))) := by
          rw [List.filter_map]
          congr 1
          apply List.filter_congr
          intro r _
          simp only [Function.comp_apply, Int.natCast_inj]
        by_cases hqp : q = p
        · rw [if_pos hqp]
          by_cases hs : y.shared = true
          · rw [if_pos hs, hfm, hof, if_pos hqp]; rfl
          · rw [if_neg hs]; rfl
        · rw [if_neg hqp, if_pos hg, if_pos (shared_of h hp hq ht hy hx' hqp), hfm, hof, if_neg hqp]
          simp [counted, hg]
      · have : ∀ l : List Nat, counted (((l.map (fun r : Nat => ((r : Int), (y.gid, y.mine.length)))).filter
            (fun m => decide (m.1 = (p : Int)))).map (fun m => (q, m.2))) x = 0 := by
          intro l
          unfold counted
          rw [List.filter_eq_nil_iff.mpr]
          · rfl
          · intro m hm
            obtain ⟨m', hm', rfl⟩ := List.mem_map.mp hm
            rw [List.mem_filter] at hm'
            obtain ⟨r, -, rfl⟩ := List.mem_map.mp hm'.1
            simpa using hg
        rw [if_neg hg]
        by_cases hs : y.shared = true
        · rw [if_pos hs, this]; simp
        · rw [if_neg hs]; simp [counted]
    rw [hone]
    by_cases hqp : q = p
    · simp [hqp]
    · simp [hqp]

theorem counted_inbox (h : MeshOk ms T own) {p t : Nat} (hp : p < ms.length) (ht : t < T) {x : Gid}
    (hx : x ∈ ((part ms p).entsOf t).map Ent.gid) {ord : Nat → List Nat} (ho : Orders ms.length ord) :
    counted (inbox ((List.range ms.length).map (fun q => countMsgs q ((part ms q).entsOf t))) (ord p) p) x =
      ((ord p).map (fun q => (if q = p then [] else pinsFrom (part ms q) t x).length)).sum := by
  unfold inbox
  rw [counted_flatMap]
  congr 1
  apply List.map_congr_left
  intro q hq
  have hq' : q < ms.length := List.mem_range.mp ((ho p hp).mem_iff.mp hq)
  rw [getD_range _ hq', counted_from h hp hq' ht hx]
  split <;> rfl

/-! ## pins -/

theorem pinsOf_flatMap {α : Type} (l : List α) (f : α → List (Gid × Gid)) (x : Gid) :
    pinsOf x (l.flatMap f) = l.flatMap (fun a => pinsOf x (f a)) := by
  induction l with
  | nil => rfl
  | cons a l ih => rw [List.flatMap_cons, List.flatMap_cons, ← ih, pinsOf_append]

theorem pinsOf_own {l : List Ent} (x : Gid) :
    pinsOf x (ownPins l) = l.flatMap (fun y => if y.gid = x then y.mine else []) := by
  unfold ownPins
  rw [pinsOf_flatMap]
  congr 1
  funext y
  unfold pinsOf
  rw [List.filter_map, List.map_map]
  by_cases h : y.gid = x
  · rw [if_pos h, List.filter_eq_self.mpr]
    · exact List.map_id' _
    · intro v _; simp [h]
  · rw [if_neg h, List.filter_eq_nil_iff.mpr]
    · rfl
    · intro v _; simp [h]

theorem pinsOf_from (h : MeshOk ms T own) {p q t : Nat} (hp : p < ms.length) (hq : q < ms.length) (ht : t < T) {x : Gid}
    (hx : x ∈ ((part ms p).entsOf t).map Ent.gid) :
    pinsOf x ((((pinMsgs q ((part ms q).entsOf t)).filter (fun m => decide (m.1 = (p : Int)))).map (fun m => (q, m.2))).map Prod.snd) =
      if q = p then [] else pinsFrom (part ms q) t x := by
  rw [List.map_map]
  have hmap : (Prod.snd ∘ fun m : Part × (Gid × Gid) => (q, m.2)) = fun m => m.2 := rfl
  rw [hmap]
  unfold pinMsgs
  rw [List.filter_flatMap, List.map_flatMap, pinsOf_flatMap]
  have hbody : ∀ y ∈ (part ms q).entsOf t, pinsOf x (((y.mine.flatMap (fun v => (others q y).map (fun r : Nat => ((r : Int), (y.gid, v))))).filter
      (fun m => decide (m.1 = (p : Int)))).map (fun m => m.2)) = if q = p then [] else if y.gid = x then y.mine else [] := by
    intro y hy
    rw [List.filter_flatMap, List.map_flatMap, pinsOf_flatMap]
    by_cases hg : y.gid = x
    · have hx' : y.gid ∈ ((part ms p).entsOf t).map Ent.gid := by rw [hg]; exact hx
      have hof := others_filter h hp hq ht hy hx'
      have hv : ∀ v, pinsOf x ((((others q y).map (fun r : Nat => ((r : Int), (y.gid, v)))).filter (fun m => decide (m.1 = (p : Int)))).map (fun m => m.2)) =
          if q = p then [] else [v] := by
        intro v
        have hfm : ((others q y).map (fun r : Nat => ((r : Int), (y.gid, v)))).filter (fun m => decide (m.1 = (p : Int))) =
            ((others q y).filter (fun r => decide (r = p))).map (fun r : Nat => ((r : Int), (y.gid, v))) := by
          rw [List.filter_map]
          congr 1
          apply List.filter_congr
          intro r _
          simp only [Function.comp_apply, Int.natCast_inj]
        rw [hfm, hof]
        by_cases hqp : q = p
        · simp [hqp, pinsOf]
        · simp [hqp, pinsOf, hg]
      simp only [hv, if_pos hg]
      by_cases hqp : q = p
      · simp [hqp]
      · simp [hqp]
    · rw [if_neg hg]
      have : ∀ v ∈ y.mine, pinsOf x ((((others q y).map (fun r : Nat => ((r : Int), (y.gid, v)))).filter (fun m => decide (m.1 = (p : Int)))).map (fun m => m.2)) = [] := by
        intro v _
        unfold pinsOf
        rw [List.filter_eq_nil_iff.mpr]
        · rfl
        · intro m hm
          obtain ⟨m', hm', rfl⟩ := List.mem_map.mp hm
          rw [List.mem_filter] at hm'
          obtain ⟨r, -, rfl⟩ := List.mem_map.mp hm'.1
          simpa using hg
      rw [List.flatMap_eq_nil_iff.mpr this]
      simp
  unfold pinsFrom
  generalize (part ms q).entsOf t = L at hbody ⊢
  induction L with
  | nil => simp
  | cons y L ih =>
    rw [List.flatMap_cons, hbody y (by simp), ih (fun z hz => hbody z (by simp [hz])), List.flatMap_cons]
    by_cases hqp : q = p
    · simp [hqp]
    · simp [hqp]

theorem pinsOf_inbox (h : MeshOk ms T own) {p t : Nat} (hp : p < ms.length) (ht : t < T) {x : Gid}
    (hx : x ∈ ((part ms p).entsOf t).map Ent.gid) {ord : Nat → List Nat} (ho : Orders ms.length ord) :
    pinsOf x (ownPins ((part ms p).entsOf t) ++
      (inbox ((List.range ms.length).map (fun q => pinMsgs q ((part ms q).entsOf t))) (ord p) p).map Prod.snd) =
      pinsAt ms t ord p x := by
  rw [pinsOf_append, pinsOf_own]
  unfold pinsAt
  congr 1
  unfold inbox
  rw [List.map_flatMap, pinsOf_flatMap]
  have hord : ∀ q ∈ ord p, q < ms.length := fun q hq => List.mem_range.mp ((ho p hp).mem_iff.mp hq)
  generalize ord p = L at hord
  induction L with
  | nil => rfl
  | cons q L ih =>
    rw [List.flatMap_cons, List.flatMap_cons, ih (fun r hr => hord r (by simp [hr])), getD_range _ (hord q (by simp)),
      pinsOf_from h hp (hord q (by simp)) ht hx]

/-- the messages go to parts that have the entity -/
theorem countMsgs_to (h : MeshOk ms T own) {q t : Nat} (hq : q < ms.length) (ht : t < T) {m : Part × (Gid × Nat)}
    (hm : m ∈ countMsgs q ((part ms q).entsOf t)) :
    ∃ r : Nat, m.1 = (r : Int) ∧ r < ms.length ∧ m.2.1 ∈ ((part ms r).entsOf t).map Ent.gid := by
  unfold countMsgs at hm
  obtain ⟨y, hy, hm⟩ := List.mem_flatMap.mp hm
  by_cases hs : y.shared = true
  · rw [if_pos hs] at hm
    obtain ⟨r, hr, rfl⟩ := List.mem_map.mp hm
    obtain ⟨h1, h2⟩ := mem_others h hq ht hy hr
    exact ⟨r, rfl, h1, h2⟩
  · rw [if_neg hs] at hm; simp at hm

theorem pinMsgs_to (h : MeshOk ms T own) {q t : Nat} (hq : q < ms.length) (ht : t < T) {m : Part × (Gid × Gid)}
    (hm : m ∈ pinMsgs q ((part ms q).entsOf t)) :
    (∃ r : Nat, m.1 = (r : Int) ∧ r < ms.length ∧ m.2.1 ∈ ((part ms r).entsOf t).map Ent.gid) ∧ own m.2.2 = q := by
  unfold pinMsgs at hm
  obtain ⟨y, hy, hm⟩ := List.mem_flatMap.mp hm
  obtain ⟨v, hv, hm⟩ := List.mem_flatMap.mp hm
  obtain ⟨r, hr, rfl⟩ := List.mem_map.mp hm
  obtain ⟨h1, h2⟩ := mem_others h hq ht hy hr
  exact ⟨⟨r, rfl, h1, h2⟩, (mine_own h hq ht hy hv).2⟩

end
end Verif.Mesh
