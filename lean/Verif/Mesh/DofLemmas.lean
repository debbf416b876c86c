import Verif.Mesh.MeshReads
import Verif.Mesh.DofSpec
/-!
# The mesh of degrees of freedom
-/
namespace Verif.Mesh
open Verif.Agi

section
variable {order : Int} {D : Nat} {ms : List MeshPart} {own : Gid → Nat}

theorem hasDOFs_down {d e : Nat} (h : hasDOFs order d = true) (he : e ≤ d) : hasDOFs order e = true := by
  unfold hasDOFs at *
  split_ifs at * <;> simp_all <;> omega

theorem mem_dims {d : Nat} : d ∈ dofDims order D ↔ d < D ∧ hasDOFs order d = true := by
  unfold dofDims; rw [List.mem_filter, List.mem_range]

theorem dims_lt {d : Nat} (h : d ∈ dofDims order D) : d < D := (mem_dims.mp h).1

theorem dims_nodup : (dofDims order D).Nodup := List.Nodup.sublist List.filter_sublist List.nodup_range

theorem dims_eq : dofDims order D = holders order D := by
  have h3 : ∀ k, dofDims order (k + 3) = dofDims order 3 := by
    intro k
    induction k with
    | zero => rfl
    | succ k ih =>
      have : dofDims order (k + 1 + 3) = dofDims order (k + 3) ++ if hasDOFs order (k + 3) then [k + 3] else [] := by
        unfold dofDims
        rw [show k + 1 + 3 = (k + 3) + 1 by omega, List.range_succ, List.filter_append]
        rfl
      rw [this, ih]
      simp [hasDOFs]
  have r0 : List.range 0 = [] := rfl
  have r1 : List.range 1 = [0] := rfl
  have r2 : List.range 2 = [0, 1] := rfl
  have r3 : List.range 3 = [0, 1, 2] := rfl
  match D with
  | 0 => simp [dofDims, holders, r0]
  | 1 => simp [dofDims, holders, r1, hasDOFs]
  | 2 =>
    unfold dofDims holders
    rw [r2]
    by_cases h : 2 ≤ order <;> simp [hasDOFs, h]
  | k + 3 =>
    rw [h3]
    unfold dofDims holders
    rw [r3]
    by_cases h : 2 ≤ order <;> by_cases h' : 4 ≤ order <;> simp [hasDOFs, h, h']

theorem numDOFs_eq {d : Nat} (h : d ∈ dofDims order D) : numDOFs order d = dofs order d := by
  have := (mem_dims.mp h).2
  unfold numDOFs dofs
  rw [this]
  have h2 : d = 0 ∨ d = 1 ∨ d = 2 := by
    unfold hasDOFs at this
    split_ifs at this <;> simp_all
  rcases h2 with rfl | rfl | rfl <;> simp

/-! ## numbers -/

/-- owned entities of a dimension -/
def ownedTotal (ms : List MeshPart) (d : Nat) : Int := (ms.map (fun m => (m.ownedEnts d : Int))).sum

theorem ownedTotal_nonneg (ms : List MeshPart) (d : Nat) : 0 ≤ ownedTotal ms d := by
  unfold ownedTotal
  induction ms with
  | nil => simp
  | cons a l ih => rw [List.map_cons, List.sum_cons]; omega

theorem dofTotal_step (d : Nat) : dofTotal order ms d ≤ dofTotal order ms (d + 1) := by
  show _ ≤ dofTotal order ms d + _
  have := ownedTotal_nonneg ms d
  unfold ownedTotal at this
  have h2 := Int.mul_nonneg (Int.natCast_nonneg ms.length) this
  split <;> omega

theorem dofTotal_mono {a b : Nat} (h : a ≤ b) : dofTotal order ms a ≤ dofTotal order ms b := by
  induction b with
  | zero => have : a = 0 := by omega
            rw [this]; exact Int.le_refl _
  | succ b ih =>
    by_cases hb : a ≤ b
    · exact Int.le_trans (ih hb) (dofTotal_step b)
    · have : a = b + 1 := by omega
      rw [this]; exact Int.le_refl _

theorem dofNum_lt {d d' : Nat} {x y : Gid} (hd' : d' ∈ dofDims order D) (hlt : d < d') (hx : x < ownedTotal ms d)
    (hy : 0 ≤ y) (hsp : ∀ d, d + 1 ∈ dofDims order D → ownedTotal ms d ≤ ms.length * ownedTotal ms (d + 1)) :
    dofNum order ms d x < dofNum order ms d' y := by
  have h1 := hsp d (mem_dims.mpr ⟨by have := dims_lt hd'; omega, hasDOFs_down (mem_dims.mp hd').2 (by omega)⟩)
  have h2 : dofTotal order ms (d + 2) = dofTotal order ms (d + 1) + ms.length * ownedTotal ms (d + 1) := by
    show dofTotal order ms (d + 1) + (if hasDOFs order (d + 1) then _ else 0) = _
    rw [if_pos (hasDOFs_down (mem_dims.mp hd').2 (by omega))]
    rfl
  have h3 := dofTotal_mono (order := order) (ms := ms) (show d + 2 ≤ d' + 1 by omega)
  unfold dofNum
  omega

theorem dofNum_inj {d d' : Nat} {x y : Gid} (hd : d ∈ dofDims order D) (hd' : d' ∈ dofDims order D)
    (hx : 0 ≤ x ∧ x < ownedTotal ms d) (hy : 0 ≤ y ∧ y < ownedTotal ms d')
    (hsp : ∀ d, d + 1 ∈ dofDims order D → ownedTotal ms d ≤ ms.length * ownedTotal ms (d + 1))
    (he : dofNum order ms d x = dofNum order ms d' y) : d = d' ∧ x = y := by
  rcases Nat.lt_trichotomy d d' with h | h | h
  · have := dofNum_lt hd' h hx.2 hy.1 hsp; omega
  · refine ⟨h, ?_⟩
    subst h
    unfold dofNum at he
    omega
  · have := dofNum_lt hd h hy.2 hx.1 hsp; omega

/-! ## the parts -/

theorem dof_part {p : Nat} (hp : p < ms.length) :
    part (ms.map (dofPart order D ms)) p = dofPart order D ms (part ms p) := by
  unfold part
  rw [List.getD_eq_getElem?_getD, List.getD_eq_getElem?_getD, List.getElem?_map, List.getElem?_eq_getElem hp]
  rfl

theorem dof_ents (m : MeshPart) : (dofPart order D ms m).entsOf 0 = (dofDims order D).flatMap (fun d =>
    (m.entsOf d).map (fun y => { y with gid := dofNum order ms d y.gid, w := (numDOFs order d : Rat) })) := rfl

theorem mem_dof_ents {m : MeshPart} {x' : Ent} : x' ∈ (dofPart order D ms m).entsOf 0 ↔ ∃ d ∈ dofDims order D,
    ∃ x ∈ m.entsOf d, x' = { x with gid := dofNum order ms d x.gid, w := (numDOFs order d : Rat) } := by
  rw [dof_ents, List.mem_flatMap]
  constructor
  · rintro ⟨d, hd, h⟩
    obtain ⟨x, hx, rfl⟩ := List.mem_map.mp h
    exact ⟨d, hd, x, hx, rfl⟩
  · rintro ⟨d, hd, x, hx, rfl⟩
    exact ⟨d, hd, List.mem_map.mpr ⟨x, hx, rfl⟩⟩

theorem dof_verts (m : MeshPart) : (dofPart order D ms m).verts = m.verts := by
  unfold MeshPart.verts dofPart
  simp only
  rw [List.filter_map, List.map_map]
  rfl

theorem dof_numOwned (m : MeshPart) : (dofPart order D ms m).numOwned = m.numOwned := by
  unfold MeshPart.numOwned dofPart
  simp only
  rw [List.filter_map, List.length_map]
  rfl

end

/-- the numbers of different holders differ -/
structure Spaced (order : Int) (D : Nat) (ms : List MeshPart) : Prop where
  num : ∀ p, p < ms.length → ∀ d, d < D → ∀ x ∈ (part ms p).entsOf d, 0 ≤ x.gid ∧ x.gid < ownedTotal ms d
  sp : ∀ d, d + 1 ∈ dofDims order D → ownedTotal ms d ≤ ms.length * ownedTotal ms (d + 1)

section
variable {order : Int} {D : Nat} {ms : List MeshPart} {own : Gid → Nat}

/-- entities with the same number in the graph are the same entity -/
theorem Spaced.inj (h : Spaced order D ms) {p q : Nat} (hp : p < ms.length) (hq : q < ms.length) {d d' : Nat}
    (hd : d ∈ dofDims order D) (hd' : d' ∈ dofDims order D) {x y : Ent} (hx : x ∈ (part ms p).entsOf d)
    (hy : y ∈ (part ms q).entsOf d') (he : dofNum order ms d x.gid = dofNum order ms d' y.gid) : d = d' ∧ x.gid = y.gid :=
  dofNum_inj hd hd' (h.num p hp d (dims_lt hd) x hx) (h.num q hq d' (dims_lt hd') y hy) h.sp he

theorem dof_ok (h : Spaced order D ms) (hm : MeshOk ms D own) : MeshOk (ms.map (dofPart order D ms)) 1 own := by
  have hlen : (ms.map (dofPart order D ms)).length = ms.length := List.length_map _
  refine ⟨?_, by decide, ?_, ?_, ?_, ?_, ?_, ?_⟩
  · obtain ⟨m, h1, h2⟩ := hm.some_vertex
    exact ⟨_, List.mem_map.mpr ⟨m, h1, rfl⟩, by rw [dof_verts]; exact h2⟩
  · intro p hp
    rw [hlen] at hp
    rw [dof_part hp]
    have he : (dofPart order D ms (part ms p)).elms.map Elm.gid = (part ms p).elms.map Elm.gid := by
      unfold dofPart; simp only; rw [List.map_map]; rfl
    refine ⟨by rw [he]; exact (hm.elms p hp).1, ?_⟩
    intro x hx
    obtain ⟨y, hy, rfl⟩ := List.mem_map.mp hx
    exact (hm.elms p hp).2 y hy
  · intro p hp
    rw [hlen] at hp
    rw [dof_part hp]
    refine ⟨rfl, fun t ht => ?_⟩
    have : t = 0 := by omega
    subst this
    rw [dof_ents, List.map_flatMap, List.nodup_flatMap]
    constructor
    · intro d hd
      rw [List.map_map]
      have hn := (hm.ents p hp).2 d (dims_lt hd)
      have : (Ent.gid ∘ fun y : Ent => ({ y with gid := dofNum order ms d y.gid, w := (numDOFs order d : Rat) } : Ent)) =
          (fun e => dofNum order ms d e) ∘ Ent.gid := by funext y; rfl
      rw [this, ← List.map_map]
      exact hn.map (fun a b hab => by simp only [dofNum] at hab; omega)
    · refine List.Pairwise.imp_of_mem ?_ (dims_nodup (order := order) (D := D))
      intro d d' hd hd' hne
      simp only [Function.onFun, List.disjoint_left]
      intro e h1 h2
      rw [List.map_map] at h1 h2
      obtain ⟨x, hx, rfl⟩ := List.mem_map.mp h1
      obtain ⟨y, hy, he⟩ := List.mem_map.mp h2
      exact hne (h.inj hp hp hd' hd hy hx he).1.symm
  · intro p hp t ht x' hx'
    have : t = 0 := by omega
    subst this
    rw [hlen] at hp ⊢
    rw [dof_part hp] at hx'
    obtain ⟨d, hd, x, hx, rfl⟩ := mem_dof_ents.mp hx'
    obtain ⟨h1, h2, h3⟩ := hm.copies p hp d (dims_lt hd) x hx
    refine ⟨h1, fun q => ?_, h3⟩
    simp only
    rw [h2 q]
    constructor
    · rintro ⟨hq, y, hy, hye⟩
      refine ⟨hq, _, by rw [dof_part hq]; exact mem_dof_ents.mpr ⟨d, hd, y, hy, rfl⟩, ?_⟩
      simp only
      rw [hye]
    · rintro ⟨hq, y', hy', hye⟩
      rw [dof_part hq] at hy'
      obtain ⟨d', hd', y, hy, rfl⟩ := mem_dof_ents.mp hy'
      obtain ⟨rfl, he⟩ := h.inj hq hp hd' hd hy hx hye
      exact ⟨hq, y, hy, he⟩
  · intro p hp t ht x' hx'
    have : t = 0 := by omega
    subst this
    rw [hlen] at hp ⊢
    rw [dof_part hp] at hx'
    obtain ⟨d, hd, x, hx, rfl⟩ := mem_dof_ents.mp hx'
    obtain ⟨q, ⟨hq, y, hy, hye, hyo⟩, hu⟩ := hm.one_owned p hp d (dims_lt hd) x hx
    refine ⟨q, ⟨hq, { y with gid := dofNum order ms d y.gid, w := (numDOFs order d : Rat) }, by rw [dof_part hq]; exact mem_dof_ents.mpr ⟨d, hd, y, hy, rfl⟩, by simp only [hye], hyo⟩, ?_⟩
    rintro r hr ⟨z', hz', hze, hzo⟩
    rw [dof_part hr] at hz'
    obtain ⟨d', hd', z, hz, rfl⟩ := mem_dof_ents.mp hz'
    obtain ⟨rfl, he⟩ := h.inj hr hp hd' hd hz hx hze
    exact hu r hr ⟨z, hz, he, hzo⟩
  · intro p hp t ht x' hx'
    have : t = 0 := by omega
    subst this
    rw [hlen] at hp
    rw [dof_part hp] at hx' ⊢
    obtain ⟨d, hd, x, hx, rfl⟩ := mem_dof_ents.mp hx'
    obtain ⟨h1, h2⟩ := hm.adj p hp d (dims_lt hd) x hx
    refine ⟨h1, fun v hv => ?_⟩
    obtain ⟨y, hy, h3, h4⟩ := h2 v hv
    exact ⟨_, List.mem_map.mpr ⟨y, hy, rfl⟩, h3, h4⟩
  · intro p hp y' hy' ho
    rw [hlen] at hp
    rw [dof_part hp] at hy' ⊢
    obtain ⟨y, hy, rfl⟩ := List.mem_map.mp hy'
    refine ⟨rfl, fun t ht => ?_⟩
    have : t = 0 := by omega
    subst this
    have hdown := (hm.down p hp y hy ho).2
    have e1 : (([(dofDims order D).flatMap (fun d => (y.down.getD d []).map (dofNum order ms d))] : List (List Gid)).getD 0 []) =
        (dofDims order D).flatMap (fun d => (y.down.getD d []).map (dofNum order ms d)) := rfl
    simp only
    rw [e1]
    constructor
    · rw [List.nodup_flatMap]
      constructor
      · intro d hd
        exact (hdown d (dims_lt hd)).1.map (fun a b hab => by simp only [dofNum] at hab; omega)
      · refine List.Pairwise.imp_of_mem ?_ (dims_nodup (order := order) (D := D))
        intro d d' hd hd' hne
        simp only [Function.onFun, List.disjoint_left]
        intro e h1 h2
        obtain ⟨a, ha, rfl⟩ := List.mem_map.mp h1
        obtain ⟨b, hb, he⟩ := List.mem_map.mp h2
        obtain ⟨x, hx, rfl, -⟩ := ((hdown d (dims_lt hd)).2 a).mp ha
        obtain ⟨z, hz, rfl, -⟩ := ((hdown d' (dims_lt hd')).2 b).mp hb
        exact hne (h.inj hp hp hd' hd hz hx he).1.symm
    · intro e
      rw [List.mem_flatMap]
      constructor
      · rintro ⟨d, hd, he⟩
        obtain ⟨a, ha, rfl⟩ := List.mem_map.mp he
        obtain ⟨x, hx, rfl, hadj⟩ := ((hdown d (dims_lt hd)).2 a).mp ha
        exact ⟨_, mem_dof_ents.mpr ⟨d, hd, x, hx, rfl⟩, rfl, hadj⟩
      · rintro ⟨x', hx', rfl, hadj⟩
        obtain ⟨d, hd, x, hx, rfl⟩ := mem_dof_ents.mp hx'
        exact ⟨d, hd, List.mem_map.mpr ⟨x.gid, ((hdown d (dims_lt hd)).2 x.gid).mpr ⟨x, hx, rfl, hadj⟩, rfl⟩⟩

/-! ## pins -/

theorem flatMap_one {α β : Type} {f : α → List β} {a : α} : ∀ {l : List α}, l.Nodup → a ∈ l → (∀ b ∈ l, b ≠ a → f b = []) →
    l.flatMap f = f a := by
  intro l
  induction l with
  | nil => simp
  | cons b l ih =>
    intro hn ha h
    rw [List.nodup_cons] at hn
    rw [List.flatMap_cons]
    rcases List.mem_cons.mp ha with rfl | ha'
    · have : l.flatMap f = [] := by
        rw [List.flatMap_eq_nil_iff]
        intro c hc
        exact h c (by simp [hc]) (by rintro rfl; exact hn.1 hc)
      rw [this, List.append_nil]
    · rw [h b (by simp) (by rintro rfl; exact hn.1 ha'), List.nil_append]
      exact ih hn.2 ha' (fun c hc => h c (by simp [hc]))

theorem dof_pinsFrom (h : Spaced order D ms) {p q : Nat} (hp : p < ms.length) (hq : q < ms.length) {d : Nat}
    (hd : d ∈ dofDims order D) {x : Ent} (hx : x ∈ (part ms p).entsOf d) :
    pinsFrom (dofPart order D ms (part ms q)) 0 (dofNum order ms d x.gid) = pinsFrom (part ms q) d x.gid := by
  unfold pinsFrom
  rw [dof_ents, List.flatMap_assoc]
  rw [flatMap_one (dims_nodup) hd]
  · rw [List.flatMap_map]
    apply List.flatMap_congr
    intro y hy
    simp only
    by_cases hxy : y.gid = x.gid
    · rw [if_pos (by rw [hxy]), if_pos hxy]
      rfl
    · rw [if_neg, if_neg hxy]
      intro he
      exact hxy (h.inj hq hp hd hd hy hx he).2
  · intro d' hd' hne
    rw [List.flatMap_eq_nil_iff]
    intro y' hy'
    obtain ⟨y, hy, rfl⟩ := List.mem_map.mp hy'
    rw [if_neg]
    intro he
    exact hne (h.inj hq hp hd' hd hy hx he).1

theorem dof_pinsIn (h : Spaced order D ms) {p : Nat} (hp : p < ms.length) {d : Nat} (hd : d ∈ dofDims order D) {x : Ent}
    (hx : x ∈ (part ms p).entsOf d) :
    pinsIn (ms.map (dofPart order D ms)) 0 (dofNum order ms d x.gid) = pinsIn ms d x.gid := by
  unfold pinsIn
  rw [List.length_map]
  apply List.flatMap_congr
  intro q hq
  rw [dof_part (List.mem_range.mp hq), dof_pinsFrom h hp (List.mem_range.mp hq) hd hx]

theorem mem_allEnts {ms : List MeshPart} {t : Nat} {e : Gid} : e ∈ allEnts ms t ↔ ∃ p, p < ms.length ∧ ∃ x ∈ (part ms p).entsOf t, x.gid = e := by
  unfold allEnts
  rw [List.mem_dedup, List.mem_flatMap]
  constructor
  · rintro ⟨p, hp, h⟩
    obtain ⟨x, hx, rfl⟩ := List.mem_map.mp h
    exact ⟨p, List.mem_range.mp hp, x, hx, rfl⟩
  · rintro ⟨p, hp, x, hx, rfl⟩
    exact ⟨p, List.mem_range.mpr hp, List.mem_map.mpr ⟨x, hx, rfl⟩⟩

theorem dof_allEnts (h : Spaced order D ms) : (allEnts (ms.map (dofPart order D ms)) 0).Perm
    ((dofDims order D).flatMap (fun d => (allEnts ms d).map (dofNum order ms d))) := by
  rw [List.perm_ext_iff_of_nodup]
  · intro e
    rw [mem_allEnts, List.mem_flatMap, List.length_map]
    constructor
    · rintro ⟨p, hp, x', hx', rfl⟩
      rw [dof_part hp] at hx'
      obtain ⟨d, hd, x, hx, rfl⟩ := mem_dof_ents.mp hx'
      exact ⟨d, hd, List.mem_map.mpr ⟨x.gid, mem_allEnts.mpr ⟨p, hp, x, hx, rfl⟩, rfl⟩⟩
    · rintro ⟨d, hd, he⟩
      obtain ⟨a, ha, rfl⟩ := List.mem_map.mp he
      obtain ⟨p, hp, x, hx, rfl⟩ := mem_allEnts.mp ha
      exact ⟨p, hp, _, by rw [dof_part hp]; exact mem_dof_ents.mpr ⟨d, hd, x, hx, rfl⟩, rfl⟩
  · exact List.nodup_dedup _
  · rw [List.nodup_flatMap]
    constructor
    · intro d hd
      exact (List.nodup_dedup _).map (fun a b hab => by simp only [dofNum] at hab; omega)
    · refine List.Pairwise.imp_of_mem ?_ (dims_nodup (order := order) (D := D))
      intro d d' hd hd' hne
      simp only [Function.onFun, List.disjoint_left]
      intro e h1 h2
      obtain ⟨a, ha, rfl⟩ := List.mem_map.mp h1
      obtain ⟨b, hb, he⟩ := List.mem_map.mp h2
      obtain ⟨p, hp, x, hx, rfl⟩ := mem_allEnts.mp ha
      obtain ⟨q, hq, y, hy, rfl⟩ := mem_allEnts.mp hb
      exact hne (h.inj hq hp hd' hd hy hx he).1.symm

theorem dof_pins (h : Spaced order D ms) : ((allEnts (ms.map (dofPart order D ms)) 0).map (fun e =>
      (pinsIn (ms.map (dofPart order D ms)) 0 e).length)).sum =
    ((dofDims order D).map (fun d => ((allEnts ms d).map (fun e => (pinsIn ms d e).length)).sum)).sum := by
  rw [((dof_allEnts h).map _).sum_nat, List.map_flatMap]
  have key : ∀ l : List Nat, (∀ d ∈ l, d ∈ dofDims order D) → (l.flatMap (fun d => ((allEnts ms d).map (dofNum order ms d)).map (fun e =>
      (pinsIn (ms.map (dofPart order D ms)) 0 e).length))).sum =
      (l.map (fun d => ((allEnts ms d).map (fun e => (pinsIn ms d e).length)).sum)).sum := by
    intro l
    induction l with
    | nil => intro _; rfl
    | cons d l ih =>
      intro hl
      rw [List.flatMap_cons, List.sum_append, List.map_cons, List.sum_cons, ih (fun d hd => hl d (by simp [hd]))]
      congr 2
      rw [List.map_map]
      apply List.map_congr_left
      intro e he
      obtain ⟨p, hp, x, hx, rfl⟩ := mem_allEnts.mp he
      simp only [Function.comp_apply]
      rw [dof_pinsIn h hp (hl d (by simp)) hx]
  exact key _ (fun _ h => h)

end
end Verif.Mesh
