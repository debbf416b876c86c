import Verif.Mesh.DofLemmas
import Verif.Mesh.MeshProps
import Verif.Agi.AnyLemmas
/-!
# C60: the graph of the degrees of freedom of a mesh
-/
namespace Verif.Mesh
open Verif.Agi

section
variable {order : Int} {D : Nat} {ms : List MeshPart} {own : Gid → Nat}

theorem dofTotal_eq (hm : ∀ d, d < D → ownedTotal ms d = ((allEnts ms d).length : Int)) : ∀ k, k ≤ D → dofTotal order ms k =
    ms.length * (((dofDims order k).map (fun d => (allEnts ms d).length)).sum : Nat) := by
  intro k
  induction k with
  | zero => intro _; simp [dofTotal, dofDims]
  | succ k ih =>
    intro hk
    have e : dofDims order (k + 1) = dofDims order k ++ if hasDOFs order k then [k] else [] := by
      unfold dofDims
      rw [List.range_succ, List.filter_append, List.filter_cons]
      rfl
    have h1 : dofTotal order ms (k + 1) = dofTotal order ms k + if hasDOFs order k then (ms.length : Int) * ownedTotal ms k else 0 := rfl
    rw [h1, ih (by omega), e, hm k (by omega)]
    by_cases hd : hasDOFs order k = true
    · rw [if_pos hd, if_pos hd, List.map_append, List.sum_append, Int.natCast_add, Int.mul_add]
      simp
    · rw [if_neg hd, if_neg hd]
      simp

theorem spaced_of (hm : MeshOk ms D own) (hn : Numbered ms D)
    (hs : ∀ d, d + 1 ∈ holders order D → (allEnts ms d).length ≤ ms.length * (allEnts ms (d + 1)).length) : Spaced order D ms := by
  refine ⟨fun p hp d hd x hx => ?_, fun d hd => ?_⟩
  · have := hn p hp d hd x hx
    rw [← edges_total hm hd] at this
    exact this
  · have h1 := hs d (by rw [← dims_eq]; exact hd)
    have h2 : ownedTotal ms d = _ := edges_total hm (show d < D by have := dims_lt hd; omega)
    have h3 : ownedTotal ms (d + 1) = _ := edges_total hm (dims_lt hd)
    rw [h2, h3]
    exact_mod_cast h1

/-- **C60, partial.**  For any consistent distributed mesh with entities numbered from zero per dimension, any order of the
elements and any delivery orders, if no dimension that has degrees of freedom is followed by one with fewer entities
(times the number of parts), the graph is made and every part reads the holders of degrees of freedom from it.
Missing: the number of edges is too large by the number of parts (`c60_global_edges`), and without the condition the
graph cannot be made (`c60_overlap`). -/
theorem c60_dof_graph_partial {env : MeshEnv} (hm : MeshOk ms D own) (hn : Numbered ms D)
    (hs : ∀ d, d + 1 ∈ holders order D → (allEnts ms d).length ≤ ms.length * (allEnts ms (d + 1)).length)
    (henv : env.Ok ms.length 1) :
    ∃ gs : List Graph, dofGraph order D ms env = .ok gs ∧ gs.length = ms.length ∧ ∃ num : Nat → Gid → Gid,
      (∀ d ∈ holders order D, ∀ d' ∈ holders order D, ∀ e ∈ allEnts ms d, ∀ e' ∈ allEnts ms d',
        num d e = num d' e' → d = d' ∧ e = e') ∧
      ∀ p (hp : p < gs.length), ReadsDofs order D ms num p gs[p] ∧
        gs[p].numGlobalEdges 0 = .ok (ms.length * (((holders order D).map (fun d => (allEnts ms d).length)).sum : Nat)) := by
  have hsp := spaced_of hm hn hs
  have hok := dof_ok hsp hm
  have hlen : (ms.map (dofPart order D ms)).length = ms.length := List.length_map _
  have hgv : (ms.map (fun m => (m.numOwned : Int))).sum = ((ms.map (dofPart order D ms)).map (fun m => (m.numOwned : Int))).sum := by
    rw [List.map_map]
    congr 1
    apply List.map_congr_left
    intro m _
    simp only [Function.comp_apply]
    rw [dof_numOwned]
  obtain ⟨S, e1, hS⟩ := start_spec true hok (fun _ => dofTotal order ms D) env.pins (total_pos hok)
  obtain ⟨S2, e2, hS2⟩ := addType_spec hok (t := 0) (by omega) (oc := env.counts 0) (by rw [hlen]; exact henv.counts 0 (by omega))
    (by rw [hlen]; exact henv.pins 0 (by omega)) hS
  obtain ⟨F, e3, hF⟩ := finish_spec hok (fun t ht => by rw [hlen]; exact henv.pins t ht) (by rw [hlen]; exact henv.ask) (by rw [hlen]; exact henv.answer) hS2
  refine ⟨(List.range ms.length).map F, ?_, by simp, dofNum order ms, ?_, ?_⟩
  · unfold dofGraph
    simp only
    rw [hgv, e1, Outcome.bind_ok, e2, Outcome.bind_ok, e3, hlen]
  · intro d hd d' hd' e he e' he' h
    rw [← dims_eq] at hd hd'
    obtain ⟨p, hp, x, hx, rfl⟩ := mem_allEnts.mp he
    obtain ⟨q, hq, y, hy, rfl⟩ := mem_allEnts.mp he'
    exact hsp.inj hp hq hd hd' hx hy h
  · intro p hp
    rw [List.length_map, List.length_range] at hp
    obtain ⟨gh, h⟩ := hF p (by rw [hlen]; exact hp)
    have hr := h.reads hok (fun t ht => by rw [hlen]; exact henv.pins t ht) (by rw [hlen]; exact hp)
    simp only [List.getElem_map, List.getElem_range]
    refine ⟨⟨?_, ?_, ?_, hr.numTypes, ?_, ?_, ?_, ?_, ?_⟩, ?_⟩
    · rw [hr.verts, dof_part hp, dof_verts]
    · intro x hx ho
      exact hr.vert { x with down := [(dofDims order D).flatMap (fun d => (x.down.getD d []).map (dofNum order ms d))] } (by rw [dof_part hp]; exact List.mem_map.mpr ⟨x, hx, rfl⟩) ho
    · rw [hr.globalVerts, hlen]
      congr 2
      apply List.flatMap_congr
      intro q hq
      rw [dof_part (List.mem_range.mp hq), dof_verts]
    · obtain ⟨l, h1, h2, h3⟩ := hr.edges 0 (by omega)
      refine ⟨l, h1, ?_, ?_⟩
      · rw [h2, dof_part hp, dof_ents, List.map_flatMap, ← dims_eq]
        apply List.flatMap_congr
        intro d hd
        rw [List.map_map]
        apply List.map_congr_left
        intro x _
        simp only [Function.comp_apply, entW, if_true, numDOFs_eq hd]
      · intro d hd x hx e he heq
        rw [← dims_eq] at hd
        have := h3 e he
        rw [heq, dof_pinsIn hsp hp hd hx] at this
        exact this
    · intro x hx ho
      have := hr.incident 0 (by omega) { x with down := [(dofDims order D).flatMap (fun d => (x.down.getD d []).map (dofNum order ms d))] } (by rw [dof_part hp]; exact List.mem_map.mpr ⟨x, hx, rfl⟩) ho
      rw [← dims_eq]
      exact this
    · rw [hr.globalPins 0 (by omega), dof_pins hsp, dims_eq]
    · intro h1
      obtain ⟨l, h2, h3, h4⟩ := hr.ghosts (by rw [hlen]; exact h1)
      refine ⟨l, h2, h3, fun v o w => ?_⟩
      rw [h4, ← dims_eq]
      refine and_congr_right (fun _ => and_congr_right (fun _ => ?_))
      constructor
      · rintro ⟨t, ht, x', hx', hv⟩
        have : t = 0 := by omega
        subst this
        rw [dof_part hp] at hx'
        obtain ⟨d, hd, x, hx, rfl⟩ := mem_dof_ents.mp hx'
        simp only at hv
        rw [dof_pinsIn hsp hp hd hx] at hv
        exact ⟨d, hd, x, hx, hv⟩
      · rintro ⟨d, hd, x, hx, hv⟩
        refine ⟨0, by omega, _, by rw [dof_part hp]; exact mem_dof_ents.mpr ⟨d, hd, x, hx, rfl⟩, ?_⟩
        simp only
        rw [dof_pinsIn hsp hp hd hx]
        exact hv
    · intro h1
      exact hr.noGhosts (by rw [hlen]; exact h1)
    · rw [hr.globalEdges 0 (by omega), dofTotal_eq (fun d hd => edges_total hm hd) D (by omega), dims_eq]

/-! ## what is wrong -/

/-- **C60, negation 1.**  On several parts `numGlobalEdges` of the graph is not the number of its edges, for any mesh with
entities: every part adds the sum over all parts again. -/
theorem c60_global_edges {env : MeshEnv} (hm : MeshOk ms D own) (hn : Numbered ms D)
    (hs : ∀ d, d + 1 ∈ holders order D → (allEnts ms d).length ≤ ms.length * (allEnts ms (d + 1)).length)
    (henv : env.Ok ms.length 1) (h2 : 2 ≤ ms.length) (hd : 0 < D) (hne : allEnts ms 0 ≠ []) :
    ∃ gs : List Graph, dofGraph order D ms env = .ok gs ∧ ∀ p (hp : p < gs.length),
      gs[p].numGlobalEdges 0 ≠ .ok (((holders order D).map (fun d => (allEnts ms d).length)).sum : Nat) := by
  obtain ⟨gs, h1, h3, num, -, h4⟩ := c60_dof_graph_partial hm hn hs henv
  refine ⟨gs, h1, fun p hp he => ?_⟩
  rw [(h4 p hp).2] at he
  have h5 := Outcome.ok.inj he
  have h6 : 0 < ((holders order D).map (fun d => (allEnts ms d).length)).sum := by
    unfold holders
    rw [if_pos hd, List.append_assoc, List.map_append, List.sum_append]
    have : 0 < (allEnts ms 0).length := List.length_pos_iff.mpr hne
    simp only [List.map_cons, List.map_nil, List.sum_cons, List.sum_nil]
    omega
  generalize ((holders order D).map (fun d => (allEnts ms d).length)).sum = K at h5 h6
  have h7 : ms.length * K = K := by exact_mod_cast h5
  have h8 : 2 * K ≤ ms.length * K := Nat.mul_le_mul_right K h2
  omega

theorem countStep_keep {self : Nat} {e : EType} {s r : Mem Nat × List (Part × (Gid × Nat))} {x : Ent}
    (h : countStep true self e s x = .ok r) : s.1.load (eidx e x.gid + 1) = .ok 0 ∧
      r.1.load (eidx e x.gid + 1) = .ok x.mine.length ∧ ∀ i k, s.1.load i = .ok k → k ≠ 0 → r.1.load i = .ok k := by
  unfold countStep pdlCheck at h
  obtain ⟨u, h1, h2⟩ := bind_ok_iff.mp h
  rw [if_pos rfl] at h1
  obtain ⟨v, h3, h4⟩ := bind_ok_iff.mp h1
  obtain ⟨pdl, h5, h6⟩ := bind_ok_iff.mp h2
  have hv : v = 0 := by
    by_contra hv
    rw [if_neg hv] at h4
    cases h4
  subst hv
  have hr := Outcome.ok.inj h6
  subst hr
  have hst : eidx e x.gid + 1 < s.1.length ∧ pdl = s.1.set (eidx e x.gid + 1) (some x.mine.length) := by
    unfold Mem.store at h5
    by_cases hlt : eidx e x.gid + 1 < s.1.length
    · rw [if_pos hlt] at h5
      exact ⟨hlt, (Outcome.ok.inj h5).symm⟩
    · rw [if_neg hlt] at h5
      cases h5
  obtain ⟨hlt, rfl⟩ := hst
  refine ⟨h3, ?_, ?_⟩
  · unfold Mem.load
    simp [hlt]
  · intro i k hi hk
    by_cases hik : eidx e x.gid + 1 = i
    · rw [← hik, h3] at hi
      exact absurd (Outcome.ok.inj hi).symm hk
    · unfold Mem.load at hi ⊢
      simp only
      rw [List.getElem?_set, if_neg hik]
      exact hi

theorem countFold_keep {self : Nat} {e : EType} : ∀ {l : List Ent} {s r : Mem Nat × List (Part × (Gid × Nat))},
    l.foldlM (countStep true self e) s = .ok r → ∀ i k, s.1.load i = .ok k → k ≠ 0 →
      r.1.load i = .ok k ∧ ∀ y ∈ l, eidx e y.gid + 1 ≠ i := by
  intro l
  induction l with
  | nil =>
    intro s r h i k hi hk
    have := Outcome.ok.inj h
    subst this
    exact ⟨hi, by simp⟩
  | cons x l ih =>
    intro s r h i k hi hk
    rw [List.foldlM_cons] at h
    obtain ⟨s', h1, h2⟩ := bind_ok_iff.mp h
    obtain ⟨h3, h4, h5⟩ := countStep_keep h1
    obtain ⟨h6, h7⟩ := ih h2 i k (h5 i k hi hk) hk
    refine ⟨h6, ?_⟩
    intro y hy
    rcases List.mem_cons.mp hy with rfl | hy
    · rintro rfl
      rw [h3] at hi
      exact hk (Outcome.ok.inj hi).symm
    · exact h7 y hy

theorem countFold_dup {self : Nat} {e : EType} {l : List Ent} {s r : Mem Nat × List (Part × (Gid × Nat))}
    (h : l.foldlM (countStep true self e) s = .ok r) {a b : List Ent} {x y : Ent} (hl : l = a ++ x :: b) (hy : y ∈ b)
    (hxy : x.gid = y.gid) : x.mine = [] := by
  by_contra hne
  rw [hl, Io.foldlM_append'] at h
  obtain ⟨s1, -, h1⟩ := bind_ok_iff.mp h
  rw [List.foldlM_cons] at h1
  obtain ⟨s2, h2, h3⟩ := bind_ok_iff.mp h1
  obtain ⟨-, h4, -⟩ := countStep_keep h2
  have := (countFold_keep h3 _ _ h4 (by simpa using hne)).2 y hy
  rw [hxy] at this
  exact this rfl

/-- **C60, negation 2.**  If on some part two entities of different dimensions that have degrees of freedom get the same
number, and the one of lower dimension is next to an owned element of the part, then the graph is never made, for any
mesh and any delivery orders: an assertion fails (or the program goes wrong earlier). -/
theorem c60_overlap {env : MeshEnv} {p : Nat} (hp : p < ms.length) {d d' : Nat} (hd : d ∈ holders order D)
    (hd' : d' ∈ holders order D) (hlt : d < d') {x y : Ent} (hx : x ∈ (part ms p).entsOf d) (hy : y ∈ (part ms p).entsOf d')
    (hnum : dofNum order ms d x.gid = dofNum order ms d' y.gid) (hadj : x.mine ≠ []) :
    ∀ gs, dofGraph order D ms env ≠ .ok gs := by
  intro gs hgs
  rw [← dims_eq] at hd hd'
  have hlen : (ms.map (dofPart order D ms)).length = ms.length := List.length_map _
  unfold dofGraph at hgs
  obtain ⟨st, h1, h2⟩ := bind_ok_iff.mp hgs
  obtain ⟨st2, h3, -⟩ := bind_ok_iff.mp h2
  clear hgs h2
  have l0 := (mapM_inv h1).1
  rw [List.length_zipIdx, hlen] at l0
  unfold addType at h3
  obtain ⟨st1, g1, h3⟩ := bind_ok_iff.mp h3
  obtain ⟨r, g2, h3⟩ := bind_ok_iff.mp h3
  obtain ⟨st3, g3, h3⟩ := bind_ok_iff.mp h3
  obtain ⟨cs, g4, -⟩ := bind_ok_iff.mp h3
  clear h3
  have l1 := (mapM_inv g1).1
  have l2 := (mapM_inv g2).1
  have l3 := (mapM_inv g3).1
  simp only [List.length_zip, List.length_map] at l1 l2 l3
  obtain ⟨l4, h4⟩ := mapM_inv g4
  simp only [List.length_zipIdx, List.length_zip, List.length_map] at l4
  have h5 := h4 p (by simp; omega) (by omega)
  simp only [List.getElem_zipIdx, List.getElem_zip, List.getElem_map] at h5
  unfold countPins at h5
  obtain ⟨e, -, h5⟩ := bind_ok_iff.mp h5
  obtain ⟨es, he, h5⟩ := bind_ok_iff.mp h5
  obtain ⟨pdl, -, h5⟩ := bind_ok_iff.mp h5
  have hes : es = (dofPart order D ms (part ms p)).entsOf 0 := by
    have : rd (dofPart order D ms ms[p]).ents 0 = .ok ((dofPart order D ms (part ms p)).entsOf 0) := by
      have hpp : part ms p = ms[p] := by
        unfold part
        rw [List.getD_eq_getElem?_getD, List.getElem?_eq_getElem hp]
        rfl
      rw [hpp]
      rfl
    rw [this] at he
    exact (Outcome.ok.inj he).symm
  -- the two entities in the list
  obtain ⟨A, B, hAB⟩ := List.mem_iff_append.mp hd
  have hB : d' ∈ B := by
    have hsorted : (dofDims order D).Pairwise (· < ·) := by
      unfold dofDims
      exact List.Pairwise.sublist List.filter_sublist List.pairwise_lt_range
    rw [hAB] at hd' hsorted
    rcases List.mem_append.mp hd' with h | h
    · have := (List.pairwise_append.mp hsorted).2.2 d' h d (by simp)
      omega
    · rcases List.mem_cons.mp h with h | h
      · omega
      · exact h
  obtain ⟨a, b, hab⟩ := List.mem_iff_append.mp hx
  rw [dof_ents, hAB, List.flatMap_append, List.flatMap_cons, hab, List.map_append, List.map_cons, List.append_assoc,
    List.cons_append, ← List.append_assoc] at hes
  have := countFold_dup h5 hes (y := { y with gid := dofNum order ms d' y.gid, w := (numDOFs order d' : Rat) })
    (List.mem_append_right _ (List.mem_flatMap.mpr ⟨d', hB, List.mem_map.mpr ⟨y, hy, rfl⟩⟩)) hnum
  exact hadj this

/-- **C60, negation 2 on one part.**  On one part, if a dimension `d` has more entities than the next, which also has
degrees of freedom and is not empty, and every entity is next to an element, then the graph is never made. -/
theorem c60_serial {env : MeshEnv} {m : MeshPart} {d : Nat} (hd : d + 1 ∈ holders order D)
    (hnum : ∀ d', d' = d ∨ d' = d + 1 → ∀ i : Nat, i < m.ownedEnts d' → ∃ x ∈ m.entsOf d', x.gid = (i : Int) ∧ x.mine ≠ [])
    (hpos : 0 < m.ownedEnts (d + 1)) (hfew : m.ownedEnts (d + 1) < m.ownedEnts d) :
    ∀ gs, dofGraph order D [m] env ≠ .ok gs := by
  obtain ⟨y, hy, hyg, -⟩ := hnum (d + 1) (Or.inr rfl) 0 hpos
  obtain ⟨x, hx, hxg, hxa⟩ := hnum d (Or.inl rfl) (m.ownedEnts (d + 1)) hfew
  have hd1 := hd
  rw [← dims_eq] at hd1
  have hd0 : d ∈ holders order D := by
    rw [← dims_eq]
    exact mem_dims.mpr ⟨by have := dims_lt hd1; omega, hasDOFs_down (mem_dims.mp hd1).2 (by omega)⟩
  refine c60_overlap (p := 0) (by simp) hd0 hd (by omega) hx hy ?_ hxa
  rw [hxg, hyg]
  have h2 : dofTotal order [m] (d + 2) = dofTotal order [m] (d + 1) + (m.ownedEnts (d + 1) : Int) := by
    show dofTotal order [m] (d + 1) + (if hasDOFs order (d + 1) then _ else 0) = _
    rw [if_pos (mem_dims.mp hd1).2]
    simp
  unfold dofNum
  rw [h2]
  omega

end

/-! ## meshes -/

/-- the strip of `triMesh` with its corners as dimension 0 and its sides as dimension 1 -/
def triDofs : List MeshPart := triMesh.map (fun m => ⟨m.elms.map (fun x => { x with down := x.down.reverse }), m.ents.reverse⟩)

theorem triDofs_ok : MeshOk triDofs 2 triOwn := meshOk_of (by decide +kernel)

theorem triDofs_numbered : Numbered triDofs 2 := by
  have h : ∀ p ∈ List.range triDofs.length, ∀ d ∈ List.range 2, ∀ x ∈ (part triDofs p).entsOf d,
      0 ≤ x.gid ∧ x.gid < ((allEnts triDofs d).length : Int) := by decide +kernel
  exact fun p hp d hd => h p (List.mem_range.mpr hp) d (List.mem_range.mpr hd)

example : ∀ d, d + 1 ∈ holders 3 2 → (allEnts triDofs d).length ≤ triDofs.length * (allEnts triDofs (d + 1)).length := by
  intro d hd
  have h : d + 1 ∈ [0, 1] := by
    have : holders 3 2 = [0, 1] := by decide
    rwa [this] at hd
  have : d = 0 := by simpa using h
  subst this
  decide +kernel

/-- 5 corners and 7 sides, but `numGlobalEdges` is 24 -/
example : (do
    let gs ← dofGraph 3 2 triDofs (plainEnv 2)
    let g0 ← rd gs 0
    let e ← g0.numGlobalEdges 0
    let l ← g0.edgeViews 0
    return (e, l.map (fun x : EdgeView => (x.id, x.w)))) =
    .ok (24, [(10, 1), (11, 1), (12, 1), (13, 1), (24, 2), (25, 2), (26, 2), (27, 2), (28, 2)]) := by decide +kernel

/-- one tetrahedron: 4 corners, 6 edges, 4 faces -/
def tet : MeshPart :=
  ⟨[⟨0, true, (0, 0, 0), [[0, 1, 2, 3], [0, 1, 2, 3, 4, 5], [0, 1, 2, 3]]⟩],
   [4, 6, 4].map (fun n => (List.range n).map (fun i : Nat => ⟨(i : Int), true, false, [0], [(0, true)], 1⟩))⟩

example : MeshOk [tet] 3 (fun _ => 0) := meshOk_of (by decide +kernel)

/-- with order 4 its graph cannot be made, whatever the deliveries -/
theorem c60_tet (env : MeshEnv) : ∀ gs, dofGraph 4 3 [tet] env ≠ .ok gs := by
  have h : ∀ d' ∈ [1, 2], ∀ i ∈ List.range (tet.ownedEnts d'), ∃ x ∈ tet.entsOf d', x.gid = ((i : Nat) : Int) ∧ x.mine ≠ [] := by
    decide +kernel
  refine c60_serial (d := 1) (by decide) ?_ (by decide +kernel) (by decide +kernel)
  intro d' hd' i hi
  exact h d' (by simpa using hd') i (List.mem_range.mpr hi)

/-- it is the assertion that fails -/
example : (do let _ ← dofGraph 4 3 [tet] (plainEnv 1); return ()) = .fail := by decide +kernel

/-- with order 3 it can -/
example : (do
    let gs ← dofGraph 3 3 [tet] (plainEnv 1)
    let g ← rd gs 0
    edgesOf g 0 0) = .ok [4, 5, 6, 7, 10, 11, 12, 13, 14, 15] := by decide +kernel

end Verif.Mesh
