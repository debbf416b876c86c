import Verif.Mesh.MeshReads
/-!
# C59: the graph of a mesh is the mesh
-/
namespace Verif.Mesh
open Verif.Agi

theorem checks_ok {n : Nat} {dim primary : Int} (l : List Int) (h : ∀ d ∈ l, DimsOk n dim primary d) :
    l.foldlM (fun (_ : Unit) d => checkDims n dim primary d) () = .ok () := by
  induction l with
  | nil => rfl
  | cons d l ih =>
    have : checkDims n dim primary d = .ok () := by
      obtain ⟨h1, h2, h3, h4, h5, h6⟩ := h d (by simp)
      unfold checkDims
      rw [if_neg (by omega), if_neg h5, if_neg (by rintro ⟨h7, h8⟩; exact h7 (h6 h8))]
    rw [List.foldlM_cons, this, Outcome.bind_ok]
    exact ih (fun d hd => h d (by simp [hd]))

theorem checks_fail {n : Nat} {dim primary : Int} (l : List Int) (h : ∃ d ∈ l, ¬ DimsOk n dim primary d) :
    l.foldlM (fun (_ : Unit) d => checkDims n dim primary d) () = .fail := by
  induction l with
  | nil => simp at h
  | cons d l ih =>
    rw [List.foldlM_cons]
    by_cases hd : DimsOk n dim primary d
    · have := checks_ok [d] (fun x hx => by simp at hx; rw [hx]; exact hd)
      rw [List.foldlM_cons] at this
      obtain ⟨d', hd', hn⟩ := h
      have hl : d' ∈ l := by
        rcases List.mem_cons.mp hd' with rfl | h
        · exact absurd hd hn
        · exact h
      have e : checkDims n dim primary d = .ok () := by
        revert this
        unfold checkDims
        split_ifs <;> intro h <;> first | rfl | cases h
      rw [e, Outcome.bind_ok]
      exact ih ⟨d', hl, hn⟩
    · have : checkDims n dim primary d = .fail := by
        unfold checkDims
        by_cases h1 : primary > dim ∨ primary < 0 ∨ d > dim ∨ d < 0
        · rw [if_pos h1]
        · rw [if_neg h1]
          by_cases h2 : primary = d
          · rw [if_pos h2]
          · rw [if_neg h2, if_pos]
            by_contra hc
            apply hd
            refine ⟨by omega, by omega, by omega, by omega, h2, fun h3 => ?_⟩
            by_contra h4
            exact hc ⟨h4, h3⟩
      rw [this]
      rfl

/-- **C59.**  For any consistent distributed mesh, dimensions a graph can be made of and delivery orders of the messages,
the graph is made, and what every part reads from it is the mesh: edges have weight 1 and the number of edges of a type
is the number of entities of that dimension in the whole mesh, each counted once although several parts have copies. -/
theorem c59_mesh_graph {dim primary : Int} {seconds : List Int} {ms : List MeshPart} {own : Gid → Nat} {env : MeshEnv}
    (hm : MeshOk ms seconds.length own) (hd : ∀ d ∈ seconds, DimsOk ms.length dim primary d)
    (henv : env.Ok ms.length seconds.length) :
    ∃ gs : List Graph, apfGraph dim primary seconds ms env = .ok gs ∧ gs.length = ms.length ∧
      ∀ p (hp : p < gs.length), ReadsMesh ms seconds.length (fun _ => 1) (fun t => (allEnts ms t).length) p gs[p] := by
  obtain ⟨F, e, hF⟩ := buildMesh_spec hm henv
  refine ⟨(List.range ms.length).map F, ?_, by simp, ?_⟩
  · unfold apfGraph
    rw [checks_ok seconds hd, Outcome.bind_ok, e]
  · intro p hp
    rw [List.length_map, List.length_range] at hp
    obtain ⟨gh, h⟩ := hF p hp
    have hr := h.reads hm henv.pins hp
    have he : entW false = fun _ => 1 := by funext x; rfl
    rw [he] at hr
    simp only [List.getElem_map, List.getElem_range]
    refine { hr with globalEdges := fun t ht => ?_ }
    rw [hr.globalEdges t ht, edges_total hm ht]

/-- **C59, dimensions.**  If any dimension is not usable the constructor throws, whatever the mesh. -/
theorem c59_dims {dim primary : Int} {seconds : List Int} (ms : List MeshPart) (env : MeshEnv)
    (hd : ∃ d ∈ seconds, ¬ DimsOk ms.length dim primary d) : apfGraph dim primary seconds ms env = .fail := by
  unfold apfGraph
  rw [checks_fail seconds hd]
  rfl

/-- **C59, empty mesh.**  A mesh without owned primary entities makes the constructor throw, whatever the dimensions. -/
theorem c59_empty {dim primary : Int} {seconds : List Int} {ms : List MeshPart} (env : MeshEnv) (hne : ms ≠ [])
    (he : ∀ m ∈ ms, m.verts = []) : apfGraph dim primary seconds ms env = .fail := by
  by_cases hd : ∃ d ∈ seconds, ¬ DimsOk ms.length dim primary d
  · exact c59_dims ms env hd
  · have hd' : ∀ d ∈ seconds, DimsOk ms.length dim primary d := by
      intro d hm
      by_contra h
      exact hd ⟨d, hm, h⟩
    unfold apfGraph
    rw [checks_ok seconds hd', Outcome.bind_ok]
    unfold buildMesh
    have h0 : (ms.map (fun m => (m.numOwned : Int))).sum = 0 := by
      have : ∀ l : List MeshPart, (∀ m ∈ l, m.verts = []) → (l.map (fun m => (m.numOwned : Int))).sum = 0 := by
        intro l
        induction l with
        | nil => intro _; rfl
        | cons a l ih =>
          intro h
          rw [List.map_cons, List.sum_cons, ih (fun m hm => h m (by simp [hm]))]
          have h1 : a.numOwned = a.verts.length := by simp [MeshPart.numOwned, MeshPart.verts]
          rw [h1, h a (by simp)]
          rfl
      exact this ms he
    simp only
    rw [h0]
    match ms, hne with
    | a :: l, _ =>
      rw [List.zipIdx_cons, List.mapM_cons]
      rfl

/-! ## a mesh -/

/-- `MeshOk` with all quantifiers over lists -/
def meshCheck (ms : List MeshPart) (T : Nat) (own : Gid → Nat) : Prop :=
  (∃ m ∈ ms, m.verts ≠ []) ∧ T ≤ maxTypes ∧
  (∀ p ∈ List.range ms.length, ((part ms p).elms.map Elm.gid).Nodup ∧
    (∀ x ∈ (part ms p).elms, (x.owned = true ↔ own x.gid = p)) ∧
    (part ms p).ents.length = T ∧ (∀ t ∈ List.range T, (((part ms p).entsOf t).map Ent.gid).Nodup) ∧
    (∀ t ∈ List.range T, ∀ x ∈ (part ms p).entsOf t, x.res.Nodup ∧
      (∀ q ∈ x.res, q < ms.length ∧ ∃ y ∈ (part ms q).entsOf t, y.gid = x.gid) ∧
      (∀ q ∈ List.range ms.length, (∃ y ∈ (part ms q).entsOf t, y.gid = x.gid) → q ∈ x.res) ∧
      (x.shared = true ↔ ∃ q ∈ x.res, q ≠ p) ∧
      (∃ q ∈ List.range ms.length, (∃ y ∈ (part ms q).entsOf t, y.gid = x.gid ∧ y.owned = true) ∧
        ∀ r ∈ List.range ms.length, (∃ y ∈ (part ms r).entsOf t, y.gid = x.gid ∧ y.owned = true) → r = q) ∧
      (x.adj.map Prod.fst).Nodup ∧ (∀ v ∈ x.adj, ∃ y ∈ (part ms p).elms, y.gid = v.1 ∧ y.owned = v.2)) ∧
    (∀ y ∈ (part ms p).elms, y.owned = true → y.down.length = T ∧ ∀ t ∈ List.range T,
      (y.down.getD t []).Nodup ∧
      (∀ e ∈ y.down.getD t [], ∃ x ∈ (part ms p).entsOf t, x.gid = e ∧ y.gid ∈ x.adj.map Prod.fst) ∧
      (∀ x ∈ (part ms p).entsOf t, y.gid ∈ x.adj.map Prod.fst → x.gid ∈ y.down.getD t [])))

set_option synthInstance.maxSize 1024 in
set_option synthInstance.maxHeartbeats 200000 in
instance (ms : List MeshPart) (T : Nat) (own : Gid → Nat) : Decidable (meshCheck ms T own) := by
  unfold meshCheck; infer_instance

theorem meshOk_of {ms : List MeshPart} {T : Nat} {own : Gid → Nat} (h : meshCheck ms T own) : MeshOk ms T own := by
  obtain ⟨h1, h2, h3⟩ := h
  have h3' : ∀ p, p < ms.length → _ := fun p hp => h3 p (List.mem_range.mpr hp)
  refine ⟨h1, h2, fun p hp => ⟨(h3' p hp).1, (h3' p hp).2.1⟩, fun p hp => ⟨(h3' p hp).2.2.1, fun t ht => (h3' p hp).2.2.2.1 t (List.mem_range.mpr ht)⟩, ?_, ?_, ?_, ?_⟩
  · intro p hp t ht x hx
    obtain ⟨a, b, c, d, -⟩ := (h3' p hp).2.2.2.2.1 t (List.mem_range.mpr ht) x hx
    exact ⟨a, fun q => ⟨b q, fun ⟨hq, hy⟩ => c q (List.mem_range.mpr hq) hy⟩, d⟩
  · intro p hp t ht x hx
    obtain ⟨-, -, -, -, ⟨q, hq, hy, hu⟩, -⟩ := (h3' p hp).2.2.2.2.1 t (List.mem_range.mpr ht) x hx
    exact ⟨q, ⟨List.mem_range.mp hq, hy⟩, fun r hr => hu r (List.mem_range.mpr hr)⟩
  · intro p hp t ht x hx
    obtain ⟨-, -, -, -, -, a, b⟩ := (h3' p hp).2.2.2.2.1 t (List.mem_range.mpr ht) x hx
    exact ⟨a, b⟩
  · intro p hp y hy ho
    obtain ⟨a, b⟩ := (h3' p hp).2.2.2.2.2 y hy ho
    refine ⟨a, fun t ht => ?_⟩
    obtain ⟨c, d, e⟩ := b t (List.mem_range.mpr ht)
    refine ⟨c, fun z => ⟨d z, ?_⟩⟩
    rintro ⟨x, hx, rfl, hadj⟩
    exact e x hx hadj

/-- three triangles in a strip, corners 0 to 4: `A = 012`, `B = 123` on part 0 and `C = 234` on part 1.  Both parts have
copies of the side 23 (number 4) and of the corners 2 and 3, owned by part 0;
edge type 0 is the sides, edge type 1 the corners -/
def triMesh : List MeshPart :=
  [⟨[⟨0, true, (0, 0, 0), [[0, 1, 2], [0, 1, 2]]⟩, ⟨1, true, (1, 0, 0), [[2, 3, 4], [1, 2, 3]]⟩],
    [[⟨0, true, false, [0], [(0, true)], 1⟩, ⟨1, true, false, [0], [(0, true)], 1⟩, ⟨2, true, false, [0], [(0, true), (1, true)], 1⟩,
      ⟨3, true, false, [0], [(1, true)], 1⟩, ⟨4, true, true, [0, 1], [(1, true)], 1⟩],
     [⟨0, true, false, [0], [(0, true)], 1⟩, ⟨1, true, false, [0], [(0, true), (1, true)], 1⟩,
      ⟨2, true, true, [0, 1], [(0, true), (1, true)], 1⟩, ⟨3, true, true, [0, 1], [(1, true)], 1⟩]]⟩,
   ⟨[⟨2, true, (2, 0, 0), [[4, 5, 6], [2, 3, 4]]⟩],
    [[⟨4, false, true, [0, 1], [(2, true)], 1⟩, ⟨5, true, false, [1], [(2, true)], 1⟩, ⟨6, true, false, [1], [(2, true)], 1⟩],
     [⟨2, false, true, [0, 1], [(2, true)], 1⟩, ⟨3, false, true, [0, 1], [(2, true)], 1⟩, ⟨4, true, false, [1], [(2, true)], 1⟩]]⟩]

def triOwn (v : Gid) : Nat := if v = 2 then 1 else 0

theorem triMesh_ok : MeshOk triMesh 2 triOwn := meshOk_of (by decide +kernel)

def plainEnv (n : Nat) : MeshEnv := ⟨fun _ _ => List.range n, fun _ _ => List.range n, fun _ => List.range n, fun _ => List.range n⟩

theorem plainEnv_ok (n T : Nat) : (plainEnv n).Ok n T :=
  ⟨fun _ _ _ _ => List.Perm.refl _, fun _ _ _ _ => List.Perm.refl _, fun _ _ => List.Perm.refl _, fun _ _ => List.Perm.refl _⟩

example : ∀ d ∈ ([1, 0] : List Int), DimsOk triMesh.length 2 2 d := by
  intro d hd
  simp at hd
  rcases hd with rfl | rfl <;> unfold DimsOk triMesh <;> simp

/-- the side shared by the parts joins `B` and `C` -/
example : pinsIn triMesh 0 4 = [(1, 0), (2, 1)] ∧ pinsIn triMesh 1 2 = [(0, 0), (1, 0), (2, 1)] ∧
    (allEnts triMesh 0).length = 7 ∧ (allEnts triMesh 1).length = 5 := by decide +kernel

/-- the program run on it -/
example : (do
    let gs ← apfGraph 2 2 [1, 0] triMesh (plainEnv 2)
    let g0 ← rd gs 0
    let g1 ← rd gs 1
    let e ← g1.numGlobalEdges 0
    let k ← numGlobalPins g0 1
    let w ← ghostViews g0
    return (e, k, w)) = .ok (7, 9, [(2, 1, 1)]) := by decide +kernel

/-- a bad dimension -/
example : ¬ DimsOk 2 3 2 1 := by unfold DimsOk; simp

end Verif.Mesh
