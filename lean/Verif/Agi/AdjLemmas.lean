import Verif.Agi.MigrateModel
import Verif.Agi.Residence
/-!
# Iterating over the vertices adjacent to a vertex of a hypergraph
-/
namespace Verif.Agi

/-- successive `iterate(gitr)` calls return the vertices, on the edges, then NULL -/
def AdjRun (g : Graph) : AdjIt → List (Handle × Handle) → Prop
  | it, [] => ∃ it', g.iterAdj it = .ok (0, it')
  | it, x :: l => x.1 ≠ 0 ∧ x.2 ≠ 0 ∧ ∃ it', g.iterAdj it = .ok (x.1, it') ∧ it'.edge = x.2 ∧ AdjRun g it' l

theorem AdjRun.yields {g : Graph} : ∀ {l : List (Handle × Handle)} {it : AdjIt}, AdjRun g it l →
    Yields g.iterAdj it (l.map Prod.fst) := by
  intro l
  induction l with
  | nil => intro it h; exact h
  | cons x l ih =>
    rintro it ⟨h1, -, it', h3, -, h5⟩
    exact ⟨h1, it', h3, ih h5⟩

theorem AdjRun.yieldsEdge {g : Graph} : ∀ {l : List (Handle × Handle)} {it : AdjIt}, AdjRun g it l →
    Yields g.iterAdjEdge it (l.map Prod.snd) := by
  intro l
  induction l with
  | nil =>
    rintro it ⟨it', h⟩
    refine ⟨it', ?_⟩
    unfold Graph.iterAdjEdge
    rw [h]; rfl
  | cons x l ih =>
    rintro it ⟨h1, h2, it', h3, h4, h5⟩
    refine ⟨h2, it', ?_, ih h5⟩
    unfold Graph.iterAdjEdge
    rw [h3]
    simp only [Outcome.bind_ok, if_neg h1, h4, Outcome.pure_eq]

section
variable {g : Graph} {verts ghosts : List Gid} {types : List EdgeInput}

/-- the (vertex, edge) pairs of edge number `i` -/
def pinRun (g : Graph) (known : List Gid) (t : Nat) (pins : List (List Gid)) (i : Nat) : List (Handle × Handle) :=
  (pins.getD i []).map (fun v => (getVertex (known.idxOf v), g.getEdge i t))

theorem adjRun_aux (h : CRep g true verts ghosts types) {t : Nat} (ht : t < types.length)
    : ∀ (es : List Nat), (∀ i ∈ es, ∃ hi : i < types[t].pins.length, types[t].pins[i] ≠ []) →
    ∀ (eitr : EdgeIt), Yields g.iterEdge eitr (es.map (fun i => g.getEdge i t)) →
    ∀ (ps : List Handle) (it : AdjIt) (d : Int), it.isH = true → it.eitr = eitr → g.degreeE it.edge = .ok d →
      (ps ≠ [] → it.edge ≠ 0 ∧ ∃ p, it.pitr = some p ∧ Yields g.iterPin p ps) → d = (it.count : Int) + ps.length →
      AdjRun g it (ps.map (fun v => (v, it.edge)) ++
        es.flatMap (pinRun g (verts ++ ghosts) t types[t].pins)) := by
  intro es
  induction es with
  | nil =>
    intro _ eitr hy ps
    induction ps with
    | nil =>
      intro it d h1 h2 h3 h4 h5
      obtain ⟨eitr', he⟩ := hy
      refine ⟨{ it with pitr := none, eitr := eitr' }, ?_⟩
      · unfold Graph.iterAdj
        rw [if_pos h1, h3, Outcome.bind_ok, if_pos (by rw [h5]; simp), h2, he]
        rfl
    | cons v ps ih =>
      intro it d h1 h2 h3 h4 h5
      obtain ⟨h6, p, hp, hv, p', hs, hy'⟩ := h4 (by simp)
      refine ⟨hv, h6, { it with pitr := some p', count := it.count + 1 }, ?_, rfl, ?_⟩
      · unfold Graph.iterAdj
        rw [if_pos h1, h3, Outcome.bind_ok, if_neg (by rw [h5]; simp; omega)]
        unfold Graph.iterAdjPin
        rw [hp]
        simp only [deref, Outcome.ofOption_some, Outcome.bind_ok, hs, Outcome.pure_eq]
      · exact ih { it with pitr := some p', count := it.count + 1 } d h1 h2 h3
          (fun _ => ⟨h6, p', rfl, hy'⟩) (by simp only [List.length_cons] at h5; simp only; push_cast at h5 ⊢; omega)
  | cons i es ih =>
    intro hlt eitr hy ps
    induction ps with
    | nil =>
      intro it d h1 h2 h3 h4 h5
      obtain ⟨hi0, eitr', he, hy'⟩ := hy
      obtain ⟨hi, hpn⟩ := hlt i (by simp)
      obtain ⟨p, hp, hyp⟩ := yields_pins_hyper h ht hi
      have hd := degreeE_hyper h ht hi
      -- the first pin of the next edge
      cases hpc : types[t].pins[i] with
      | nil => exact absurd hpc hpn
      | cons v vs =>
        rw [hpc, List.map_cons] at hyp
        obtain ⟨hv0, p', hs, hyp'⟩ := hyp
        have hrun : pinRun g (verts ++ ghosts) t types[t].pins i =
            (getVertex ((verts ++ ghosts).idxOf v), g.getEdge i t) ::
              (vs.map (fun v => getVertex ((verts ++ ghosts).idxOf v))).map (fun v => (v, g.getEdge i t)) := by
          unfold pinRun
          rw [List.getD_eq_getElem?_getD, List.getElem?_eq_getElem hi, Option.getD_some, hpc]
          simp
        rw [List.map_nil, List.nil_append, List.flatMap_cons, hrun, List.cons_append]
        refine ⟨hv0, hi0, ⟨it.isH, 1, eitr', some p', g.getEdge i t⟩, ?_, rfl, ?_⟩
        · unfold Graph.iterAdj
          rw [if_pos h1, h3, Outcome.bind_ok, if_pos (by rw [h5]; simp), h2, he, Outcome.bind_ok]
          simp only
          rw [if_neg hi0, hp, Outcome.bind_ok]
          unfold Graph.iterAdjPin
          simp only [deref, Outcome.ofOption_some, Outcome.bind_ok, hs, Outcome.pure_eq]
        · exact ih (fun j hj => hlt j (by simp [hj])) eitr' hy' _ ⟨it.isH, 1, eitr', some p', g.getEdge i t⟩
            _ h1 rfl hd (fun _ => ⟨hi0, p', rfl, hyp'⟩) (by
              rw [hpc]; simp only [List.length_cons, List.length_map]; push_cast; omega)
    | cons v ps ihp =>
      intro it d h1 h2 h3 h4 h5
      obtain ⟨h6, p, hp, hv, p', hs, hy'⟩ := h4 (by simp)
      refine ⟨hv, h6, { it with pitr := some p', count := it.count + 1 }, ?_, rfl, ?_⟩
      · unfold Graph.iterAdj
        rw [if_pos h1, h3, Outcome.bind_ok, if_neg (by rw [h5]; simp; omega)]
        unfold Graph.iterAdjPin
        rw [hp]
        simp only [deref, Outcome.ofOption_some, Outcome.bind_ok, hs, Outcome.pure_eq]
      · exact ihp { it with pitr := some p', count := it.count + 1 } d h1 h2 h3
          (fun _ => ⟨h6, p', rfl, hy'⟩) (by simp only [List.length_cons] at h5; simp only; push_cast at h5 ⊢; omega)

theorem mem_adjOf_hyper {known : List Gid} {es : List (List Gid)} {v : Gid} {i : Nat} :
    i ∈ adjOf true known es v ↔ ∃ h : i < es.length, v ∈ es[i] := by
  unfold adjOf
  rw [if_pos rfl, List.mem_flatMap]
  constructor
  · rintro ⟨⟨p, k⟩, hp, hk⟩
    rw [List.mem_zipIdx_iff_getElem?] at hp
    simp only at hp hk
    rw [List.mem_replicate] at hk
    obtain ⟨h1, rfl⟩ := hk
    obtain ⟨h2, h3⟩ := List.getElem?_eq_some_iff.mp hp
    refine ⟨h2, ?_⟩
    rw [h3]
    exact List.count_pos_iff.mp (Nat.pos_of_ne_zero h1)
  · rintro ⟨h1, h2⟩
    refine ⟨(es[i], i), List.mem_zipIdx_iff_getElem?.mpr (List.getElem?_eq_getElem h1), ?_⟩
    rw [List.mem_replicate]
    exact ⟨Nat.pos_iff_ne_zero.mp (List.count_pos_iff.mpr h2), rfl⟩

/-- **`adjacent(v,t)`**: the pins of the edges of `v`, edge after edge -/
theorem adjRun_vertex' (h : CRep g true verts ghosts types) {t : Nat} (ht : t < types.length)
    {u : Nat} (hu : u < verts.length) :
    ∃ it, g.adjacent (getVertex u) t = .ok it ∧
      AdjRun g it ((adjOf true (verts ++ ghosts) types[t].pins verts[u]).flatMap
        (pinRun g (verts ++ ghosts) t types[t].pins)) := by
  obtain ⟨eitr, he, hy⟩ := yields_edges_hyper h ht hu
  unfold Graph.adjacent
  rw [he, Outcome.bind_ok]
  refine ⟨_, rfl, ?_⟩
  have := adjRun_aux h ht _ (fun i hi => by
      obtain ⟨h1, h2⟩ := mem_adjOf_hyper.mp hi
      exact ⟨h1, List.ne_nil_of_mem h2⟩) eitr hy []
    ⟨g.isHyper, 0, eitr, none, 0⟩ 0 h.hyp rfl (by unfold Graph.degreeE; rw [h.hyp]; rfl) (by simp) (by simp)
  simpa using this

theorem adjRun_vertex (h : CRep g true verts ghosts types) {t : Nat} (ht : t < types.length)
    (_hne : ∀ p ∈ types[t].pins, p ≠ []) {u : Nat} (hu : u < verts.length) :
    ∃ it, g.adjacent (getVertex u) t = .ok it ∧
      AdjRun g it ((adjOf true (verts ++ ghosts) types[t].pins verts[u]).flatMap
        (pinRun g (verts ++ ghosts) t types[t].pins)) := adjRun_vertex' h ht hu

theorem pins_lt_bound' (h : CRep g true verts ghosts types) {t : Nat} (ht : t < types.length) :
    verts.length + types[t].pins.length + types[t].pins.flatten.length < g.bound ∧
    degOf true types[t].pins (verts.getD 0 0) ≤ types[t].pins.flatten.length := by
  obtain ⟨e, he, hr, -⟩ := h.typ t ht
  have hb : slotSize (some e) ≤ (g.types.map slotSize).sum :=
    le_sum_of_mem (List.mem_map.mpr ⟨some e, List.mem_of_getElem? he, rfl⟩)
  have h1 := h.v.nl
  constructor
  · unfold Graph.bound
    simp only [slotSize, hr.numE, hr.numP] at hb
    omega
  · unfold degOf
    rw [if_pos rfl]
    exact List.count_le_length

/-- the fuel of the loops over `adjacent` suffices -/
theorem adjRun_fuel (h : CRep g true verts ghosts types) {t : Nat} (ht : t < types.length) (v : Gid) :
    ((adjOf true (verts ++ ghosts) types[t].pins v).flatMap
        (pinRun g (verts ++ ghosts) t types[t].pins)).length < g.adjFuel := by
  obtain ⟨hb, -⟩ := pins_lt_bound' h ht
  have h1 : ∀ (l : List Nat), (l.flatMap (pinRun g (verts ++ ghosts) t types[t].pins)).length ≤
      l.length * types[t].pins.flatten.length := by
    intro l
    induction l with
    | nil => simp
    | cons i l ih =>
      rw [List.flatMap_cons, List.length_append, List.length_cons, Nat.succ_mul]
      have : (pinRun g (verts ++ ghosts) t types[t].pins i).length ≤ types[t].pins.flatten.length := by
        unfold pinRun
        rw [List.length_map, List.getD_eq_getElem?_getD]
        by_cases hi : i < types[t].pins.length
        · rw [List.getElem?_eq_getElem hi, Option.getD_some, List.length_flatten]
          exact le_sum_of_mem (List.mem_map.mpr ⟨_, List.getElem_mem hi, rfl⟩)
        · rw [List.getElem?_eq_none (by omega)]; simp
      omega
  have h2 := h1 (adjOf true (verts ++ ghosts) types[t].pins v)
  have h3 : (adjOf true (verts ++ ghosts) types[t].pins v).length ≤ types[t].pins.flatten.length := by
    rw [adjOf_length]; unfold degOf; rw [if_pos rfl]; exact List.count_le_length
  have h4 : types[t].pins.flatten.length < g.bound := by omega
  unfold Graph.adjFuel
  calc _ ≤ _ := h2
    _ ≤ types[t].pins.flatten.length * types[t].pins.flatten.length := Nat.mul_le_mul_right _ h3
    _ < g.bound * g.bound := Nat.mul_lt_mul'' h4 h4

end
end Verif.Agi
