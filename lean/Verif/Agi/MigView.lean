import Verif.Agi.AdjLemmas
import Verif.Agi.PlanLemmas
import Verif.Agi.GhostLemmas
/-!
# The view of a part the migration code works on (hypergraph, one edge type)
-/
namespace Verif.Agi

/-- the handle of a known vertex -/
abbrev vh (known : List Gid) (v : Gid) : Handle := getVertex (known.idxOf v)

/-- handle `h` is hyperedge `E` -/
structure EdgeAt (g : Graph) (known : List Gid) (h : Handle) (E : HEdge) : Prop where
  id : g.globalIDE h = .ok E.id
  w : g.weightE h = .ok E.w
  deg : g.degreeE h = .ok ((E.pins.length : Nat) : Int)
  pins : YieldsFrom (g.pins h) g.iterPin (E.pins.map (vh known))

/-- what migration sees of a part: vertices, and edges of type 0 with their handles -/
structure MView (g : Graph) (verts ghosts : List Gid) (ez : List (Handle × HEdge)) : Prop where
  v : VRep g verts ghosts
  hyp : g.isHyper = true
  nodup : (ez.map Prod.fst).Nodup
  edges : YieldsFrom (g.edgeBegin 0) g.iterEdge (ez.map Prod.fst)
  at_ : ∀ x ∈ ez, EdgeAt g (verts ++ ghosts) x.1 x.2
  adj : ∀ v ∈ verts, ∃ it run, g.adjacent (vh (verts ++ ghosts) v) 0 = .ok it ∧ AdjRun g it run ∧
    run.length < g.adjFuel ∧ ∀ x h, (x, h) ∈ run ↔
      ∃ E, (h, E) ∈ ez ∧ v ∈ E.pins ∧ ∃ u ∈ E.pins, x = vh (verts ++ ghosts) u
  known : ∀ x ∈ ez, ∀ v ∈ x.2.pins, v ∈ verts ++ ghosts
  fuelE : ez.length < g.bound
  fuelP : ∀ x ∈ ez, x.2.pins.length < g.bound

/-- the edges of one type with their handles -/
def edgeHandles (g : Graph) (t : Nat) (es : List HEdge) : List (Handle × HEdge) :=
  (List.range es.length).zip es |>.map (fun x => (g.getEdge x.1 t, x.2))

theorem vh_local {verts ghosts : List Gid} {v : Gid} (hv : v ∈ verts) :
    vh (verts ++ ghosts) v = getVertex (verts.idxOf v) := by
  unfold vh; rw [List.idxOf_append_of_mem hv]

theorem edges_getElem {e : EdgeInput} {k : Nat} (hk : k < e.edges.length)
    (h1 : k < e.ids.length) (h2 : k < e.pins.length) (h3 : k < e.weights.length) :
    e.edges[k] = ⟨e.ids[k], e.pins[k], e.weights[k]⟩ := by
  have : e.edges[k]? = some ⟨e.ids[k], e.pins[k], e.weights[k]⟩ := by
    unfold EdgeInput.edges
    rw [List.getElem?_map, List.getElem?_eq_getElem (by simp; omega)]
    simp
  rw [List.getElem?_eq_getElem hk] at this
  exact Option.some.inj this

theorem MView.of_crep {g : Graph} {verts ghosts : List Gid} {e : EdgeInput}
    (h : CRep g true verts ghosts [e]) (hne : ∀ p ∈ e.pins, p ≠ []) :
    MView g verts ghosts (edgeHandles g 0 e.edges) := by
  have hwf : e.WF true := h.wf e (by simp)
  have hlen := edges_length hwf
  have hwl := weights_length hwf
  have hnt : g.numTypes = 1 := h.numTypes
  have ht : 0 < [e].length := by simp
  have hfst : (edgeHandles g 0 e.edges).map Prod.fst = (List.range e.edges.length).map (fun k => g.getEdge k 0) := by
    unfold edgeHandles
    rw [List.map_map]
    apply List.ext_getElem
    · simp
    · intro k h1 h2; simp
  have hmem : ∀ x, x ∈ edgeHandles g 0 e.edges ↔ ∃ k, ∃ hk : k < e.edges.length, x = (g.getEdge k 0, e.edges[k]) := by
    intro x
    unfold edgeHandles
    rw [List.mem_map]
    constructor
    · rintro ⟨y, hy, rfl⟩
      obtain ⟨k, hk, rfl⟩ := List.mem_iff_getElem.mp hy
      simp only [List.length_zip, List.length_range, Nat.min_self] at hk
      exact ⟨k, hk, by simp⟩
    · rintro ⟨k, hk, rfl⟩
      refine ⟨(k, e.edges[k]), ?_, rfl⟩
      rw [List.mem_iff_getElem]
      exact ⟨k, by simpa using hk, by simp⟩
  have hb := pins_lt_bound' h ht
  simp only [List.getElem_cons_zero] at hb
  refine ⟨h.v, h.hyp, ?_, ?_, ?_, ?_, ?_, ?_, ?_⟩
  · rw [hfst]
    apply List.Nodup.map_on _ List.nodup_range
    intro a _ b _ hab
    unfold Graph.getEdge at hab
    rw [hnt] at hab; omega
  · have := yields_edgeBegin h ht
    rw [hfst, hlen]
    simpa using this
  · intro x hx
    obtain ⟨k, hk, rfl⟩ := (hmem x).mp hx
    have h1 : k < e.pins.length := by omega
    have h2 : k < e.ids.length := by rw [hwf.ids_len]; exact h1
    have h3 : k < e.weights.length := by omega
    simp only
    rw [edges_getElem hk h2 h1 h3]
    exact ⟨globalIDE_hyper h ht h2, weightE_eq h ht h3, degreeE_hyper h ht h1, yields_pins_hyper h ht h1⟩
  · intro v hv
    obtain ⟨u, hu, rfl⟩ := List.mem_iff_getElem.mp hv
    obtain ⟨it, hit, hrun⟩ := adjRun_vertex h ht hne hu
    refine ⟨it, _, ?_, hrun, adjRun_fuel h ht _, ?_⟩
    · rw [vh_local hv, (List.nodup_append.mp h.v.nodup).1.idxOf_getElem]; exact hit
    · intro x hh
      simp only [List.getElem_cons_zero]
      rw [List.mem_flatMap]
      constructor
      · rintro ⟨k, hk, hx⟩
        obtain ⟨hkl, hvk⟩ := mem_adjOf_hyper.mp hk
        unfold pinRun at hx
        rw [List.getD_eq_getElem?_getD, List.getElem?_eq_getElem hkl, Option.getD_some, List.mem_map] at hx
        obtain ⟨w, hw, he⟩ := hx
        rw [Prod.mk.injEq] at he
        have hk' : k < e.edges.length := by omega
        have h2 : k < e.ids.length := by rw [hwf.ids_len]; exact hkl
        refine ⟨e.edges[k], (hmem _).mpr ⟨k, hk', by rw [← he.2]⟩, ?_, ?_⟩
        · rw [edges_getElem hk' h2 hkl (by omega)]; exact hvk
        · rw [edges_getElem hk' h2 hkl (by omega)]; exact ⟨w, hw, he.1.symm⟩
      · rintro ⟨E, hE, hvE, w, hw, rfl⟩
        obtain ⟨k, hk, he⟩ := (hmem _).mp hE
        rw [Prod.mk.injEq] at he
        obtain ⟨rfl, rfl⟩ := he
        have hkl : k < e.pins.length := by omega
        have h2 : k < e.ids.length := by rw [hwf.ids_len]; exact hkl
        rw [edges_getElem hk h2 hkl (by omega)] at hvE hw
        refine ⟨k, mem_adjOf_hyper.mpr ⟨hkl, hvE⟩, ?_⟩
        unfold pinRun
        rw [List.getD_eq_getElem?_getD, List.getElem?_eq_getElem hkl, Option.getD_some, List.mem_map]
        exact ⟨w, hw, rfl⟩
  · intro x hx v hv
    obtain ⟨k, hk, rfl⟩ := (hmem x).mp hx
    have hkl : k < e.pins.length := by omega
    have h2 : k < e.ids.length := by rw [hwf.ids_len]; exact hkl
    simp only at hv
    rw [edges_getElem hk h2 hkl (by omega)] at hv
    exact h.pins 0 ht v (List.mem_flatten.mpr ⟨_, List.getElem_mem hkl, hv⟩)
  · have : (edgeHandles g 0 e.edges).length = e.edges.length := by simp [edgeHandles]
    omega
  · intro x hx
    obtain ⟨k, hk, rfl⟩ := (hmem x).mp hx
    have hkl : k < e.pins.length := by omega
    have h2 : k < e.ids.length := by rw [hwf.ids_len]; exact hkl
    simp only
    rw [edges_getElem hk h2 hkl (by omega)]
    have : e.pins[k].length ≤ e.pins.flatten.length := by
      rw [List.length_flatten]
      exact le_sum_of_mem (List.mem_map.mpr ⟨_, List.getElem_mem hkl, rfl⟩)
    simp only
    omega

theorem edgeHandles_snd (g : Graph) (t : Nat) (es : List HEdge) : (edgeHandles g t es).map Prod.snd = es := by
  unfold edgeHandles
  rw [List.map_map]
  apply List.ext_getElem
  · simp
  · intro k h1 h2; simp

/-- a part without vertices and edge types -/
theorem MView.of_empty {g : Graph} (h : CRep g true [] [] []) (h0 : g.types[0]? = some none) :
    MView g [] [] [] := by
  refine ⟨h.v, h.hyp, by simp, ⟨mkEdgeIt 0 g.numTypes 0 0 g.isHyper, ?_, ?_⟩, by simp, by simp, by simp, ?_, by simp⟩
  · unfold Graph.edgeBegin; rw [h0]
  · refine ⟨mkEdgeIt 0 g.numTypes 0 0 g.isHyper, ?_⟩
    unfold Graph.iterEdge mkEdgeIt
    simp
  · unfold Graph.bound; simp; omega

/-- the owner table does not matter for the view -/
theorem MView.of_owners {g g' : Graph} {verts ghosts : List Gid} {ez : List (Handle × HEdge)}
    (h : MView g verts ghosts ez) (he : g' = { g with owners := g'.owners }) : MView g' verts ghosts ez := by
  generalize g'.owners = o at he
  subst he
  obtain ⟨hv, h1, h2, h3, h4, h5, h6, h7, h8⟩ := h
  have hs : ∀ t, ({ g with owners := o } : Graph).slot t = g.slot t := fun _ => rfl
  refine ⟨⟨hv.nl, hv.ng, hv.nodup, hv.map, hv.loc, hv.gho⟩, h1, h2, h3, ?_, ?_, h6, h7, h8⟩
  · intro x hx
    obtain ⟨a, b, c, d⟩ := h4 x hx
    exact ⟨a, b, c, d⟩
  · intro v hv
    obtain ⟨it, run, a, b, c, d⟩ := h5 v hv
    refine ⟨it, run, a, ?_, c, d⟩
    clear a c d hs
    induction run generalizing it with
    | nil => exact b
    | cons x run ih =>
      obtain ⟨b1, b2, it', b3, b4, b5⟩ := b
      exact ⟨b1, b2, it', b3, b4, ih it' b5⟩

end Verif.Agi
