import Verif.Mesh.MeshTotals
/-!
# What can be read from a mesh graph
-/
namespace Verif.Mesh
open Verif.Agi

section
variable {dof : Bool} {ms : List MeshPart} {T p : Nat} {own : Gid → Nat} {tot : Nat → Int} {ord : Nat → Nat → List Nat}
  {gv : Int} {g : Graph} {gh : List Gid}

theorem verts_total (ms : List MeshPart) :
    (ms.map (fun m => (m.numOwned : Int))).sum = (((List.range ms.length).flatMap (fun q => (part ms q).verts)).length : Int) := by
  rw [List.length_flatMap, cast_sum, List.map_map, sum_parts]
  congr 1
  apply List.map_congr_left
  intro p _
  simp [MeshPart.numOwned, MeshPart.verts]

theorem mem_pinsIn {t : Nat} {e v : Gid} {o : Part} :
    (v, o) ∈ pinsIn ms t e ↔ ∃ q, q < ms.length ∧ o = (q : Int) ∧ v ∈ pinsFrom (part ms q) t e := by
  unfold pinsIn
  rw [List.mem_flatMap]
  constructor
  · rintro ⟨q, hq, h⟩
    obtain ⟨v', hv', he⟩ := List.mem_map.mp h
    rw [Prod.mk.injEq] at he
    exact ⟨q, List.mem_range.mp hq, he.2.symm, he.1 ▸ hv'⟩
  · rintro ⟨q, hq, rfl, h⟩
    exact ⟨q, List.mem_range.mpr hq, List.mem_map.mpr ⟨v, h, rfl⟩⟩

theorem MRep.reads (h : MRep dof ms own tot ord ((ms.map (fun m => (m.numOwned : Int))).sum) T p g gh) (hm : MeshOk ms T own)
    (hord : ∀ t, t < T → Orders ms.length (ord t)) (hp : p < ms.length) : ReadsMesh ms T (entW dof) tot p g := by
  have hgh : ∀ v o, (v ∈ gh ∧ o = (own v : Int)) ↔ o ≠ (p : Int) ∧
      ∃ t, t < T ∧ ∃ x ∈ (part ms p).entsOf t, (v, o) ∈ pinsIn ms t x.gid := by
    intro v o
    rw [h.ghosts]
    constructor
    · rintro ⟨⟨hnv, t, ht, x, hx, hvx⟩, rfl⟩
      obtain ⟨q, hq, hq'⟩ := (mem_pinsAt (hord t ht) hp).mp hvx
      obtain ⟨h2, h3⟩ := pinsFrom_own hm hq ht hq'
      refine ⟨?_, t, ht, x, hx, mem_pinsIn.mpr ⟨q, hq, by rw [h3], hq'⟩⟩
      intro he
      have : q = p := by omega
      exact hnv (this ▸ h2)
    · rintro ⟨hne, t, ht, x, hx, hvx⟩
      obtain ⟨q, hq, rfl, hq'⟩ := mem_pinsIn.mp hvx
      obtain ⟨h2, h3⟩ := pinsFrom_own hm hq ht hq'
      refine ⟨⟨?_, t, ht, x, hx, (mem_pinsAt (hord t ht) hp).mpr ⟨q, hq, hq'⟩⟩, by rw [h3]⟩
      intro hv
      obtain ⟨y, hy, hyv⟩ := List.mem_map.mp hv
      rw [List.mem_filter] at hy
      have := ((hm.elms p hp).2 y hy.1).mp hy.2
      rw [hyv, h3] at this
      exact hne (by rw [this])
  refine ⟨h.gids, fun x hx ho => ⟨h.weight (mem_verts hx ho), h.coord hx ho⟩, ?_, h.numTypes, ?_, ?_, ?_, ?_, ?_, ?_⟩
  · rw [h.gv, verts_total]
  · intro t ht
    refine ⟨_, h.edgeViews hm hp ht, ?_, ?_⟩
    · rw [List.map_map]; rfl
    · intro e he
      obtain ⟨x, hx, rfl⟩ := List.mem_map.mp he
      exact pinsAt_perm hm ht (hord t ht) hp x.gid
  · intro t ht x hx ho
    exact h.edgesOf hm hp ht hx ho
  · intro t ht
    unfold Graph.numGlobalEdges
    rw [Graph.slot_ok (h.types t ht), Outcome.bind_ok]
    rfl
  · intro t ht
    unfold numGlobalPins
    rw [Graph.slot_ok (h.types t ht), Outcome.bind_ok]
    simp only [meshType, Outcome.pure_eq]
    rw [pins_total hm ht]
  · intro h1
    refine ⟨_, h.ghostViews hm hp h1, ?_, ?_⟩
    · rw [List.map_map]
      have := (List.nodup_append.mp h.v.nodup).2.1
      simpa [Function.comp_def] using this
    · intro v o w
      rw [← hgh, List.mem_map]
      constructor
      · rintro ⟨v', hv', he⟩
        rw [Prod.mk.injEq, Prod.mk.injEq] at he
        obtain ⟨rfl, rfl, rfl⟩ := he
        exact ⟨rfl, hv', rfl⟩
      · rintro ⟨rfl, hv, rfl⟩
        exact ⟨v, hv, rfl⟩
  · intro h1
    rw [h.v.ng, List.length_eq_zero_iff, List.eq_nil_iff_forall_not_mem]
    intro v hv
    have := (hgh v (own v : Int)).mp ⟨hv, rfl⟩
    obtain ⟨hne, t, ht, x, hx, hvx⟩ := this
    obtain ⟨q, hq, he, -⟩ := mem_pinsIn.mp hvx
    apply hne
    rw [he]
    have : q = p := by omega
    rw [this]

end
end Verif.Mesh
