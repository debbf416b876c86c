import Verif.Part.WSelProps
import Verif.Part.ParmetisSym
/-!
# C45 for traditional graphs: planning weight diffusion
-/
namespace Verif.Part
open Verif.Agi

section
variable {ins : List Input} {own : Gid → Nat} {T : Nat}

/-- an edge of the graph of part `p` that is on the boundary, by its handle -/
theorem dist_mine (hd : Dist ins own) {g : Graph} {p n : Nat} (hp : p < ins.length) {ghosts : List Gid}
    (hr : PartRep g p n ins[p] own ghosts) {v : Gid} (hv : v ∈ ins[p].verts ++ ghosts) :
    own v = p ↔ v ∈ ins[p].verts := by
  constructor
  · intro h
    rcases List.mem_append.mp hv with hv | hv
    · exact hv
    · obtain ⟨h1, -⟩ := (hr.mem_ghosts v).mp hv
      obtain ⟨h2, h3⟩ := hd.pins p hp v h1
      simp only [h] at h3
      exact h3
  · intro h; exact hd.verts p hp v h

theorem ownerOf_trad (hd : Dist ins own) {g : Graph} {p n : Nat} (hp : p < ins.length) {ghosts : List Gid}
    (hr : PartRep g p n ins[p] own ghosts) :
    ownerOf g.self ins[p].verts (fun v => (own v : Int)) = fun v => (own v : Int) := by
  funext v
  unfold ownerOf
  split
  · rename_i hv
    rw [hr.rank, hd.verts p hp v hv]
  · rfl

/-- the edges of type 0 at a vertex -/
def tradInc (g : Graph) (i : Input) (es : List (List Gid)) (v : Gid) (_t : Nat) : List Handle :=
  (List.range' (offs (fun u => degOf false es (i.verts.getD u 0)) (i.verts.idxOf v)) (degOf false es v)).map (fun l => g.getEdge l 0)

theorem selFacts_trad (hd : TradDist ins own T) {g : Graph} {p n : Nat} (hp : p < ins.length)
    {ghosts : List Gid} (hr : PartRep g p n ins[p] own ghosts) (ht : 0 < ins[p].types.length) :
    SelFacts g ins[p].verts (ins[p].verts ++ ghosts) (fun v => getVertex ((ins[p].verts ++ ghosts).idxOf v))
      ((List.range (Io.grouped ins[p].verts ins[p].types[0].pins).length).map (fun k => g.getEdge k 0))
      (pinsOfE g (Io.grouped ins[p].verts ins[p].types[0].pins))
      (fun v => (own v : Int)) (tradInc g ins[p] ins[p].types[0].pins) := by
  have hc := hr.core
  rw [hd.uniform.hyper _ (List.getElem_mem hp)] at hc
  have hn : 0 < g.numTypes := by rw [hc.numTypes]; exact ht
  obtain ⟨et, het, hrt, -⟩ := hc.typ 0 ht
  have hb := bound_ge het
  have hnP := hrt.numP
  have hnE := hrt.numE
  have hwf := hc.wf _ (List.getElem_mem ht)
  have hnd := (hd.dist.wf _ (List.getElem_mem hp)).nodup
  have hs : ∀ x ∈ ins[p].types[0].pins, ∃ u ∈ ins[p].verts, ∃ w, u ≠ w ∧ x = [u, w] :=
    hd.sources _ (List.getElem_mem hp) _ (List.getElem_mem ht)
  have hperm := Io.grouped_perm hnd hs
  refine ⟨hc.v.nl, hnd, ?_, ?_, ?_, ?_, ?_⟩
  · intro v hv
    simp only [List.idxOf_append_of_mem hv]
  · intro e he
    obtain ⟨k, hk, rfl⟩ := List.mem_map.mp he
    rw [List.mem_range] at hk
    rw [pinsOfE_getEdge hn hk]
    have hkc : k < (Io.canon false ins[p].verts ins[p].types[0]).length := by
      rw [Io.canon_length hwf, ← hperm.length_eq]; exact hk
    have hat := Io.edgeAt_trad hc ht hs hkc
    have hpe : ((Io.canon false ins[p].verts ins[p].types[0])[k]).pins = (Io.grouped ins[p].verts ins[p].types[0].pins)[k] := by
      have h1 : k < ins[p].types[0].pins.length := by rw [← hperm.length_eq]; exact hk
      have : (Io.canon false ins[p].verts ins[p].types[0])[k]? =
          some ⟨Int.ofNat k, (Io.grouped ins[p].verts ins[p].types[0].pins)[k], (ins[p].types[0].weights).getD k 0⟩ := by
        unfold Io.canon
        simp only [Bool.false_eq_true, if_false]
        rw [List.getElem?_map, List.getElem?_range h1, Option.map_some, List.getD_eq_getElem?_getD,
          List.getElem?_eq_getElem hk, Option.getD_some]
      rw [List.getElem?_eq_getElem hkc] at this
      rw [Option.some.inj this]
    have hmem : (Io.grouped ins[p].verts ins[p].types[0].pins)[k] ∈ ins[p].types[0].pins :=
      hperm.mem_iff.mp (List.getElem_mem hk)
    refine ⟨?_, ?_, ?_⟩
    · have h4 := hat.pins
      rw [hpe] at h4
      exact h4
    · obtain ⟨u, -, w, -, hx⟩ := hs _ hmem
      rw [hx]
      have h1 : 2 ≤ ins[p].types[0].pins.flatten.length := by
        rw [List.length_flatten]
        have : ([u, w] : List Gid).length ≤ (ins[p].types[0].pins.map List.length).sum :=
          List.single_le_sum (by simp) _ (List.mem_map.mpr ⟨_, hmem, by rw [hx]⟩)
        exact this
      show 2 < g.bound
      omega
    · intro v hv
      exact hc.pins 0 ht v (List.mem_flatten.mpr ⟨_, hmem, hv⟩)
  · intro v hv
    have := owner_eq hc.v hr.owners hv
    rw [ownerOf_trad hd.dist hp hr] at this
    exact this
  · intro v hv
    rw [hr.rank, ← dist_mine hd.dist hp hr hv]
    constructor
    · intro h; have h' : (own v : Int) = (p : Int) := h; omega
    · intro h; rw [h]
  · intro v hv
    have hu := List.idxOf_lt_length_of_mem hv
    have hy := yields_edges_trad hc ht hu
    rw [List.getElem_idxOf] at hy
    simp only [List.idxOf_append_of_mem hv]
    have hle : offs (fun u => degOf false ins[p].types[0].pins (ins[p].verts.getD u 0)) (ins[p].verts.idxOf v) +
        degOf false ins[p].types[0].pins v ≤ (Io.grouped ins[p].verts ins[p].types[0].pins).length := by
      rw [Io.grouped_length]
      have h1 := offs_mono (fun u => degOf false ins[p].types[0].pins (ins[p].verts.getD u 0)) (show ins[p].verts.idxOf v + 1 ≤ ins[p].verts.length from hu)
      rw [offs_succ] at h1
      simp only [List.getD_eq_getElem?_getD, List.getElem?_eq_getElem hu, Option.getD_some, List.getElem_idxOf] at h1 ⊢
      exact h1
    refine ⟨hy, ?_, ?_⟩
    · unfold tradInc
      rw [List.length_map, List.length_range']
      have := hperm.length_eq
      omega
    · intro e he
      obtain ⟨k, hk, rfl⟩ := List.mem_map.mp he
      rw [List.mem_range'_1] at hk
      exact List.mem_map.mpr ⟨k, List.mem_range.mpr (by omega), rfl⟩

theorem grouped_eq (i : Input) (es : List (List Gid)) : Io.grouped i.verts es =
    i.verts.flatMap (fun v => es.filter (fun p => p[0]? == some v)) := rfl

/-- the boundary edges of a part -/
def tradBoundary (g : Graph) (own : Gid → Nat) (i : Input) (es : List (List Gid)) : List Handle :=
  boundaryEdges (fun k => g.getEdge k 0) g.self (fun v => (own v : Int)) (Io.grouped i.verts es)

theorem mem_tradBoundary (hd : TradDist ins own T) {g : Graph} {p n : Nat} (hp : p < ins.length)
    {ghosts : List Gid} (hr : PartRep g p n ins[p] own ghosts) (ht : 0 < ins[p].types.length) {h : Handle}
    (hh : h ∈ tradBoundary g own ins[p] ins[p].types[0].pins) :
    h ∈ (List.range (Io.grouped ins[p].verts ins[p].types[0].pins).length).map (fun k => g.getEdge k 0) ∧
    ∃ u w, u ∈ ins[p].verts ∧ w ∉ ins[p].verts ∧ [u, w] ∈ ins[p].types[0].pins ∧
      pinsOfE g (Io.grouped ins[p].verts ins[p].types[0].pins) h = [u, w] := by
  have hc := hr.core
  have hn : 0 < g.numTypes := by rw [hc.numTypes]; exact ht
  have hnd := (hd.dist.wf _ (List.getElem_mem hp)).nodup
  have hs : ∀ x ∈ ins[p].types[0].pins, ∃ u ∈ ins[p].verts, ∃ w, u ≠ w ∧ x = [u, w] :=
    hd.sources _ (List.getElem_mem hp) _ (List.getElem_mem ht)
  have hperm := Io.grouped_perm hnd hs
  unfold tradBoundary boundaryEdges at hh
  obtain ⟨k, hk, rfl⟩ := List.mem_map.mp hh
  rw [List.mem_filter, List.mem_range, decide_eq_true_eq] at hk
  obtain ⟨hk, v, hv, hvo⟩ := hk
  rw [List.getD_eq_getElem?_getD, List.getElem?_eq_getElem hk, Option.getD_some] at hv
  have hmem : (Io.grouped ins[p].verts ins[p].types[0].pins)[k] ∈ ins[p].types[0].pins :=
    hperm.mem_iff.mp (List.getElem_mem hk)
  refine ⟨List.mem_map.mpr ⟨k, List.mem_range.mpr hk, rfl⟩, ?_⟩
  rw [pinsOfE_getEdge hn hk]
  obtain ⟨u, hu, w, -, hx⟩ := hs _ hmem
  rw [hx] at hv hmem ⊢
  refine ⟨u, w, hu, ?_, hmem, rfl⟩
  intro hw
  apply hvo
  rw [hr.rank]
  simp only [List.mem_cons, List.not_mem_nil, or_false] at hv
  rcases hv with rfl | rfl
  · show (own _ : Int) = (p : Int)
    rw [hd.dist.verts p hp _ hu]
  · show (own _ : Int) = (p : Int)
    rw [hd.dist.verts p hp _ hw]

theorem wCtx_trad (hd : TradDist ins own T) {g : Graph} {p n : Nat} (hp : p < ins.length)
    {ghosts : List Gid} (hr : PartRep g p n ins[p] own ghosts) (ht : 0 < ins[p].types.length)
    {ord : HashOrd} (hord : ord.Ok) (hnn : ∀ v ∈ ins[p].verts, 0 ≤ weightOf ins own v)
    (hsm : ∀ v ∈ ins[p].verts, weightOf ins own v < 2147483648) :
    WCtx ord g ins[p].verts (ins[p].verts ++ ghosts) (fun v => getVertex ((ins[p].verts ++ ghosts).idxOf v))
      ((List.range (Io.grouped ins[p].verts ins[p].types[0].pins).length).map (fun k => g.getEdge k 0))
      (pinsOfE g (Io.grouped ins[p].verts ins[p].types[0].pins))
      (fun v => (own v : Int)) (tradInc g ins[p] ins[p].types[0].pins) (weightOf ins own)
      (tradBoundary g own ins[p] ins[p].types[0].pins) := by
  refine ⟨hord, selFacts_trad hd hp hr ht, ?_, hnn, hsm, ?_⟩
  · intro v hv
    have hu := List.idxOf_lt_length_of_mem hv
    have hw := weightOf_verts hd.dist.verts (fun i hi => (hd.dist.wf i hi).nodup) hp
    simp only [List.idxOf_append_of_mem hv]
    rw [weight_local hr.core.v hr.weights hu (by rw [vertWeights_length]; exact hu)]
    simp only [hw, List.getElem_map, List.getElem_idxOf]
  · intro h hh
    obtain ⟨h1, u, w, hu, -, -, hpe⟩ := mem_tradBoundary hd hp hr ht hh
    exact ⟨h1, u, by rw [hpe]; simp, hu⟩

/-- what a part's plan contains, in a traditional graph -/
theorem weightPlan_trad (hd : TradDist ins own T) {g : Graph} {p n : Nat} (hp : p < ins.length)
    {ghosts : List Gid} (hr : PartRep g p n ins[p] own ghosts) (ht : 0 < ins[p].types.length)
    {ord : HashOrd} (hord : ord.Ok) (hnn : ∀ v ∈ ins[p].verts, 0 ≤ weightOf ins own v)
    (hsm : ∀ v ∈ ins[p].verts, weightOf ins own v < 2147483648) (targets : Cont Rat) (m : Nat) :
    ∃ s, ∃ l : List (Gid × Gid × Nat), weightPlan ord g targets m = .ok s ∧ (∀ x ∈ s.plan, x.2 ≠ []) ∧
      planEntries s.plan = l.map (fun y => (getVertex ((ins[p].verts ++ ghosts).idxOf y.1),
        getVertex ((ins[p].verts ++ ghosts).idxOf y.2.1), (y.2.2 : Rat))) ∧
      (∀ x ∈ l, x.1 ∈ ins[p].verts ∧ own x.2.1 ≠ p ∧ [x.1, x.2.1] ∈ ins[p].types[0].pins ∧
        targets.has (own x.2.1 : Int) = true ∧ 0 < targets.get (own x.2.1 : Int) ∧ x.2.1 ∈ ins[p].verts ++ ghosts) ∧
      (∀ v ∈ ins[p].verts, moved l (fun a _ => a = v) ≤ weightOf ins own v) ∧
      (∀ q : Nat, moved l (fun _ b => own b = q) ≤ max 0 (targets.get (q : Int))) ∧
      moved l (fun _ _ => True) = s.planW := by
  have hc := hr.core
  rw [hd.uniform.hyper _ (List.getElem_mem hp)] at hc
  have hnd := (hd.dist.wf _ (List.getElem_mem hp)).nodup
  have hs : ∀ x ∈ ins[p].types[0].pins, ∃ u ∈ ins[p].verts, ∃ w, u ≠ w ∧ x = [u, w] :=
    hd.sources _ (List.getElem_mem hp) _ (List.getElem_mem ht)
  have hq := queue_trad hc hr.owners ht (by
    intro x hx
    obtain ⟨u, hu, w, -, rfl⟩ := hs x hx
    exact hu) hnd
  rw [ownerOf_trad hd.dist hp hr] at hq
  obtain ⟨s, l, e1, h1, h2, h3, h4, h5, h6⟩ := weightPlan_ctx (wCtx_trad hd hp hr ht hord hnn hsm) hq targets m
  refine ⟨s, l, e1, h1, h2, ?_, h4, h5, h6⟩
  intro x hxl
  obtain ⟨q1, q2, ⟨e, he, q3, q4⟩, q5, q6, q7⟩ := h3 x hxl
  obtain ⟨-, u, w, hu, hw, hmem, hpe⟩ := mem_tradBoundary hd hp hr ht he
  rw [hpe] at q3 q4
  have hxu : x.1 = u := by
    simp only [List.mem_cons, List.not_mem_nil, or_false] at q3
    rcases q3 with h | h
    · exact h
    · exact absurd (h ▸ q1) hw
  have hxw : x.2.1 = w := by
    simp only [List.mem_cons, List.not_mem_nil, or_false] at q4
    rcases q4 with h | h
    · exact absurd (h ▸ hu) q2
    · exact h
  refine ⟨q1, ?_, by rw [hxu, hxw]; exact hmem, q5, q6, q7⟩
  intro h
  exact q2 ((dist_mine hd.dist hp hr q7).mp h)

end
end Verif.Part
