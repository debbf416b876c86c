import Verif.Part.SelectProps
import Verif.Part.TrimProps
import Verif.Part.TargetTrad
/-!
# C36 for traditional graphs: the selection

Specification: `Arc` and `arcsOf` (ParmetisSym) are the edges of all parts; everything else is stated with the API.
-/
namespace Verif.Part
open Verif.Agi

/-! ## specification -/

/-- vertex and edge weights are not negative -/
structure NonNegT (ins : List Input) (own : Gid → Nat) : Prop where
  verts : ∀ v ∈ allVerts ins, 0 ≤ weightOf ins own v
  edges : ∀ t, ∀ e ∈ arcsOf ins t, 0 ≤ e.w

/-- on every part the edges of type `t` have the same weight (otherwise edges have wrong weights, C08) -/
def SameWeights (ins : List Input) (t : Nat) : Prop :=
  ∀ i ∈ ins, ∀ e, i.types[t]? = some e → ∀ x ∈ e.edges, ∀ y ∈ e.edges, x.w = y.w

/-- the weight of vertex `u` in dimension `dim`: its own, or that of the edges of this type that leave it -/
def sourceWeight (ins : List Input) (own : Gid → Nat) (dim : Int) (u : Gid) : Rat :=
  if dim = -1 then weightOf ins own u
  else (((arcsOf ins dim.toNat).filter (fun e => decide (e.pins.head? = some u))).map HEdge.w).sum

/-- no vertex of part `p` with an edge to another part weighs more than `M` -/
def SourceBound (ins : List Input) (own : Gid → Nat) (p : Nat) (dim : Int) (M : Rat) : Prop :=
  0 ≤ M ∧ ∀ u w, Arc ins 0 u w → own u = p → own w ≠ p → sourceWeight ins own dim u ≤ M

/-- a vertex of part `p` has an edge to another part, and all other parts its edges reach want weight -/
def EagerT (ins : List Input) (own : Gid → Nat) (p : Nat) (targets : Cont Rat) : Prop :=
  ∃ u w, Arc ins 0 u w ∧ own u = p ∧ own w ≠ p ∧
    ∀ w', Arc ins 0 u w' → own w' ≠ p → targets.has (own w' : Int) = true ∧ 0 < targets.get (own w' : Int)

/-! ## proof -/

/-- the edges of `v` of type `t` as handles -/
def incT (g : Graph) (i : Input) (v : Gid) (t : Nat) : List Handle :=
  (List.range' (offs (fun u => degOf false (i.types.getD t ⟨[], [], []⟩).pins (i.verts.getD u 0)) (i.verts.idxOf v))
    (degOf false (i.types.getD t ⟨[], [], []⟩).pins v)).map (fun l => g.getEdge l t)

theorem SelFacts.inc_congr {g : Graph} {vs known : List Gid} {hnd : Gid → Handle} {EH : List Handle}
    {pinsOf : Handle → List Gid} {own : Gid → Part} {inc inc' : Gid → Nat → List Handle}
    (h : SelFacts g vs known hnd EH pinsOf own inc) (hi : ∀ v, inc' v 0 = inc v 0) :
    SelFacts g vs known hnd EH pinsOf own inc' := by
  refine ⟨h.numLocal, h.nodup, h.handle, h.pins, h.owner, h.mine, ?_⟩
  intro v hv
  rw [hi]
  exact h.edges0 v hv

section
variable {ins : List Input} {own : Gid → Nat} {T : Nat}

theorem incT_zero {g : Graph} {p : Nat} (hp : p < ins.length) (ht : 0 < ins[p].types.length) (v : Gid) :
    incT g ins[p] v 0 = tradInc g ins[p] ins[p].types[0].pins v 0 := by
  unfold incT tradInc
  rw [getD_types ht]

/-- an edge of the row of a vertex -/
theorem incT_mem (hd : TradDist ins own T) {g : Graph} {p n : Nat} (hp : p < ins.length) {ghosts : List Gid}
    (hr : PartRep g p n ins[p] own ghosts) {t : Nat} (ht : t < ins[p].types.length) {v : Gid} (hv : v ∈ ins[p].verts)
    {h : Handle} (hh : h ∈ incT g ins[p] v t) :
    ∃ k w, h = g.getEdge k t ∧ [v, w] ∈ ins[p].types[t].pins ∧
      (∃ hk : k < (Io.grouped ins[p].verts ins[p].types[t].pins).length, (Io.grouped ins[p].verts ins[p].types[t].pins)[k] = [v, w]) ∧
      k < ins[p].types[t].weights.length ∧
      ∀ d, g.isResidentOn h d = .ok (decide (∃ x ∈ [v, w], (own x : Int) = d)) := by
  have hc := hr.core
  rw [hd.uniform.hyper _ (List.getElem_mem hp)] at hc
  have hwf := (hd.dist.wf _ (List.getElem_mem hp)).edges _ (List.getElem_mem ht)
  have hs : ∀ x ∈ ins[p].types[t].pins, ∃ u ∈ ins[p].verts, ∃ w, u ≠ w ∧ x = [u, w] :=
    hd.sources _ (List.getElem_mem hp) _ (List.getElem_mem ht)
  have hnd := (hd.dist.wf _ (List.getElem_mem hp)).nodup
  have hu := List.idxOf_lt_length_of_mem hv
  have hvu : ins[p].verts[ins[p].verts.idxOf v] = v := List.getElem_idxOf hu
  unfold incT at hh
  rw [getD_types ht] at hh
  obtain ⟨k, hk, rfl⟩ := List.mem_map.mp hh
  rw [List.mem_range'_1] at hk
  obtain ⟨hkl, w, -, hg, hj, hf⟩ := row_at hs hu (k := k) hk.1 (by rw [hvu]; exact hk.2)
  rw [hvu] at hg hf
  have hperm := Io.grouped_perm hnd hs
  have hm : [v, w] ∈ ins[p].types[t].pins := by
    rw [← hg]; exact hperm.mem_iff.mp (List.getElem_mem hkl)
  refine ⟨k, w, rfl, hm, ⟨hkl, hg⟩, ?_, ?_⟩
  · rw [weights_length hwf, ← hperm.length_eq]; exact hkl
  · have hwk : w ∈ ins[p].verts ++ ghosts := hc.pins t ht w (List.mem_flatten.mpr ⟨_, hm, by simp⟩)
    have hj' : k - offT ins[p].verts ins[p].types[t].pins (ins[p].verts.idxOf v) <
        (adjOf false (ins[p].verts ++ ghosts) ins[p].types[t].pins ins[p].verts[ins[p].verts.idxOf v]).length := by
      unfold adjOf
      simp only [Bool.false_eq_true, if_false, List.length_map]
      exact hj
    have hadj : (adjOf false (ins[p].verts ++ ghosts) ins[p].types[t].pins
        ins[p].verts[ins[p].verts.idxOf v])[k - offT ins[p].verts ins[p].types[t].pins (ins[p].verts.idxOf v)] =
        (ins[p].verts ++ ghosts).idxOf w := by
      have hgen : ∀ l : List Nat, l = adjOf false (ins[p].verts ++ ghosts) ins[p].types[t].pins ins[p].verts[ins[p].verts.idxOf v] →
          l[k - offT ins[p].verts ins[p].types[t].pins (ins[p].verts.idxOf v)]? = some ((ins[p].verts ++ ghosts).idxOf w) := by
        rintro l rfl
        unfold adjOf
        simp only [Bool.false_eq_true, if_false]
        rw [List.getElem?_map, hvu, hf]
        rfl
      have := hgen _ rfl
      rw [List.getElem?_eq_getElem hj'] at this
      exact Option.some.inj this
    have hres := residenceIs_trad hc hr.owners ht hu hj' hwk hadj
    rw [hvu, ownerOf_trad hd.dist hp hr] at hres
    have hko : offs (fun u => degOf false ins[p].types[t].pins (ins[p].verts.getD u 0)) (ins[p].verts.idxOf v) +
        (k - offT ins[p].verts ins[p].types[t].pins (ins[p].verts.idxOf v)) = k := by
      have : offT ins[p].verts ins[p].types[t].pins (ins[p].verts.idxOf v) =
        offs (fun u => degOf false ins[p].types[t].pins (ins[p].verts.getD u 0)) (ins[p].verts.idxOf v) := rfl
      omega
    rw [hko] at hres
    exact hres.2.1

theorem edge_of_part {p : Nat} (hp : p < ins.length) {t : Nat} (ht : t < ins[p].types.length) {x : HEdge}
    (hx : x ∈ ins[p].types[t].edges) : x ∈ arcsOf ins t := by
  rw [arcsOf_split hp ht]; simp [hx]

theorem weight_at (hd : TradDist ins own T) {p : Nat} (hp : p < ins.length) {t : Nat} (ht : t < ins[p].types.length)
    {k : Nat} (hk : k < ins[p].types[t].weights.length) : ∃ x ∈ ins[p].types[t].edges, x.w = ins[p].types[t].weights[k] := by
  have hwf := (hd.dist.wf _ (List.getElem_mem hp)).edges _ (List.getElem_mem ht)
  have h : ins[p].types[t].weights[k] ∈ ins[p].types[t].edges.map HEdge.w := by
    rw [(edges_zip ht hwf (fun _ => 0)).2]; exact List.getElem_mem hk
  obtain ⟨x, hx, he⟩ := List.mem_map.mp h
  exact ⟨x, hx, he⟩

theorem ewOf_trad (hd : TradDist ins own T) (hnn : NonNegT ins own) {g : Graph} {p n : Nat} (hp : p < ins.length)
    {ghosts : List Gid} (hr : PartRep g p n ins[p] own ghosts) {t : Nat} (ht : t < ins[p].types.length) {k : Nat}
    (hk : k < ins[p].types[t].weights.length) :
    g.weightE (g.getEdge k t) = .ok (ewOf g (g.getEdge k t)) ∧ ewOf g (g.getEdge k t) = ins[p].types[t].weights[k] := by
  have h5 := weightE_eq hr.core ht hk
  obtain ⟨x, hx, he⟩ := weight_at hd hp ht hk
  have h6 : 0 ≤ ins[p].types[t].weights[k] := by rw [← he]; exact hnn.edges t x (edge_of_part hp ht hx)
  unfold ewOf
  rw [h5]
  simp only
  rw [if_pos h6]
  exact ⟨rfl, rfl⟩

theorem facts_trad (hd : TradDist ins own T) (hnn : NonNegT ins own) {g : Graph} {p n : Nat} (hp : p < ins.length)
    {ghosts : List Gid} (hr : PartRep g p n ins[p] own ghosts) {dims : List Int}
    (hdims : ∀ d ∈ dims, -1 ≤ d ∧ d < (T : Int)) :
    Facts g ins[p].verts (fun v => getVertex (ins[p].verts.idxOf v)) dims (weightOf ins own)
      (incT g ins[p]) (resOf g) (ewOf g) := by
  have hc := hr.core
  rw [hd.uniform.hyper _ (List.getElem_mem hp)] at hc
  have htl : ∀ t : Nat, (t : Int) ∈ dims → t < ins[p].types.length := by
    intro t ht
    have := (hdims _ ht).2
    rw [hd.uniform.types _ (List.getElem_mem hp)]; omega
  refine ⟨?_, ?_, ?_, fun d h => (hdims d h).1⟩
  · intro v hv
    have hu := List.idxOf_lt_length_of_mem hv
    have hw := weightOf_verts hd.dist.verts (fun i hi => (hd.dist.wf i hi).nodup) hp
    rw [weight_local hc.v hr.weights hu (by rw [vertWeights_length]; exact hu)]
    simp only [hw, List.getElem_map, List.getElem_idxOf]
  · intro v hv t ht
    have htt := htl t ht
    have hu := List.idxOf_lt_length_of_mem hv
    have hy := yields_edges_trad hc htt hu
    rw [List.getElem_idxOf] at hy
    unfold incT
    rw [getD_types htt]
    refine ⟨hy, ?_⟩
    rw [List.length_map, List.length_range']
    obtain ⟨e, he, hrr, -⟩ := hc.typ t htt
    have hb := bound_ge he
    have h1 : degOf false ins[p].types[t].pins v ≤ ins[p].types[t].pins.length := by
      simp [degOf]; exact List.countP_le_length
    have := hrr.numE
    omega
  · intro v hv t ht e he
    have htt := htl t ht
    obtain ⟨k, w, rfl, -, -, hk, hres⟩ := incT_mem hd hp hr htt hv he
    refine ⟨?_, (ewOf_trad hd hnn hp hr htt hk).1⟩
    intro d
    unfold resOf
    rw [hres d]

theorem nodup_incT (hd : TradDist ins own T) {g : Graph} {p n : Nat} (hp : p < ins.length) {ghosts : List Gid}
    (hr : PartRep g p n ins[p] own ghosts) {t : Nat} (ht : t < ins[p].types.length) (v : Gid) : (incT g ins[p] v t).Nodup := by
  unfold incT
  apply List.Nodup.map_on
  · intro a _ b _ hab
    exact getEdge_inj (by rw [hr.core.numTypes]; exact ht) hab
  · exact List.nodup_range'

/-- what one vertex weighs for another part is at most its weight -/
theorem load_single (hd : TradDist ins own T) (hnn : NonNegT ins own) {g : Graph} {p n : Nat} (hp : p < ins.length)
    {ghosts : List Gid} (hr : PartRep g p n ins[p] own ghosts) {dim : Int} (hdim : -1 ≤ dim ∧ dim < (T : Int))
    (hsame : dim ≠ -1 → SameWeights ins dim.toNat) (d : Part) {u : Gid} (hu : u ∈ ins[p].verts) :
    load (weightOf ins own) (incT g ins[p]) (resOf g) (ewOf g) dim d [u] ≤ sourceWeight ins own dim u := by
  unfold load sourceWeight
  by_cases h1 : dim = -1
  · rw [if_pos h1, if_pos h1]; simp
  rw [if_neg h1, if_neg h1]
  obtain ⟨t, rfl⟩ : ∃ t : Nat, dim = (t : Int) := ⟨dim.toNat, by omega⟩
  rw [Int.toNat_natCast] at hsame ⊢
  have htt : t < ins[p].types.length := by rw [hd.uniform.types _ (List.getElem_mem hp)]; omega
  have hwf := (hd.dist.wf _ (List.getElem_mem hp)).edges _ (List.getElem_mem htt)
  have hsm := hsame h1 _ (List.getElem_mem hp) _ (List.getElem?_eq_getElem htt)
  -- all brought edges are edges of `u`, and weigh the same
  have hsub : ((brought (incT g ins[p]) (resOf g) t d [u]).map (ewOf g)).sum ≤ ((incT g ins[p] u t).map (ewOf g)).sum := by
    apply sum_subset (nodup_brought _ _ _ _ _)
    · intro e he
      obtain ⟨⟨v, hv, he⟩, -⟩ := mem_brought.mp he
      rw [List.mem_singleton.mp hv] at he
      exact he
    · intro e _; exact ewOf_nonneg g e
  refine le_trans hsub ?_
  -- the edges of `u` on the part
  have hlen : (incT g ins[p] u t).length = (ins[p].types[t].edges.filter (fun e => decide (e.pins.head? = some u))).length := by
    unfold incT
    rw [getD_types htt, List.length_map, List.length_range']
    simp only [degOf, Bool.false_eq_true, if_false]
    rw [← edges_pins hwf, List.countP_map, List.countP_eq_length_filter]
    congr 1
    apply List.filter_congr
    intro x _
    simp only [Function.comp]
    cases x.pins with
    | nil => simp
    | cons a l =>
      simp only [List.getElem?_cons_zero, List.head?_cons]
      rw [Bool.eq_iff_iff]; simp
  have hpart : (((ins[p].types[t].edges.filter (fun e => decide (e.pins.head? = some u))).map HEdge.w).sum) ≤
      (((arcsOf ins t).filter (fun e => decide (e.pins.head? = some u))).map HEdge.w).sum := by
    have h0 : ∀ L : List HEdge, (∀ x ∈ L, x ∈ arcsOf ins t) → 0 ≤ ((L.filter (fun e => decide (e.pins.head? = some u))).map HEdge.w).sum :=
      fun L hL => sum_filter_nonneg (fun e he => hnn.edges t e (hL e he)) _
    have hsp := arcsOf_split hp htt
    have ha := h0 (arcsOf (ins.take p) t) (by intro x hx; rw [hsp]; simp [hx])
    have hb := h0 (arcsOf (ins.drop (p + 1)) t) (by intro x hx; rw [hsp]; simp [hx])
    rw [hsp, List.filter_append, List.filter_append, List.map_append, List.map_append, List.sum_append, List.sum_append]
    linarith
  refine le_trans (le_of_eq ?_) hpart
  by_cases hne : ins[p].types[t].edges = []
  · have : (incT g ins[p] u t) = [] := by
      apply List.length_eq_zero_iff.mp
      rw [hlen, hne]; rfl
    rw [this, hne]; rfl
  · obtain ⟨x0, hx0⟩ := List.exists_mem_of_ne_nil _ hne
    have ha : (incT g ins[p] u t).map (ewOf g) = List.replicate (incT g ins[p] u t).length x0.w := by
      rw [List.eq_replicate_iff]
      refine ⟨by simp, ?_⟩
      intro b hb
      obtain ⟨e, he, rfl⟩ := List.mem_map.mp hb
      obtain ⟨k, w, rfl, -, -, hk, -⟩ := incT_mem hd hp hr htt hu he
      rw [(ewOf_trad hd hnn hp hr htt hk).2]
      obtain ⟨x, hx, hxw⟩ := weight_at hd hp htt hk
      rw [← hxw]
      exact hsm x hx x0 hx0
    have hb : (ins[p].types[t].edges.filter (fun e => decide (e.pins.head? = some u))).map HEdge.w =
        List.replicate (incT g ins[p] u t).length x0.w := by
      rw [List.eq_replicate_iff]
      refine ⟨by rw [List.length_map, hlen], ?_⟩
      intro b hb
      obtain ⟨e, he, rfl⟩ := List.mem_map.mp hb
      exact hsm e (List.mem_filter.mp he).1 x0 hx0
    rw [ha, hb]

theorem selCtx_trad (hd : TradDist ins own T) (hnn : NonNegT ins own) {g : Graph} {p n : Nat} (hp : p < ins.length)
    {ghosts : List Gid} (hr : PartRep g p n ins[p] own ghosts) (hT : 0 < T) (ht : 0 < ins[p].types.length)
    {targets : Cont Rat} (hk : ∀ d, targets.has d = true → 0 ≤ d) {dim : Int} (hdim : -1 ≤ dim ∧ dim < (T : Int))
    (hsame : dim ≠ -1 → SameWeights ins dim.toNat)
    {ord : HashOrd} (hord : ord.Ok) (top : Nat) {M : Rat} (hM : SourceBound ins own p dim M) :
    SelCtx ord g ins[p].verts (ins[p].verts ++ ghosts) (fun v => getVertex ((ins[p].verts ++ ghosts).idxOf v))
      ((List.range (Io.grouped ins[p].verts ins[p].types[0].pins).length).map (fun k => g.getEdge k 0))
      (pinsOfE g (Io.grouped ins[p].verts ins[p].types[0].pins))
      (fun v => (own v : Int)) (incT g ins[p]) [dim, 0] (weightOf ins own) (resOf g) (ewOf g) targets dim
      (tradBoundary g own ins[p] ins[p].types[0].pins) top M := by
  have hf := facts_trad hd hnn hp hr (dims := [dim, 0]) (by
    intro d hd'
    rcases List.mem_cons.mp hd' with rfl | hd'
    · exact hdim
    · rw [List.mem_singleton.mp hd']; exact ⟨by omega, by exact_mod_cast hT⟩)
  -- a cavity is the source of the edge
  have hcav : ∀ h ∈ tradBoundary g own ins[p] ins[p].types[0].pins, ∀ c : List Gid, c.Nodup →
      (∀ v ∈ c, v ∈ ins[p].verts ∧ v ∈ pinsOfE g (Io.grouped ins[p].verts ins[p].types[0].pins) h) →
      c = [] ∨ ∃ u w, c = [u] ∧ u ∈ ins[p].verts ∧ Arc ins 0 u w ∧ own u = p ∧ own w ≠ p := by
    intro h hh c hcn hc
    obtain ⟨-, u, w, hu, hw, hm, hpe⟩ := mem_tradBoundary hd hp hr ht hh
    have hall : ∀ v ∈ c, v = u := by
      intro v hv
      obtain ⟨h1, h2⟩ := hc v hv
      rw [hpe] at h2
      simp only [List.mem_cons, List.not_mem_nil, or_false] at h2
      rcases h2 with h2 | h2
      · exact h2
      · exact absurd (h2 ▸ h1) hw
    have hwk : w ∈ ins[p].verts ++ ghosts := hr.core.pins 0 ht w (List.mem_flatten.mpr ⟨_, hm, by simp⟩)
    match c, hcn, hall with
    | [], _, _ => exact .inl rfl
    | [a], _, hall =>
      right
      refine ⟨u, w, by rw [hall a (by simp)], hu, (arc_part hd hp ht hu w).mpr hm, hd.dist.verts p hp u hu, ?_⟩
      intro h
      exact hw ((dist_mine hd.dist hp hr hwk).mp h)
    | a :: b :: l, hcn, hall =>
      exfalso
      have h1 := hall a (by simp)
      have h2 := hall b (by simp)
      rw [List.nodup_cons] at hcn
      exact hcn.1 (by rw [h1, h2]; simp)
  refine ⟨hord, (selFacts_trad hd hp hr ht).inc_congr (incT_zero hp ht), hf.congr ?_, by simp, by simp, ?_,
    ewOf_nonneg g, hk, ?_, ?_, ?_⟩
  · intro v hv
    simp only [List.idxOf_append_of_mem hv]
  · intro v hv
    exact hnn.verts v (List.mem_flatten.mpr ⟨_, List.mem_map.mpr ⟨_, List.getElem_mem hp, rfl⟩, hv⟩)
  · intro h hh
    exact (mem_tradBoundary hd hp hr ht hh).1
  · intro h hh c hcn hc _ d _
    rcases hcav h hh c hcn hc with rfl | ⟨u, w, rfl, hu, ha, ho, how⟩
    · have : load (weightOf ins own) (incT g ins[p]) (resOf g) (ewOf g) dim d [] = 0 := by
        unfold load
        split
        · simp
        · simp [brought]
      rw [this]; exact hM.1
    · exact le_trans (load_single hd hnn hp hr hdim hsame d hu) (hM.2 u w ha ho how)
  · intro h hh c hcn hc
    rcases hcav h hh c hcn hc with rfl | ⟨u, w, rfl, -⟩
    · simp
    · simp

/-- the iteration queue of a part -/
theorem queue_tradPart (hd : TradDist ins own T) {g : Graph} {p n : Nat} (hp : p < ins.length)
    {ghosts : List Gid} (hr : PartRep g p n ins[p] own ghosts) (ht : 0 < ins[p].types.length) :
    ∃ q, iterationQueue g = .ok q ∧ QRep q (tradBoundary g own ins[p] ins[p].types[0].pins).length []
      (tradBoundary g own ins[p] ins[p].types[0].pins) := by
  have hc := hr.core
  rw [hd.uniform.hyper _ (List.getElem_mem hp)] at hc
  have hnd := (hd.dist.wf _ (List.getElem_mem hp)).nodup
  have hs : ∀ x ∈ ins[p].types[0].pins, ∃ u ∈ ins[p].verts, ∃ w, u ≠ w ∧ x = [u, w] :=
    hd.sources _ (List.getElem_mem hp) _ (List.getElem_mem ht)
  have hq := queue_trad hc hr.owners ht (by
    intro x hx
    obtain ⟨u, hu, w, -, rfl⟩ := hs x hx
    exact hu) hnd
  rw [ownerOf_trad hd.dist hp hr] at hq
  exact hq

/-- the edge of an eager vertex is ready -/
theorem ready_of_eagerT (hd : TradDist ins own T) {g : Graph} {p n : Nat} (hp : p < ins.length)
    {ghosts : List Gid} (hr : PartRep g p n ins[p] own ghosts) (ht : 0 < ins[p].types.length)
    {targets : Cont Rat} (he : EagerT ins own p targets) {k : Nat} (hk : 2 ≤ k) :
    ∃ h ∈ tradBoundary g own ins[p] ins[p].types[0].pins,
      Ready g.self ins[p].verts (pinsOfE g (Io.grouped ins[p].verts ins[p].types[0].pins)) (fun v => (own v : Int))
        (incT g ins[p]) targets k h := by
  obtain ⟨u, w, ha, hu, hw, hall⟩ := he
  have hn : 0 < g.numTypes := by rw [hr.core.numTypes]; exact ht
  have huv : u ∈ ins[p].verts := by
    obtain ⟨x, hx, hxe⟩ := ha
    obtain ⟨i, hi, hx⟩ := List.mem_flatMap.mp hx
    obtain ⟨q, hq, rfl⟩ := List.mem_iff_getElem.mp hi
    cases hte : ins[q].types[0]? with
    | none => simp [hte] at hx
    | some e =>
      rw [hte] at hx
      obtain ⟨a, hav, w', -, he'⟩ := hd.sources _ (List.getElem_mem hq) e (List.mem_of_getElem? hte) _ (edge_pins_mem hx)
      rw [hxe] at he'
      simp only [List.cons.injEq] at he'
      rw [← he'.1] at hav
      have := hd.dist.verts q hq u hav
      rw [hu] at this
      subst this
      exact hav
  have hm := (arc_part hd hp ht huv w).mp ha
  have hnd := (hd.dist.wf _ (List.getElem_mem hp)).nodup
  have hs : ∀ x ∈ ins[p].types[0].pins, ∃ u ∈ ins[p].verts, ∃ w, u ≠ w ∧ x = [u, w] :=
    hd.sources _ (List.getElem_mem hp) _ (List.getElem_mem ht)
  have hperm := Io.grouped_perm hnd hs
  -- the edge is in the row of `u`
  have hui := List.idxOf_lt_length_of_mem huv
  have hvu : ins[p].verts[ins[p].verts.idxOf u] = u := List.getElem_idxOf hui
  have hmf : [u, w] ∈ ins[p].types[0].pins.filter (fun x => x[0]? == some u) := List.mem_filter.mpr ⟨hm, by simp⟩
  obtain ⟨j, hj, hje⟩ := List.mem_iff_getElem.mp hmf
  have hat := Io.grouped_at hui (es := ins[p].types[0].pins) (j := j) (by rw [hvu]; exact hj)
  have hat' : (Io.grouped ins[p].verts ins[p].types[0].pins)[offs (fun x => degOf false ins[p].types[0].pins (ins[p].verts.getD x 0)) (ins[p].verts.idxOf u) + j]? = some [u, w] := by
    rw [hat]
    simp only [hvu, hje]
  obtain ⟨hkl, hke⟩ := List.getElem?_eq_some_iff.mp hat'
  set l := offs (fun x => degOf false ins[p].types[0].pins (ins[p].verts.getD x 0)) (ins[p].verts.idxOf u) + j with hl
  have hpe : pinsOfE g (Io.grouped ins[p].verts ins[p].types[0].pins) (g.getEdge l 0) = [u, w] := by
    rw [pinsOfE_getEdge hn hkl, hke]
  have hinc : g.getEdge l 0 ∈ incT g ins[p] u 0 := by
    unfold incT
    rw [getD_types ht]
    refine List.mem_map.mpr ⟨l, ?_, rfl⟩
    rw [List.mem_range'_1]
    have hdeg : degOf false ins[p].types[0].pins u = (ins[p].types[0].pins.filter (fun x => x[0]? == some u)).length := by
      simp [degOf, List.countP_eq_length_filter]
    omega
  refine ⟨g.getEdge l 0, ?_, ?_⟩
  · unfold tradBoundary boundaryEdges
    refine List.mem_map.mpr ⟨l, List.mem_filter.mpr ⟨List.mem_range.mpr hkl, ?_⟩, rfl⟩
    rw [List.getD_eq_getElem?_getD, List.getElem?_eq_getElem hkl, Option.getD_some, hke, decide_eq_true_iff, hr.rank]
    exact ⟨w, by simp, by simpa using hw⟩
  · intro c hcn hc
    have hwv : w ∉ ins[p].verts := fun h => hw (hd.dist.verts p hp w h)
    have hall' : ∀ v ∈ c, v = u := by
      intro v hv
      obtain ⟨h1, h2⟩ := (hc v).mp hv
      rw [hpe] at h2
      simp only [List.mem_cons, List.not_mem_nil, or_false] at h2
      rcases h2 with h2 | h2
      · exact h2
      · exact absurd (h2 ▸ h1) hwv
    have hcu : u ∈ c := (hc u).mpr ⟨huv, by rw [hpe]; simp⟩
    have hlen : c.length ≤ 1 := by
      have := length_le_of_subset hcn (d := [u]) (fun v hv => by rw [hall' v hv]; simp)
      simpa using this
    refine ⟨by omega, by rintro rfl; simp at hcu, ⟨(own w : Int), ?_⟩, ?_⟩
    · unfold surface
      rw [List.countP_pos_iff]
      refine ⟨g.getEdge l 0, ?_, ?_⟩
      · unfold cavityEdges
        rw [List.mem_dedup, List.mem_flatMap]
        exact ⟨u, hcu, hinc⟩
      · rw [decide_eq_true_iff]
        refine ⟨w, by rw [hpe]; simp, ?_⟩
        unfold dstOf
        rw [hr.rank, if_pos (by simpa using hw)]
    · intro q hq
      unfold surface at hq
      rw [List.countP_pos_iff] at hq
      obtain ⟨h', hh', hj'⟩ := hq
      rw [decide_eq_true_iff] at hj'
      obtain ⟨x, hx, hdst⟩ := hj'
      unfold cavityEdges at hh'
      rw [List.mem_dedup, List.mem_flatMap] at hh'
      obtain ⟨v, hv, hin⟩ := hh'
      rw [hall' v hv] at hin
      obtain ⟨k', w', rfl, hm', ⟨hk1, hk2⟩, -⟩ := incT_mem hd hp hr ht huv hin
      rw [pinsOfE_getEdge hn hk1, hk2] at hx
      unfold dstOf at hdst
      rw [hr.rank] at hdst
      split at hdst
      · rename_i hne
        obtain rfl : (own x : Int) = q := by simpa using hdst
        have hxw : x = w' := by
          simp only [List.mem_cons, List.not_mem_nil, or_false] at hx
          rcases hx with rfl | rfl
          · exact absurd (show ((own x : Nat) : Int) = (p : Int) by rw [hu]) hne
          · rfl
        subst hxw
        exact hall x ((arc_part hd hp ht huv x).mpr hm') (by simpa using hne)
      · simp at hdst

end
end Verif.Part
