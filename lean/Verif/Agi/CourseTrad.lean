import Verif.Agi.CourseLemmas
/-! # Traditional graphs with self-loops under `checkValidity` -/
namespace Verif.Agi

/-- every edge starts at a local vertex -/
def TradLocal (i : Input) : Prop := ∀ e ∈ i.types, ∀ p ∈ e.pins, ∃ v ∈ i.verts, p[0]? = some v

/-- no edge of the type goes from a vertex to itself -/
def LoopFree (e : EdgeInput) : Prop := ∀ p ∈ e.pins, p[0]? ≠ p[1]?

instance (e : EdgeInput) : Decidable (LoopFree e) := by unfold LoopFree; infer_instance

/-- no edge of the part goes from a vertex to itself -/
def NoLoops (i : Input) : Prop := ∀ e ∈ i.types, LoopFree e

instance (i : Input) : Decidable (NoLoops i) := by unfold NoLoops; infer_instance

theorem iterAll_all {σ : Type} {step : σ → Outcome (Handle × σ)} {s : σ} {hs : List Handle} {fuel : Nat} {check : Handle → Outcome Bool}
    {b : Handle → Bool} (h : Yields step s hs) (hf : hs.length < fuel) (hc : ∀ x ∈ hs, check x = .ok (b x)) :
    iterAll step check fuel s = .ok (hs.all b) := by
  unfold iterAll
  rw [iterLoop_yields _ hs s fuel true h hf]
  clear h hf
  induction hs with
  | nil => rfl
  | cons x hs ih =>
    rw [loopList, hc x (by simp)]
    simp only [Outcome.bind_ok, Outcome.pure_eq]
    cases hb : b x with
    | true =>
      simp only [Bool.not_true, Bool.false_eq_true, if_false]
      refine (ih (fun x hx => hc x (by simp [hx]))).trans ?_
      rw [List.all_cons, hb, Bool.true_and]
    | false => simp [hb]

theorem loop_target {g : Graph} {verts ghosts : List Gid} {types : List EdgeInput}
    (h : CRep g false verts ghosts types) (hwf : ∀ e ∈ types, e.WF false) {t : Nat} (ht : t < types.length) {u : Nat}
    (hu : u < verts.length) {k : Nat}
    (hk : k < (adjOf false (verts ++ ghosts) types[t].pins verts[u]).length) :
    ∃ w, w ∈ verts ++ ghosts ∧ (adjOf false (verts ++ ghosts) types[t].pins verts[u])[k] = (verts ++ ghosts).idxOf w ∧
      ∃ p ∈ types[t].pins, p[0]? = some verts[u] ∧ p[1]? = some w ∧
        (types[t].pins.filter (fun p => p[0]? == some verts[u]))[k]? = some p := by
  have hk2 : k < (types[t].pins.filter (fun p => p[0]? == some verts[u])).length := by
    simpa [adjOf] using hk
  have hpm := List.getElem_mem hk2
  rw [List.mem_filter] at hpm
  have hlen := (hwf _ (List.getElem_mem ht)).two rfl _ hpm.1
  refine ⟨((types[t].pins.filter (fun p => p[0]? == some verts[u]))[k]).getD 1 0, ?_, ?_, _, hpm.1, ?_, ?_, ?_⟩
  · apply h.pins t ht
    rw [List.mem_flatten]
    refine ⟨_, hpm.1, ?_⟩
    rw [List.getD_eq_getElem?_getD, List.getElem?_eq_getElem (by omega)]
    exact List.getElem_mem _
  · simp [adjOf]
  · have h0 := hpm.2
    simpa only [beq_iff_eq] using h0
  · rw [List.getD_eq_getElem?_getD, List.getElem?_eq_getElem (by omega), Option.getD_some]
  · exact List.getElem?_eq_getElem _

theorem loop_pins {g : Graph} {verts ghosts : List Gid} {types : List EdgeInput}
    (h : CRep g false verts ghosts types) (hwf : ∀ e ∈ types, e.WF false) {t : Nat} (ht : t < types.length) {u : Nat}
    (hu : u < verts.length) {k : Nat} (hk : k < degOf false types[t].pins verts[u]) :
    ∃ p b, (types[t].pins.filter (fun p => p[0]? == some verts[u]))[k]? = some p ∧
      YieldsFrom (g.pins (g.getEdge (offs (fun u => degOf false types[t].pins (verts.getD u 0)) u + k) t))
      g.iterPin (if p[0]? = p[1]? then [getVertex u] else [getVertex u, b]) := by
  have hk' : k < (adjOf false (verts ++ ghosts) types[t].pins verts[u]).length := by rwa [adjOf_length]
  obtain ⟨w, hw, hadj, q, hq, q0, q1, hqk⟩ := loop_target h hwf ht hu hk'
  have hp := pins_trad h ht hu hk'
  rw [hadj] at hp
  have hy := yields_pinIt_trad h.hyp t (a := getVertex u) (b := getVertex ((verts ++ ghosts).idxOf w))
    (by simp [getVertex]) (by simp [getVertex])
  refine ⟨q, getVertex ((verts ++ ghosts).idxOf w), hqk, _, hp, ?_⟩
  have hiff : (getVertex u = getVertex ((verts ++ ghosts).idxOf w)) ↔ q[0]? = q[1]? := by
    rw [q0, q1]
    constructor
    · intro heq
      have hi : (verts ++ ghosts).idxOf w = u := by simp [getVertex] at heq; omega
      exact congrArg some ((idxOf_eq_iff h.v.nodup hw hu).mp hi).symm
    · intro heq
      rw [((idxOf_eq_iff h.v.nodup hw hu).mpr (Option.some.inj heq).symm)]
  by_cases hl : q[0]? = q[1]?
  · rw [if_pos (hiff.mpr hl)] at hy
    rw [if_pos hl]
    exact hy
  · rw [if_neg (fun e => hl (hiff.mp e))] at hy
    rw [if_neg hl]
    exact hy

theorem vertOk_loop {g : Graph} {verts ghosts : List Gid} {types : List EdgeInput}
    (h : CRep g false verts ghosts types) (hwf : ∀ e ∈ types, e.WF false) {t : Nat} (ht : t < types.length) {u : Nat}
    (hu : u < verts.length) : VertOk g (getVertex u) t := by
  refine ⟨_, yields_edges_trad h ht hu, ?_, ?_, ?_⟩
  · rw [List.length_map, List.length_range']; exact deg_le_list h ht hu
  · rw [degreeV_eq h ht hu, List.length_map, List.length_range']
  · intro e he
    obtain ⟨l, hl, rfl⟩ := List.mem_map.mp he
    rw [List.mem_range'] at hl
    obtain ⟨k, hk, rfl⟩ := hl
    rw [Nat.one_mul]
    obtain ⟨p, b, -, hy⟩ := loop_pins h hwf ht hu hk
    refine ⟨_, hy, ?_, ?_⟩
    · split <;> (simp; unfold Graph.bound; omega)
    · split <;> simp

theorem validCounts_loop {g : Graph} {me n : Nat} {i : Input} {own : Gid → Nat} {ghosts : List Gid}
    (h : PartRep g me n i own ghosts) (hwf : i.WF) (hh : i.hyper = false) (hok : TradLocal i) {t : Nat}
    (ht : t < i.types.length) :
    g.validCounts t = .ok ((i.types[t].pins.length : Int), (i.types[t].pins.length : Int),
      2 * (i.types[t].pins.length : Int), (i.types[t].pins.flatten.length : Int)) := by
  have hc := h.core
  rw [hh] at hc
  have hw2 : ∀ e ∈ i.types, e.WF false := by intro e he; rw [← hh]; exact hwf.edges e he
  have hlen2 : ∀ p ∈ i.types[t].pins, p.length = 2 := (hw2 _ (List.getElem_mem ht)).two rfl
  have := validCounts_eq hc ht (fun _ => true) (by
    intro l hl s
    obtain ⟨u, k, hu, hk, rfl⟩ := edge_split_trad hwf.nodup
      (fun p hp => hok _ (List.getElem_mem ht) p hp) hl
    have hk' : k < (adjOf false (i.verts ++ ghosts) i.types[t].pins i.verts[u]).length := by
      rwa [adjOf_length]
    obtain ⟨w, hw, hadj, -⟩ := loop_target hc hw2 ht hu hk'
    obtain ⟨⟨res, e1, -, -⟩, -, -⟩ := residenceIs_trad hc h.owners ht hu hk' hw hadj
    unfold Graph.countEdge
    have hd : ∀ x, g.degreeE x = .ok 2 := by intro x; unfold Graph.degreeE; rw [if_pos hc.hyp]
    rw [hd, Outcome.bind_ok, e1, Outcome.bind_ok, if_pos (.inr hc.hyp), if_pos rfl]
    have := hlen2 _ (List.getElem_mem hl)
    rw [this]; rfl)
  rw [this]
  have hfil : i.types[t].pins.filter (fun _ => true) = i.types[t].pins := by simp
  have hsum : ∀ (l : List (List Gid)), (∀ p ∈ l, p.length = 2) →
      (((l.map (fun p => p.length)).sum : Nat) : Int) = 2 * (l.length : Int) := by
    intro l
    induction l with
    | nil => simp
    | cons a l ih =>
      intro hl
      have := ih (fun p hp => hl p (by simp [hp]))
      have h1 := hl a (by simp)
      simp only [List.map_cons, List.sum_cons, List.length_cons]; omega
  rw [hfil, hsum _ hlen2]

/-- the last loop over a type finds exactly the self-loops -/
theorem edgesRight_loop {g : Graph} {verts ghosts : List Gid} {types : List EdgeInput}
    (h : CRep g false verts ghosts types) (hwf : ∀ e ∈ types, e.WF false) (hloc : ∀ e ∈ types, ∀ p ∈ e.pins, ∃ v ∈ verts, p[0]? = some v)
    {t : Nat} (ht : t < types.length) : g.edgesRight t = .ok (decide (LoopFree types[t])) := by
  have hnd := (List.nodup_append.mp h.v.nodup).1
  obtain ⟨e, he, hr, -⟩ := h.typ t ht
  obtain ⟨it, hit, hy⟩ := yields_edgeBegin h ht
  unfold Graph.edgesRight
  rw [hit, Outcome.bind_ok]
  have hdeg : ∀ x, g.degreeE x = .ok 2 := by intro x; unfold Graph.degreeE; rw [if_pos h.hyp]
  have hone : ∀ u (hu : u < verts.length) k (hk : k < degOf false types[t].pins verts[u]),
      ∃ p, (types[t].pins.filter (fun p => p[0]? == some verts[u]))[k]? = some p ∧
        g.checkEdgeDegree (g.getEdge (offs (fun u => degOf false types[t].pins (verts.getD u 0)) u + k) t) = .ok (decide (p[0]? ≠ p[1]?)) := by
    intro u hu k hk
    obtain ⟨p, b, hp, it, e1, hy⟩ := loop_pins h hwf ht hu hk
    refine ⟨p, hp, ?_⟩
    unfold Graph.checkEdgeDegree
    rw [e1, Outcome.bind_ok]
    by_cases hl : p[0]? = p[1]?
    · rw [if_pos hl] at hy
      rw [iterCount_eq hy (by simp; unfold Graph.bound; omega), Outcome.bind_ok, hdeg]
      simp [hl]
    · rw [if_neg hl] at hy
      rw [iterCount_eq hy (by simp; unfold Graph.bound; omega), Outcome.bind_ok, hdeg]
      simp [hl]
  have hb : ((List.range types[t].pins.length).map (fun l => g.getEdge l t)).length < g.bound := by
    rw [List.length_map, List.length_range, ← hr.numE]; have := bound_ge he; omega
  have hval : ∀ x ∈ (List.range types[t].pins.length).map (fun l => g.getEdge l t),
      g.checkEdgeDegree x = .ok (decide (g.checkEdgeDegree x = .ok true)) := by
    intro x hx
    obtain ⟨l, hl, rfl⟩ := List.mem_map.mp hx
    rw [List.mem_range] at hl
    obtain ⟨u, k, hu, hk, rfl⟩ := edge_split_trad hnd (fun p hp => hloc _ (List.getElem_mem ht) p hp) hl
    obtain ⟨p, -, e⟩ := hone u hu k hk
    rw [e]
    simp
  rw [iterAll_all hy hb hval]
  congr 1
  rw [Bool.eq_iff_iff, List.all_eq_true, decide_eq_true_iff]
  constructor
  · intro hall p hp hl
    obtain ⟨v, hv, hv0⟩ := hloc _ (List.getElem_mem ht) p hp
    obtain ⟨u, hu, rfl⟩ := List.mem_iff_getElem.mp hv
    have hm : p ∈ types[t].pins.filter (fun p => p[0]? == some verts[u]) := by
      rw [List.mem_filter]; exact ⟨hp, by simp [hv0]⟩
    obtain ⟨k, hk, rfl⟩ := List.mem_iff_getElem.mp hm
    have hk' : k < degOf false types[t].pins verts[u] := by
      have := adjOf_length false (verts ++ ghosts) types[t].pins verts[u]
      rw [← this]
      simpa [adjOf] using hk
    obtain ⟨q, hq, e⟩ := hone u hu k hk'
    rw [List.getElem?_eq_getElem hk] at hq
    rw [← Option.some.inj hq] at e
    have hlt : offs (fun u => degOf false types[t].pins (verts.getD u 0)) u + k < types[t].pins.length := by
      have h1 := offs_mono (fun u => degOf false types[t].pins (verts.getD u 0)) (show u + 1 ≤ verts.length by omega)
      rw [offs_succ] at h1
      have h2 : (fun u => degOf false types[t].pins (verts.getD u 0)) u = degOf false types[t].pins verts[u] := by
        simp [hu]
      have h3 := offs_degOf_false verts hnd types[t].pins
      have h4 : types[t].pins.countP (fun p => decide (∃ v ∈ verts, p[0]? = some v)) ≤ types[t].pins.length := List.countP_le_length
      simp only at h1 h2
      omega
    have := hall _ (List.mem_map.mpr ⟨_, List.mem_range.mpr hlt, rfl⟩)
    rw [e] at this
    simp [hl] at this
  · intro hfree x hx
    obtain ⟨l, hl, rfl⟩ := List.mem_map.mp hx
    rw [List.mem_range] at hl
    obtain ⟨u, k, hu, hk, rfl⟩ := edge_split_trad hnd (fun p hp => hloc _ (List.getElem_mem ht) p hp) hl
    obtain ⟨p, hp, e⟩ := hone u hu k hk
    have hm := List.mem_of_getElem? hp
    rw [List.mem_filter] at hm
    rw [e]
    simp [hfree p hm.1]

end Verif.Agi
