import Verif.Agi.ValidModel
import Verif.Agi.GhostArray
/-!
# Lemmas about `checkValidity`
-/
namespace Verif.Agi

variable {σ : Type} {step : σ → Outcome (Handle × σ)}

theorem iterCount_eq {s : σ} {hs : List Handle} {fuel : Nat} (h : Yields step s hs) (hf : hs.length < fuel) :
    iterCount step fuel s = .ok hs.length := by
  unfold iterCount
  rw [iterLoop_yields _ hs s fuel 0 h hf, loopList_fold (f := fun n _ => .ok (n + 1)) hs (by intros; rfl)]
  have : ∀ (l : List Handle) (n : Nat), l.foldlM (fun n (_ : Handle) => (Outcome.ok (n + 1) : Outcome Nat)) n =
      .ok (n + l.length) := by
    intro l
    induction l with
    | nil => intro n; rfl
    | cons x l ih => intro n; rw [List.foldlM_cons, Outcome.bind_ok, ih]; simp; omega
  rw [this]; simp

theorem iterAll_true {s : σ} {hs : List Handle} {fuel : Nat} {check : Handle → Outcome Bool}
    (h : Yields step s hs) (hf : hs.length < fuel) (hc : ∀ x ∈ hs, check x = .ok true) :
    iterAll step check fuel s = .ok true := by
  unfold iterAll
  rw [iterLoop_yields _ hs s fuel true h hf]
  clear h hf
  induction hs with
  | nil => rfl
  | cons x hs ih =>
    rw [loopList, hc x (by simp)]
    simp only [Outcome.bind_ok, Outcome.pure_eq, Bool.not_true, Bool.false_eq_true, if_false]
    exact ih (fun x hx => hc x (by simp [hx]))

theorem forTypes_true {check : Nat → Outcome Bool} {ts : List Nat} (h : ∀ t ∈ ts, check t = .ok true) :
    forTypes check ts = .ok true := by
  induction ts with
  | nil => rfl
  | cons t ts ih =>
    rw [forTypes, h t (by simp), Outcome.bind_ok, if_pos rfl, ih (fun t ht => h t (by simp [ht]))]

theorem checkPin_true {g : Graph} {v e : Handle} {hs : List Handle} (h : YieldsFrom (g.pins e) g.iterPin hs)
    (hf : hs.length < g.bound) (hv : v ∈ hs) : g.checkPin v e = .ok true := by
  obtain ⟨s, hp, hy⟩ := h
  unfold Graph.checkPin
  rw [hp, Outcome.bind_ok, iterLoop_yields _ hs s g.bound false hy hf]
  clear hf hy hp
  suffices H : ∀ b, loopList (fun (_ : Bool) other => Outcome.ok (decide (other = v), decide (other = v))) hs b =
      .ok true from H false
  induction hs with
  | nil => simp at hv
  | cons x hs ih =>
    intro b
    rw [loopList]
    simp only [Outcome.bind_ok]
    by_cases hx : x = v
    · simp [hx]
    · have : v ∈ hs := by
        rcases List.mem_cons.mp hv with h | h
        · exact absurd h.symm hx
        · exact h
      simp only [hx, decide_false, Bool.false_eq_true, if_false]
      exact ih this false

/-- what the checks need to know about the edges of a vertex -/
def VertOk (g : Graph) (v : Handle) (t : Nat) : Prop :=
  ∃ hs, YieldsFrom (g.edges v t) g.iterEdge hs ∧ hs.length < g.bound ∧
    g.degreeV v t = .ok ((hs.length : Nat) : Int) ∧
    ∀ e ∈ hs, ∃ ps, YieldsFrom (g.pins e) g.iterPin ps ∧ ps.length < g.bound ∧ v ∈ ps

theorem checkDegree_true {g : Graph} {v : Handle} {t : Nat} (h : VertOk g v t) :
    g.checkDegree v t = .ok true := by
  obtain ⟨hs, ⟨it, e, hy⟩, hb, hd, -⟩ := h
  unfold Graph.checkDegree
  rw [e, Outcome.bind_ok, iterCount_eq hy hb, Outcome.bind_ok, hd]
  simp

theorem checkAdjacent_true {g : Graph} {v : Handle} {t : Nat} (h : VertOk g v t) :
    g.checkAdjacent v t = .ok true := by
  obtain ⟨hs, ⟨it, e, hy⟩, hb, hd, hp⟩ := h
  unfold Graph.checkAdjacent
  rw [e, Outcome.bind_ok]
  apply iterAll_true hy hb
  intro x hx
  obtain ⟨ps, h1, h2, h3⟩ := hp x hx
  exact checkPin_true h1 h2 h3

/-- an edge whose degree is the number of its pins -/
def EdgeOk (g : Graph) (e : Handle) : Prop :=
  ∃ ps, YieldsFrom (g.pins e) g.iterPin ps ∧ ps.length < g.bound ∧ g.degreeE e = .ok ((ps.length : Nat) : Int)

theorem checkEdgeDegree_true {g : Graph} {e : Handle} (h : EdgeOk g e) : g.checkEdgeDegree e = .ok true := by
  obtain ⟨ps, ⟨it, e1, hy⟩, hb, hd⟩ := h
  unfold Graph.checkEdgeDegree
  rw [e1, Outcome.bind_ok, iterCount_eq hy hb, Outcome.bind_ok, hd]
  simp

/-- the check succeeds when all its ingredients do -/
theorem checkValidity_true {g : Graph} {sumV : Int} {sumE sumP : Nat → Int} {T : Nat} (hT : g.numTypes = T)
    (hV : g.globalVerts = sumV)
    (hv : ∀ u, u < g.numLocal → ∀ t, t < T → VertOk g (getVertex u) t)
    (ht : ∀ t, t < T → ∃ hs j k, ∃ ne np : Nat, YieldsFrom (g.edgeBegin t) g.iterEdge hs ∧ hs.length < g.bound ∧
      g.validCounts t = .ok ((ne : Int), j, k, (np : Int)) ∧ g.numLocalEdges t = .ok ne ∧
      g.numLocalPins t = .ok np ∧ g.numGlobalEdges t = .ok (sumE t) ∧
      g.numGlobalPins t = .ok (sumP t) ∧ ∀ e ∈ hs, EdgeOk g e)
    (hg : ∀ k, k < g.numGhost → ∃ o, g.owner (getVertex (g.numLocal + k)) = .ok o ∧ o ≠ g.self ∧ o < g.peers) :
    g.checkValidity sumV sumE sumP = .ok true := by
  have hbv : ((List.range g.numLocal).map getVertex).length < g.bound := by
    rw [List.length_map, List.length_range]; unfold Graph.bound; omega
  unfold Graph.checkValidity
  rw [iterCount_eq (yields_vertices g) hbv, Outcome.bind_ok, if_neg (by simp), if_neg (by simp [hV])]
  rw [iterAll_true (yields_vertices g) hbv, Outcome.bind_ok, if_neg (by simp)]
  · rw [iterAll_true (yields_vertices g) hbv, Outcome.bind_ok, if_neg (by simp)]
    · rw [forTypes_true, Outcome.bind_ok, if_neg (by simp)]
      · apply iterAll_true (yields_ghosts g)
        · rw [List.length_map, List.length_range]; unfold Graph.bound; omega
        · intro x hx
          obtain ⟨k, hk, rfl⟩ := List.mem_map.mp hx
          rw [List.mem_range] at hk
          obtain ⟨o, h1, h2, h3⟩ := hg k hk
          unfold Graph.checkGhost
          rw [h1, Outcome.bind_ok, if_neg h2, if_neg (by omega)]; rfl
      · intro t ht'
        rw [List.mem_range, hT] at ht'
        obtain ⟨hs, j, k, ne, np, ⟨it, e1, hy⟩, hb, h1, h2, h3, h4, h5, h6⟩ := ht t ht'
        unfold Graph.checkType
        rw [h1, Outcome.bind_ok]
        simp only
        rw [h2, Outcome.bind_ok, h4, Outcome.bind_ok, h3, Outcome.bind_ok, h5, Outcome.bind_ok,
          if_neg (by simp), if_neg (by simp), if_neg (by simp), if_neg (by simp), e1, Outcome.bind_ok]
        exact iterAll_true hy hb (fun x hx => checkEdgeDegree_true (h6 x hx))
    · intro x hx
      obtain ⟨u, hu, rfl⟩ := List.mem_map.mp hx
      rw [List.mem_range] at hu
      apply forTypes_true
      intro t ht'
      rw [List.mem_range, hT] at ht'
      exact checkAdjacent_true (hv u hu t ht')
  · intro x hx
    obtain ⟨u, hu, rfl⟩ := List.mem_map.mp hx
    rw [List.mem_range] at hu
    apply forTypes_true
    intro t ht'
    rw [List.mem_range, hT] at ht'
    exact checkDegree_true (hv u hu t ht')

/-! ## the ingredients for constructed graphs -/

theorem deg_le_list {g : Graph} {hyper : Bool} {verts ghosts : List Gid} {types : List EdgeInput}
    (h : CRep g hyper verts ghosts types) {t : Nat} (ht : t < types.length) {u : Nat} (hu : u < verts.length) :
    degOf hyper types[t].pins verts[u] < g.bound := by
  obtain ⟨e, he, hr, -⟩ := h.typ t ht
  have hb := bound_ge he
  rw [hr.list_len] at hb
  have h1 := offs_mono (fun u => degOf hyper types[t].pins (verts.getD u 0)) (show u + 1 ≤ verts.length by omega)
  rw [offs_succ] at h1
  have h2 : (fun u => degOf hyper types[t].pins (verts.getD u 0)) u = degOf hyper types[t].pins verts[u] := by
    simp [hu]
  simp only at h1 h2
  omega

theorem pins_lt_bound {g : Graph} {hyper : Bool} {verts ghosts : List Gid} {types : List EdgeInput}
    (h : CRep g hyper verts ghosts types) {t : Nat} (ht : t < types.length) {k : Nat}
    (hk : k < types[t].pins.length) : types[t].pins[k].length < g.bound := by
  obtain ⟨e, he, hr, -⟩ := h.typ t ht
  have hb := bound_ge he
  have hlen : types[t].pins[k].length ≤ types[t].pins.flatten.length := by
    rw [List.length_flatten]
    exact le_sum_of_mem (List.mem_map.mpr ⟨_, List.getElem_mem hk, rfl⟩)
  have := hr.numP
  omega

theorem vertOk_hyper {g : Graph} {verts ghosts : List Gid} {types : List EdgeInput}
    (h : CRep g true verts ghosts types) {t : Nat} (ht : t < types.length) {u : Nat} (hu : u < verts.length) :
    VertOk g (getVertex u) t := by
  have hl := adjOf_length true (verts ++ ghosts) types[t].pins verts[u]
  refine ⟨_, yields_edges_hyper h ht hu, ?_, ?_, ?_⟩
  · rw [List.length_map, hl]; exact deg_le_list h ht hu
  · rw [degreeV_eq h ht hu, List.length_map, hl]
  · intro e he
    obtain ⟨k, hk, rfl⟩ := List.mem_map.mp he
    unfold adjOf at hk
    rw [if_pos rfl, List.mem_flatMap] at hk
    obtain ⟨⟨p, i⟩, hpi, hm⟩ := hk
    rw [List.mem_replicate] at hm
    obtain ⟨hc, rfl⟩ := hm
    have hi := List.mem_zipIdx_iff_getElem?.mp hpi
    obtain ⟨hk', hpe⟩ := List.getElem?_eq_some_iff.mp hi
    simp only at hc hk' hpe
    subst hpe
    refine ⟨_, yields_pins_hyper h ht hk', by rw [List.length_map]; exact pins_lt_bound h ht hk', ?_⟩
    rw [List.mem_map]
    have hmem : verts[u] ∈ types[t].pins[k] := by
      rw [← List.count_pos_iff]; omega
    refine ⟨verts[u], hmem, ?_⟩
    rw [(idxOf_eq_iff h.v.nodup (by simp) hu).mpr rfl]

theorem edgeOk_hyper {g : Graph} {verts ghosts : List Gid} {types : List EdgeInput}
    (h : CRep g true verts ghosts types) {t : Nat} (ht : t < types.length) {k : Nat}
    (hk : k < types[t].pins.length) : EdgeOk g (g.getEdge k t) :=
  ⟨_, yields_pins_hyper h ht hk, by rw [List.length_map]; exact pins_lt_bound h ht hk,
    by rw [degreeE_hyper h ht hk, List.length_map]⟩

/-- the counting loop over the edges of a type -/
theorem validCounts_eq {g : Graph} {hyper : Bool} {verts ghosts : List Gid} {types : List EdgeInput}
    (h : CRep g hyper verts ghosts types) {t : Nat} (ht : t < types.length) (c : List Gid → Bool)
    (hstep : ∀ k (hk : k < types[t].pins.length) (s : Int × Int × Int × Int),
      g.countEdge s (g.getEdge k t) = .ok (if c types[t].pins[k] then
        (s.1 + 1, s.2.1 + 1, s.2.2.1 + (types[t].pins[k].length : Int), s.2.2.2 + (types[t].pins[k].length : Int))
        else (s.1 + 1, s.2.1, s.2.2.1, s.2.2.2 + (types[t].pins[k].length : Int)), false)) :
    g.validCounts t = .ok ((types[t].pins.length : Int), ((types[t].pins.filter c).length : Int),
      (((types[t].pins.filter c).map (fun p => p.length)).sum : Nat), (types[t].pins.flatten.length : Int)) := by
  obtain ⟨e, he, hr, -⟩ := h.typ t ht
  obtain ⟨it, hit, hy⟩ := yields_edgeBegin h ht
  unfold Graph.validCounts
  rw [hit, Outcome.bind_ok, iterLoop_yields _ _ _ g.bound _ hy (by
      rw [List.length_map, List.length_range, ← hr.numE]; have := bound_ge he; omega)]
  have key : ∀ m, m ≤ types[t].pins.length →
      loopList g.countEdge ((List.range m).map (fun l => g.getEdge l t)) (0, 0, 0, 0) =
        .ok ((m : Int), (((types[t].pins.take m).filter c).length : Int),
          ((((types[t].pins.take m).filter c).map (fun p => p.length)).sum : Nat),
          ((types[t].pins.take m).flatten.length : Int)) := by
    intro m
    have hfold := fun (m : Nat) (hm : m ≤ types[t].pins.length) (b : Int × Int × Int × Int) =>
      loopList_fold (body := g.countEdge) (f := fun s h => do
        let r ← g.countEdge s h
        return r.1) ((List.range m).map (fun l => g.getEdge l t)) (by
        intro b x hx
        obtain ⟨k, hk, rfl⟩ := List.mem_map.mp hx
        rw [List.mem_range] at hk
        rw [hstep k (by omega)]; rfl) b
    induction m with
    | zero => intro _; simp [loopList]
    | succ m ih =>
      intro hm
      have ih' := ih (by omega)
      rw [hfold m (by omega)] at ih'
      rw [hfold (m + 1) hm, List.range_succ, List.map_append, List.foldlM_append, ih', Outcome.bind_ok]
      simp only [List.map_cons, List.map_nil, List.foldlM_cons, List.foldlM_nil]
      rw [hstep m (by omega), Outcome.bind_ok]
      rw [List.take_succ_eq_append_getElem (by omega), List.filter_append, List.map_append, List.sum_append,
        List.length_append, List.flatten_append, List.length_append]
      cases hcb : c types[t].pins[m] with
      | true => simp [hcb]
      | false => simp [hcb]
  rw [key _ (Nat.le_refl _), List.take_length]

theorem validCounts_hyper {g : Graph} {me n : Nat} {i : Input} {own : Gid → Nat} {ghosts : List Gid}
    (h : PartRep g me n i own ghosts) (hh : i.hyper = true) (hv : ∀ v ∈ i.verts, own v = me) {t : Nat}
    (ht : t < i.types.length) :
    g.validCounts t = .ok ((i.types[t].pins.length : Int),
      ((i.types[t].pins.filter (countedBy own me)).length : Int),
      (((i.types[t].pins.filter (countedBy own me)).map (fun p => p.length)).sum : Nat),
      (i.types[t].pins.flatten.length : Int)) := by
  have hc := h.core
  rw [hh] at hc
  have hown : ∀ v, ownerOf g.self i.verts (fun v => (own v : Int)) v = (own v : Int) := by
    intro v
    unfold ownerOf
    split
    · rename_i hm; rw [h.rank, hv v hm]
    · rfl
  apply validCounts_eq hc ht
  intro k hk s
  obtain ⟨⟨res, e1, -, e2⟩, -, -⟩ := residenceIs_hyper hc h.owners ht hk
  unfold Graph.countEdge
  rw [degreeE_hyper hc ht hk, Outcome.bind_ok, e1, Outcome.bind_ok]
  have hiff : lowerPart g.self res = true ↔ countedBy own me i.types[t].pins[k] = false := by
    rw [lowerPart_iff]
    unfold countedBy
    rw [decide_eq_false_iff_not]
    constructor
    · rintro ⟨p, hp, hlt⟩ hall
      obtain ⟨v, hv, rfl⟩ := (e2 p).mp hp
      rw [hown, h.rank] at hlt
      have := hall v hv
      omega
    · intro hall
      rcases Classical.em (∃ v ∈ i.types[t].pins[k], own v < me) with ⟨v, hv, hlt⟩ | hno
      · exact ⟨_, (e2 _).mpr ⟨v, hv, rfl⟩, by rw [hown, h.rank]; omega⟩
      · exfalso; apply hall
        intro v hv
        rcases Nat.lt_or_ge (own v) me with h1 | h1
        · exact absurd ⟨v, hv, h1⟩ hno
        · exact h1
  cases hcb : countedBy own me i.types[t].pins[k] with
  | true =>
    have : lowerPart g.self res = false := by
      rw [← Bool.not_eq_true, hiff, hcb]; simp
    simp [this]
  | false =>
    have := hiff.mpr hcb
    simp [this, hc.hyp]

end Verif.Agi
