import Verif.Agi.Build
import Verif.Agi.IterSpec
/-!
# Iteration over a constructed graph
-/
namespace Verif.Agi

/-- the part of `GRep` that all queries need: what the arrays contain -/
structure CRep (g : Graph) (hyper : Bool) (verts ghosts : List Gid) (types : List EdgeInput) : Prop where
  v : VRep g verts ghosts
  hyp : g.isHyper = hyper
  numTypes : g.numTypes = types.length
  typ : ∀ t (h : t < types.length), ∃ e, g.types[t]? = some (some e) ∧
    TRep hyper e verts (verts ++ ghosts) types[t].ids types[t].pins ∧
    e.weights = Mem.ofList types[t].weights
  pins : ∀ t (h : t < types.length), ∀ v ∈ types[t].pins.flatten, v ∈ verts ++ ghosts
  wf : ∀ e ∈ types, e.WF hyper

theorem GRep.core {g : Graph} {self : Part} {peers : Nat} {total : Int} {i : Input} {ghosts : List Gid}
    (h : GRep g self peers total i ghosts) (hwf : i.WF) : CRep g i.hyper i.verts ghosts i.types := by
  refine ⟨h.vrep, h.hyper, h.numTypes, h.types, ?_, hwf.edges⟩
  intro t ht v hv
  rw [h.ghosts_eq, mem_extend]
  right
  rw [Input.allPins, List.mem_flatten]
  exact ⟨_, List.mem_map.mpr ⟨_, List.getElem_mem ht, rfl⟩, hv⟩

theorem Graph.slot_ok {g : Graph} {t : Nat} {e : EType} (h : g.types[t]? = some (some e)) :
    g.slot t = .ok e := by simp [Graph.slot, h]

/-! ## loops over iterators -/

/-- the loop on the list the iterator yields -/
def loopList {β : Type} (body : β → Handle → Outcome (β × Bool)) : List Handle → β → Outcome β
  | [], b => .ok b
  | h :: t, b => do
    let (b', stop) ← body b h
    if stop then return b' else loopList body t b'

theorem iterLoop_yields {σ β : Type} {step : σ → Outcome (Handle × σ)}
    (body : β → Handle → Outcome (β × Bool)) :
    ∀ (l : List Handle) (s : σ) (fuel : Nat) (b : β), Yields step s l → l.length < fuel →
      iterLoop step body fuel s b = loopList body l b := by
  intro l
  induction l with
  | nil =>
    intro s fuel b ⟨s', h⟩ hf
    match fuel, hf with
    | fuel + 1, _ => simp [iterLoop, h, loopList]
  | cons x l ih =>
    intro s fuel b ⟨hx, s', h, hy⟩ hf
    match fuel, hf with
    | fuel + 1, hf =>
      rw [iterLoop, h]
      simp only [Outcome.bind_ok, if_neg hx, loopList]
      cases hb : body b x with
      | ok p =>
        obtain ⟨b', stop⟩ := p
        simp only [Outcome.bind_ok]
        rw [ih s' fuel b' hy (by simpa using hf)]
      | fail => rfl
      | ub => rfl

theorem loopList_fold {β : Type} {body : β → Handle → Outcome (β × Bool)} {f : β → Handle → Outcome β}
    (l : List Handle) (h : ∀ b x, x ∈ l → body b x = (f b x >>= fun b' => .ok (b', false))) :
    ∀ b, loopList body l b = l.foldlM f b := by
  induction l with
  | nil => intro b; rfl
  | cons x l ih =>
    intro b
    rw [loopList, h b x (by simp), List.foldlM_cons]
    cases f b x with
    | ok b' => simp only [Outcome.bind_ok]; exact ih (fun b x hx => h b x (by simp [hx])) b'
    | fail => rfl
    | ub => rfl

/-- a counter from `a` to `a+n`, stopping at `a+n`, yields the numbers in between -/
theorem yields_count {step : Nat → Outcome (Handle × Nat)} (n : Nat) : ∀ (a : Nat), 0 < a →
    (∀ k, a ≤ k → k < a + n → step k = .ok (k, k + 1)) → (∃ s, step (a + n) = .ok (0, s)) →
    Yields step a (List.range' a n) := by
  induction n with
  | zero => intro a _ _ h; exact h
  | succ n ih =>
    intro a ha h1 h2
    rw [List.range'_succ]
    refine ⟨by omega, a + 1, h1 a (by omega) (by omega), ih (a + 1) (by omega) ?_ ?_⟩
    · intro k hk hk'; exact h1 k (by omega) (by omega)
    · rw [show a + 1 + n = a + (n + 1) by omega]; exact h2

theorem yields_vertices (g : Graph) : Yields g.iterVertex vertexBegin
    ((List.range g.numLocal).map getVertex) := by
  have : (List.range g.numLocal).map getVertex = List.range' 1 g.numLocal := by
    rw [List.range'_eq_map_range]
    apply List.map_congr_left; intro a _; simp [getVertex]; omega
  rw [this]
  refine yields_count _ 1 (by omega) ?_ ⟨0, ?_⟩
  · intro k h1 h2; unfold Graph.iterVertex; rw [if_neg (by omega)]
  · unfold Graph.iterVertex; rw [if_pos (by omega)]

theorem yields_ghosts (g : Graph) : Yields g.iterGhost g.ghostBegin
    ((List.range g.numGhost).map (fun i => getVertex (g.numLocal + i))) := by
  have : (List.range g.numGhost).map (fun i => getVertex (g.numLocal + i)) =
      List.range' (g.numLocal + 1) g.numGhost := by
    rw [List.range'_eq_map_range]
    apply List.map_congr_left; intro a _; simp [getVertex]; omega
  rw [this]
  unfold Graph.ghostBegin
  refine yields_count _ _ (by omega) ?_ ⟨0, ?_⟩
  · intro k h1 h2; unfold Graph.iterGhost; rw [if_neg (by omega)]
  · unfold Graph.iterGhost; rw [if_pos (by omega)]

theorem decode_getEdge {g : Graph} {l t : Nat} (ht : t < g.numTypes) :
    g.decodeEdge (g.getEdge l t) = .ok (t, l) := by
  unfold Graph.decodeEdge Graph.getEdge
  rw [if_neg (by omega)]
  congr 2
  · simp [Nat.mod_eq_of_lt ht]
  · simp only [Nat.add_sub_cancel]
    rw [Nat.mul_add_div (by omega), Nat.div_eq_of_lt ht]; rfl

/-- stepping an edge iterator from position `a` to `a+n` -/
theorem yields_edgeIt {g : Graph} {t n : Nat} (hyper : Bool) (ht : t < g.numTypes) (f : Nat → Nat) :
    ∀ (a stop : Nat), stop = 1 + t + g.numTypes * (a + n) →
    (∀ k, k < n → ∀ it : EdgeIt, it.loc = g.getEdge (a + k) t → it.stop = stop → it.step = g.numTypes →
      it.hyper = hyper → g.iterEdge it = .ok (f (a + k), { it with loc := it.loc + it.step })) →
    (∀ k, f (a + k) ≠ 0) →
    Yields g.iterEdge ⟨g.getEdge a t, stop, g.numTypes, hyper⟩ ((List.range' a n).map f) := by
  induction n with
  | zero =>
    intro a stop hs _ _
    refine ⟨⟨g.getEdge a t, stop, g.numTypes, hyper⟩, ?_⟩
    unfold Graph.iterEdge; rw [if_pos (by simp only [Graph.getEdge, hs, Nat.add_zero]; omega)]
  | succ n ih =>
    intro a stop hs h hf
    rw [List.range'_succ, List.map_cons]
    have h0 := h 0 (by omega) ⟨g.getEdge a t, stop, g.numTypes, hyper⟩ (by simp) rfl rfl rfl
    refine ⟨by simpa using hf 0, _, h0, ?_⟩
    have : g.getEdge a t + g.numTypes = g.getEdge (a + 1) t := by
      simp only [Graph.getEdge, Nat.mul_add, Nat.mul_one]; omega
    simp only [this]
    refine ih (a + 1) stop (by rw [hs]; congr 2; omega) ?_ ?_
    · intro k hk it h1 h2 h3 h4
      rw [show a + 1 + k = a + (k + 1) by omega] at h1 ⊢
      exact h (k + 1) (by omega) it h1 h2 h3 h4
    · intro k; rw [show a + 1 + k = a + (k + 1) by omega]; exact hf _

section
variable {g : Graph} {hyper : Bool} {verts ghosts : List Gid} {types : List EdgeInput}

theorem getEdge_pos (g : Graph) (l t : Nat) : g.getEdge l t ≠ 0 := by simp [Graph.getEdge]

/-- position `a+k` is below the end -/
theorem getEdge_lt {g : Graph} {t a b : Nat} (h : a < b) (ht : t < g.numTypes) :
    ¬ (1 + t + g.numTypes * b ≤ g.getEdge a t) := by
  unfold Graph.getEdge
  have h1 : g.numTypes * (a + 1) ≤ g.numTypes * b := Nat.mul_le_mul_left _ (by omega)
  rw [Nat.mul_add] at h1
  omega

/-- `begin(t)`: every edge of the type in index order -/
theorem yields_edgeBegin (h : CRep g hyper verts ghosts types) {t : Nat} (ht : t < types.length) :
    YieldsFrom (g.edgeBegin t) g.iterEdge
      ((List.range types[t].pins.length).map (fun l => g.getEdge l t)) := by
  obtain ⟨e, he, hr, -⟩ := h.typ t ht
  have htn : t < g.numTypes := by rw [h.numTypes]; exact ht
  refine ⟨⟨g.getEdge 0 t, 1 + t + g.numTypes * (0 + e.numEdges), g.numTypes, g.isHyper⟩, ?_, ?_⟩
  · unfold Graph.edgeBegin
    simp only [he]
    simp [mkEdgeIt, Graph.getEdge]; omega
  · rw [List.range_eq_range', hr.numE]
    refine yields_edgeIt g.isHyper htn (fun l => g.getEdge l t) 0 _ rfl ?_ (fun k => getEdge_pos _ _ _)
    intro k hk it h1 h2 h3 h4
    unfold Graph.iterEdge
    rw [if_neg (by rw [h2, h1]; exact getEdge_lt (by omega) htn), if_neg (by rw [h4]; simp), h1]

theorem degreeV_eq (h : CRep g hyper verts ghosts types) {t : Nat} (ht : t < types.length) {u : Nat}
    (hu : u < verts.length) :
    g.degreeV (getVertex u) t = .ok ((degOf hyper types[t].pins verts[u] : Nat) : Int) := by
  obtain ⟨e, he, hr, -⟩ := h.typ t ht
  unfold Graph.degreeV
  rw [Graph.slot_ok he, Outcome.bind_ok]
  simp only [getVertex, vidx, fromPtr, if_neg (Nat.succ_ne_zero _), Nat.add_sub_cancel,
    Outcome.ofOption_some, Outcome.bind_ok]
  rw [Mem.load_ok (hr.deg (u + 1) (by omega)), Outcome.bind_ok, Mem.load_ok (hr.deg u (by omega)),
    Outcome.bind_ok, offs_succ]
  simp only [Outcome.pure_eq]
  congr 1
  simp only [List.getD_eq_getElem?_getD, List.getElem?_eq_getElem hu, Option.getD_some]
  omega

theorem edges_eq (h : CRep g hyper verts ghosts types) {t : Nat} (ht : t < types.length) {u : Nat}
    (hu : u < verts.length) :
    g.edges (getVertex u) t = .ok ⟨g.getEdge (offs (fun u => degOf hyper types[t].pins (verts.getD u 0)) u) t,
      1 + t + g.numTypes * (offs (fun u => degOf hyper types[t].pins (verts.getD u 0)) u +
        degOf hyper types[t].pins verts[u]), g.numTypes, false⟩ := by
  obtain ⟨e, he, hr, -⟩ := h.typ t ht
  unfold Graph.edges
  rw [Graph.slot_ok he, Outcome.bind_ok, degreeV_eq h ht hu]
  simp only [getVertex, vidx, fromPtr, if_neg (Nat.succ_ne_zero _), Nat.add_sub_cancel,
    Outcome.ofOption_some, Outcome.bind_ok]
  rw [Mem.load_ok (hr.deg u (by omega)), Outcome.bind_ok]
  simp only [mkEdgeIt, Graph.getEdge, Outcome.pure_eq]
  congr 2
  · omega

/-- `edges(v,t)` in a hypergraph: the edges pinning `v`, with multiplicity, in input order -/
theorem yields_edges_hyper (h : CRep g true verts ghosts types) {t : Nat} (ht : t < types.length) {u : Nat}
    (hu : u < verts.length) :
    YieldsFrom (g.edges (getVertex u) t) g.iterEdge
      ((adjOf true (verts ++ ghosts) types[t].pins verts[u]).map (fun l => g.getEdge l t)) := by
  obtain ⟨e, he, hr, -⟩ := h.typ t ht
  have htn : t < g.numTypes := by rw [h.numTypes]; exact ht
  refine ⟨_, edges_eq h ht hu, ?_⟩
  set o := offs (fun u => degOf true types[t].pins (verts.getD u 0)) u with ho
  have hl := adjOf_length true (verts ++ ghosts) types[t].pins verts[u]
  have hmap : (adjOf true (verts ++ ghosts) types[t].pins verts[u]).map (fun l => g.getEdge l t) =
      (List.range' o (degOf true types[t].pins verts[u])).map
        (fun k => g.getEdge ((adjOf true (verts ++ ghosts) types[t].pins verts[u]).getD (k - o) 0) t) := by
    apply List.ext_getElem
    · simp [hl]
    · intro k h1 h2
      simp only [List.length_map] at h1
      simp [h1]
  rw [hmap]
  refine yields_edgeIt false htn _ o _ rfl ?_ (fun k => getEdge_pos _ _ _)
  intro k hk it h1 h2 h3 h4
  unfold Graph.iterEdge
  rw [if_neg (by rw [h2, h1]; exact getEdge_lt (by omega) htn), if_pos ⟨h.hyp, h4⟩, h1,
    decode_getEdge htn, Outcome.bind_ok]
  simp only
  rw [Graph.slot_ok he, Outcome.bind_ok, Mem.load_ok (hr.adj u hu k (by omega))]
  simp only [Outcome.bind_ok, Outcome.pure_eq, Nat.add_sub_cancel_left]
  congr 2
  rw [List.getD_eq_getElem?_getD, List.getElem?_eq_getElem (by omega)]
  rfl

/-- `edges(v,t)` in a traditional graph: a range of edge indices -/
theorem yields_edges_trad (h : CRep g false verts ghosts types) {t : Nat} (ht : t < types.length) {u : Nat}
    (hu : u < verts.length) :
    YieldsFrom (g.edges (getVertex u) t) g.iterEdge
      ((List.range' (offs (fun u => degOf false types[t].pins (verts.getD u 0)) u)
        (degOf false types[t].pins verts[u])).map (fun l => g.getEdge l t)) := by
  obtain ⟨e, he, hr, -⟩ := h.typ t ht
  have htn : t < g.numTypes := by rw [h.numTypes]; exact ht
  refine ⟨_, edges_eq h ht hu, ?_⟩
  refine yields_edgeIt false htn _ _ _ rfl ?_ (fun k => getEdge_pos _ _ _)
  intro k hk it h1 h2 h3 h4
  unfold Graph.iterEdge
  rw [if_neg (by rw [h2, h1]; exact getEdge_lt (by omega) htn), if_neg (by rw [h.hyp]; simp), h1]

/-! ## the search for the source of a traditional edge -/

/-- while `deg[low] ≤ e < deg[high]` the search finds a range containing `e` -/
theorem uLoop_finds (deg : Mem Nat) (d : Nat → Nat) (n e : Nat) (hd : ∀ k, k ≤ n → deg[k]? = some (some (d k))) :
    ∀ fuel low high, low < high → high ≤ n → d low ≤ e → e < d high → high - low ≤ fuel →
      ∃ i, uLoop deg e fuel low high = .ok (some i) ∧ low ≤ i ∧ i < high ∧ d i ≤ e ∧ e < d (i + 1) := by
  intro fuel
  induction fuel with
  | zero => intro low high h1 _ _ _ h2; omega
  | succ fuel ih =>
    intro low high hlt hn hl hh hf
    rw [uLoop]
    have hidx : low ≤ (high + low) / 2 ∧ (high + low) / 2 < high := by omega
    rw [Mem.load_ok (hd ((high + low) / 2) (by omega)), Outcome.bind_ok]
    by_cases ha : d ((high + low) / 2) ≤ e
    · rw [if_pos ha, Mem.load_ok (hd ((high + low) / 2 + 1) (by omega)), Outcome.bind_ok]
      by_cases hb : e < d ((high + low) / 2 + 1)
      · rw [if_pos hb]; exact ⟨_, rfl, hidx.1, hidx.2, ha, hb⟩
      · rw [if_neg hb]
        have hne : (high + low) / 2 + 1 ≠ high := by intro h; rw [h] at hb; exact hb hh
        have hgt : low < (high + low) / 2 := by omega
        obtain ⟨i, h1, h2, h3, h4⟩ := ih ((high + low) / 2) high (by omega) hn ha hh (by omega)
        exact ⟨i, h1, by omega, h3, h4⟩
    · rw [if_neg ha]
      have hgt : low < (high + low) / 2 := by
        rcases Nat.lt_or_ge low ((high + low) / 2) with h | h
        · exact h
        · have : (high + low) / 2 = low := by omega
          rw [this] at ha; exact absurd hl ha
      obtain ⟨i, h1, h2, h3, h4⟩ := ih low ((high + low) / 2) (by omega) (by omega) hl (by omega) (by omega)
      exact ⟨i, h1, h2, by omega, h4⟩

/-- a search for an index beyond the last range never ends, whatever the number of rounds -/
theorem uLoop_endless (deg : Mem Nat) (d : Nat → Nat) (n e : Nat) (hd : ∀ k, k ≤ n → deg[k]? = some (some (d k)))
    (hbig : ∀ k, k ≤ n → d k ≤ e) (hn : 0 < n) : ∀ fuel low, low < n →
      uLoop deg e fuel low n = .ok none := by
  intro fuel
  induction fuel with
  | zero => intro low _; rfl
  | succ fuel ih =>
    intro low hlow
    rw [uLoop]
    rw [Mem.load_ok (hd ((n + low) / 2) (by omega)), Outcome.bind_ok, if_pos (hbig _ (by omega)),
      Mem.load_ok (hd ((n + low) / 2 + 1) (by omega)), Outcome.bind_ok,
      if_neg (by have := hbig ((n + low) / 2 + 1) (by omega); omega)]
    exact ih _ (by omega)

/-- one round of the search from `(low, high)` -/
theorem uLoop_succ (deg : Mem Nat) (e fuel low high : Nat) {a b : Nat}
    (ha : deg.load ((high + low) / 2) = .ok a) (hb : deg.load ((high + low) / 2 + 1) = .ok b) :
    uLoop deg e (fuel + 1) low high =
      if a ≤ e then if e < b then .ok (some ((high + low) / 2)) else uLoop deg e fuel ((high + low) / 2) high
      else uLoop deg e fuel low ((high + low) / 2) := by
  rw [uLoop]
  simp only [ha, hb, Outcome.bind_ok]
  rfl

/-- a search from `(low, high)` that has not ended after `high - low + 1` rounds never ends -/
theorem uLoop_stuck (deg : Mem Nat) (e : Nat) : ∀ (d low high fuel : Nat), high = low + d → d + 1 ≤ fuel →
    uLoop deg e fuel low high = .ok none → ∀ fuel', uLoop deg e fuel' low high = .ok none := by
  intro d
  induction d using Nat.strongRecOn with
  | ind d ih =>
    intro low high fuel hh hf h fuel'
    obtain ⟨n, rfl⟩ : ∃ n, fuel = n + 1 := ⟨fuel - 1, by omega⟩
    rw [uLoop] at h
    obtain ⟨a, ha, h⟩ := bind_ok_iff.mp h
    by_cases hae : a ≤ e
    · rw [if_pos hae] at h
      obtain ⟨b, hb, h⟩ := bind_ok_iff.mp h
      by_cases heb : e < b
      · rw [if_pos heb] at h; simp at h
      · rw [if_neg heb] at h
        by_cases hfix : (high + low) / 2 = low
        · induction fuel' with
          | zero => rfl
          | succ m ihm =>
            rw [uLoop_succ deg e m low high ha hb, if_pos hae, if_neg heb]
            rw [hfix]; exact ihm
        · cases fuel' with
          | zero => rfl
          | succ m =>
            rw [uLoop_succ deg e m low high ha hb, if_pos hae, if_neg heb]
            exact ih (high - (high + low) / 2) (by omega) _ _ n (by omega) (by omega) h m
    · rw [if_neg hae] at h
      have step : ∀ m, uLoop deg e (m + 1) low high = uLoop deg e m low ((high + low) / 2) := by
        intro m
        rw [uLoop]
        simp only [ha, Outcome.bind_ok]
        rw [if_neg hae]
      by_cases hfix : (high + low) / 2 = high
      · induction fuel' with
        | zero => rfl
        | succ m ihm => rw [step m, hfix]; exact ihm
      · cases fuel' with
        | zero => rfl
        | succ m =>
          rw [step m]
          exact ih ((high + low) / 2 - low) (by omega) _ _ n (by omega) (by omega) h m

/-- the range that contains an index is unique -/
theorem offs_unique (c : Nat → Nat) {i j e : Nat} (h1 : offs c i ≤ e) (h2 : e < offs c (i + 1))
    (h3 : offs c j ≤ e) (h4 : e < offs c (j + 1)) : i = j := by
  rcases Nat.lt_trichotomy i j with h | h | h
  · have := offs_mono c (show i + 1 ≤ j by omega); omega
  · exact h
  · have := offs_mono c (show j + 1 ≤ i by omega); omega

/-- `u(e)` of the `k`-th edge of vertex `u` -/
theorem uEdge_eq (h : CRep g false verts ghosts types) {t : Nat} (ht : t < types.length) {u : Nat}
    (hu : u < verts.length) {k : Nat} (hk : k < degOf false types[t].pins verts[u]) :
    g.uEdge (g.getEdge (offs (fun u => degOf false types[t].pins (verts.getD u 0)) u + k) t) =
      .ok (getVertex u) := by
  obtain ⟨e, he, hr, -⟩ := h.typ t ht
  have htn : t < g.numTypes := by rw [h.numTypes]; exact ht
  set c := (fun u => degOf false types[t].pins (verts.getD u 0)) with hc
  have hcu : c u = degOf false types[t].pins verts[u] := by simp [hc, hu]
  have h2 : offs c u + k < offs c (u + 1) := by rw [offs_succ, hcu]; omega
  have h3 : offs c (u + 1) ≤ offs c verts.length := offs_mono c (by omega)
  obtain ⟨i, e1, h4, h5, h6, h7⟩ := uLoop_finds e.degreeList (offs c) verts.length (offs c u + k) hr.deg
    (verts.length + 1) 0 verts.length (by omega) (Nat.le_refl _) (by simp [offs_zero]) (by omega) (by omega)
  have : i = u := offs_unique c h6 h7 (by omega) h2
  subst this
  unfold Graph.uEdge Graph.uOf
  rw [decode_getEdge htn, Outcome.bind_ok]
  simp only
  rw [Graph.slot_ok he, Outcome.bind_ok, h.v.nl, e1]
  rfl

/-- every edge index of a type whose edges all start at local vertices belongs to a vertex -/
theorem edge_index_split (c : Nat → Nat) (n : Nat) {l : Nat} (h : l < offs c n) :
    ∃ u k, u < n ∧ k < c u ∧ l = offs c u + k := by
  induction n with
  | zero => simp [offs_zero] at h
  | succ n ih =>
    by_cases hl : l < offs c n
    · obtain ⟨u, k, h1, h2, h3⟩ := ih hl
      exact ⟨u, k, by omega, h2, h3⟩
    · rw [offs_succ] at h
      exact ⟨n, l - offs c n, by omega, by omega, by omega⟩

/-! ## pins -/

theorem pin_load (h : CRep g hyper verts ghosts types) {t : Nat} (ht : t < types.length) {e : EType}
    (hr : TRep hyper e verts (verts ++ ghosts) types[t].ids types[t].pins) {i : Nat}
    (hi : i < types[t].pins.length) {k : Nat} (hk : k < types[t].pins[i].length) :
    e.pinList.load (pinOff types[t].pins i + k) = .ok ((verts ++ ghosts).idxOf types[t].pins[i][k]) := by
  have hf := flatten_getElem? types[t].pins hi k hk
  obtain ⟨hlt, hget⟩ := List.getElem?_eq_some_iff.mp hf
  rw [hr.pl, Mem.load_ofList (by rw [List.length_map]; exact hlt)]
  simp only [List.getElem_map, hget]

theorem yields_pinIt (hh : g.isHyper = true) {t : Nat} {e : EType} (he : g.types[t]? = some (some e))
    (f : Nat → Nat) (n : Nat) : ∀ (a : Nat), (∀ k, k < n → e.pinList.load (a + k) = .ok (f (a + k))) →
      Yields g.iterPin ⟨t, a, a + n⟩ ((List.range' a n).map (fun k => f k + 1)) := by
  induction n with
  | zero => intro a _; exact ⟨⟨t, a, a⟩, by simp [Graph.iterPin, hh]⟩
  | succ n ih =>
    intro a h
    rw [List.range'_succ, List.map_cons]
    refine ⟨by omega, ⟨t, a + 1, a + (n + 1)⟩, ?_, ?_⟩
    · unfold Graph.iterPin
      rw [if_pos hh, if_neg (by simp only; omega)]
      simp only
      rw [Graph.slot_ok he, Outcome.bind_ok]
      have := h 0 (by omega)
      simp only [Nat.add_zero] at this
      rw [this]; rfl
    · have := ih (a + 1) (fun k hk => by
        rw [show a + 1 + k = a + (k + 1) by omega]; exact h (k + 1) (by omega))
      rwa [show a + 1 + n = a + (n + 1) by omega] at this

/-- `pins(e)` in a hypergraph: the supplied pin list -/
theorem yields_pins_hyper (h : CRep g true verts ghosts types) {t : Nat} (ht : t < types.length) {i : Nat}
    (hi : i < types[t].pins.length) :
    YieldsFrom (g.pins (g.getEdge i t)) g.iterPin
      (types[t].pins[i].map (fun v => getVertex ((verts ++ ghosts).idxOf v))) := by
  obtain ⟨e, he, hr, -⟩ := h.typ t ht
  have htn : t < g.numTypes := by rw [h.numTypes]; exact ht
  have hpd : ∀ k, k ≤ types[t].pins.length → e.pinDegree.load k = .ok (pinOff types[t].pins k) := by
    intro k hk
    rw [hr.pd, Mem.load_ofList (by simp; omega)]; simp
  refine ⟨⟨t, pinOff types[t].pins i, pinOff types[t].pins i + types[t].pins[i].length⟩, ?_, ?_⟩
  · unfold Graph.pins
    rw [decode_getEdge htn, Outcome.bind_ok]
    simp only
    rw [Graph.slot_ok he, Outcome.bind_ok, if_neg (by rw [h.hyp]; simp), hpd i (by omega), Outcome.bind_ok,
      hpd (i + 1) (by omega), Outcome.bind_ok, pinOff_succ _ hi]
    rfl
  · have hmap : types[t].pins[i].map (fun v => getVertex ((verts ++ ghosts).idxOf v)) =
        (List.range' (pinOff types[t].pins i) types[t].pins[i].length).map
          (fun k => ((types[t].pins[i].map (fun v => (verts ++ ghosts).idxOf v)).getD
            (k - pinOff types[t].pins i) 0) + 1) := by
      apply List.ext_getElem
      · simp
      · intro k h1 h2
        simp only [List.length_map] at h1
        simp [h1, getVertex]
    rw [hmap]
    refine yields_pinIt h.hyp he _ _ _ ?_
    intro k hk
    rw [pin_load h ht hr hi hk]
    simp [hk]

/-- `degree(e)` in a hypergraph -/
theorem degreeE_hyper (h : CRep g true verts ghosts types) {t : Nat} (ht : t < types.length) {i : Nat}
    (hi : i < types[t].pins.length) :
    g.degreeE (g.getEdge i t) = .ok ((types[t].pins[i].length : Nat) : Int) := by
  obtain ⟨e, he, hr, -⟩ := h.typ t ht
  have htn : t < g.numTypes := by rw [h.numTypes]; exact ht
  have hpd : ∀ k, k ≤ types[t].pins.length → e.pinDegree.load k = .ok (pinOff types[t].pins k) := by
    intro k hk
    rw [hr.pd, Mem.load_ofList (by simp; omega)]; simp
  unfold Graph.degreeE
  rw [if_neg (by rw [h.hyp]; simp), if_neg (getEdge_pos _ _ _), decode_getEdge htn, Outcome.bind_ok]
  simp only
  rw [Graph.slot_ok he, Outcome.bind_ok, hpd _ (by omega), Outcome.bind_ok, hpd i (by omega),
    Outcome.bind_ok, pinOff_succ _ hi]
  simp only [Outcome.pure_eq]
  congr 1
  omega

end
end Verif.Agi
