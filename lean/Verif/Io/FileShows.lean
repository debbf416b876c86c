import Verif.Io.FileBuild
/-!
# Lemmas: what a constructed part shows, for hypergraphs and traditional graphs
-/
namespace Verif.Io
open Verif.Agi

/-! ## traditional edges grouped by source -/

/-- the edges of a traditional graph in the order in which they are stored -/
def grouped (verts : List Gid) (es : List (List Gid)) : List (List Gid) :=
  verts.flatMap (fun v => es.filter (fun p => p[0]? == some v))

theorem offs_find (c : Nat → Nat) : ∀ n k, k < offs c n → ∃ u j, u < n ∧ j < c u ∧ k = offs c u + j := by
  intro n
  induction n with
  | zero => intro k h; simp [offs] at h
  | succ n ih =>
    intro k h
    rw [offs_succ] at h
    by_cases hk : k < offs c n
    · obtain ⟨u, j, h1, h2, h3⟩ := ih k hk
      exact ⟨u, j, by omega, h2, h3⟩
    · exact ⟨n, k - offs c n, by omega, by omega, by omega⟩

theorem degOf_filter (es : List (List Gid)) (v : Gid) :
    degOf false es v = (es.filter (fun p => p[0]? == some v)).length := by
  simp [degOf, List.countP_eq_length_filter]

theorem grouped_take (verts : List Gid) (es : List (List Gid)) : ∀ u, u ≤ verts.length →
    (grouped (verts.take u) es).length = offs (fun u => degOf false es (verts.getD u 0)) u := by
  intro u
  induction u with
  | zero => intro _; simp [grouped, offs]
  | succ u ih =>
    intro hu
    rw [offs_succ, ← ih (by omega)]
    unfold grouped
    rw [List.take_add_one, List.getElem?_eq_getElem (by omega), Option.toList_some, List.flatMap_append,
      List.length_append]
    congr 1
    rw [degOf_filter, List.getD_eq_getElem?_getD, List.getElem?_eq_getElem (by omega), Option.getD_some]
    simp

theorem grouped_length (verts : List Gid) (es : List (List Gid)) :
    (grouped verts es).length = offs (fun u => degOf false es (verts.getD u 0)) verts.length := by
  have := grouped_take verts es verts.length (Nat.le_refl _)
  rwa [List.take_length] at this

theorem grouped_at {verts : List Gid} {es : List (List Gid)} {u : Nat} (hu : u < verts.length) {j : Nat}
    (hj : j < (es.filter (fun p => p[0]? == some verts[u])).length) :
    (grouped verts es)[offs (fun u => degOf false es (verts.getD u 0)) u + j]? =
      some (es.filter (fun p => p[0]? == some verts[u]))[j] := by
  have h1 : grouped verts es = grouped (verts.take u) es ++
      (es.filter (fun p => p[0]? == some verts[u]) ++ grouped (verts.drop (u + 1)) es) := by
    unfold grouped
    conv_lhs => rw [← List.take_append_drop u verts, List.drop_eq_getElem_cons hu]
    rw [List.flatMap_append, List.flatMap_cons]
  rw [h1, ← grouped_take verts es u (by omega), List.getElem?_append_right (by omega), Nat.add_sub_cancel_left,
    List.getElem?_append_left hj, List.getElem?_eq_getElem hj]

/-- grouping again changes nothing -/
theorem filter_grouped {verts : List Gid} (hnd : verts.Nodup) (es : List (List Gid)) {v : Gid} (hv : v ∈ verts) :
    (grouped verts es).filter (fun p => p[0]? == some v) = es.filter (fun p => p[0]? == some v) := by
  unfold grouped
  induction verts with
  | nil => simp at hv
  | cons a l ih =>
    simp only [List.nodup_cons] at hnd
    rw [List.flatMap_cons, List.filter_append, List.filter_filter]
    have hzero : ∀ (l : List Gid), v ∉ l →
        (l.flatMap (fun v => es.filter (fun p => p[0]? == some v))).filter (fun p => p[0]? == some v) = [] := by
      intro l hl
      rw [List.filter_eq_nil_iff]
      intro x hx
      rw [List.mem_flatMap] at hx
      obtain ⟨w, hw, hxw⟩ := hx
      have := (List.mem_filter.mp hxw).2
      simp only [beq_iff_eq] at this ⊢
      intro hc
      rw [this] at hc
      exact hl (by rw [← Option.some.inj hc]; exact hw)
    by_cases hva : v = a
    · subst hva
      rw [hzero l hnd.1, List.append_nil]
      apply List.filter_congr
      intro x _; simp
    · rw [ih hnd.2 (by simpa [hva] using hv)]
      have : es.filter (fun x => x[0]? == some v && x[0]? == some a) = [] := by
        rw [List.filter_eq_nil_iff]
        intro x _
        simp only [Bool.and_eq_true, beq_iff_eq, not_and]
        intro h1 h2
        rw [h1] at h2
        exact hva (Option.some.inj h2)
      rw [this]; simp

theorem grouped_grouped {verts : List Gid} (hnd : verts.Nodup) (es : List (List Gid)) :
    grouped verts (grouped verts es) = grouped verts es := by
  conv_lhs => unfold grouped
  conv_rhs => unfold grouped
  apply List.flatMap_congr
  intro v hv
  exact filter_grouped hnd es hv

theorem grouped_perm {verts : List Gid} (hnd : verts.Nodup) {es : List (List Gid)}
    (hs : ∀ x ∈ es, ∃ u ∈ verts, ∃ w, u ≠ w ∧ x = [u, w]) : (grouped verts es).Perm es := by
  rw [List.perm_iff_count]
  intro x
  by_cases hx : x ∈ es
  · obtain ⟨u, hu, w, -, rfl⟩ := hs x hx
    have h1 : ∀ l : List (List Gid), l.count [u, w] = (l.filter (fun p => p[0]? == some u)).count [u, w] := by
      intro l; rw [List.count_filter (by simp)]
    rw [h1, h1 es, filter_grouped hnd es hu]
  · rw [List.count_eq_zero_of_not_mem hx, List.count_eq_zero_of_not_mem]
    intro hc
    unfold grouped at hc
    rw [List.mem_flatMap] at hc
    obtain ⟨v, _, h⟩ := hc
    exact hx (List.mem_filter.mp h).1

/-! ## the edges of a type as they are seen -/

/-- the edges in the order they are iterated, with the ids and weights reported -/
def canon (hyper : Bool) (verts : List Gid) (e : EdgeInput) : List HEdge :=
  if hyper then e.edges
  else (List.range e.pins.length).map (fun k : Nat => ⟨Int.ofNat k, (grouped verts e.pins).getD k [], e.weights.getD k 0⟩)

theorem canon_false (verts : List Gid) (e : EdgeInput) : canon false verts e =
    (List.range e.pins.length).map (fun k : Nat => ⟨Int.ofNat k, (grouped verts e.pins).getD k [], e.weights.getD k 0⟩) := rfl

/-- the ids of the edges of a vertex -/
def incOf (hyper : Bool) (verts : List Gid) (e : EdgeInput) (v : Gid) : List Gid :=
  if hyper then (adjOf true [] e.pins v).map (fun k => e.ids.getD k 0)
  else (List.range' (offs (fun u => degOf false e.pins (verts.getD u 0)) (verts.idxOf v)) (degOf false e.pins v)).map Int.ofNat

theorem canon_length {hyper : Bool} {verts : List Gid} {e : EdgeInput} (h : e.WF hyper) :
    (canon hyper verts e).length = e.pins.length := by
  unfold canon
  cases hyper with
  | true => rw [if_pos rfl]; exact edges_length h
  | false => simp

/-- the edge data read back are seen in the same way -/
theorem canon_again {hyper : Bool} {verts : List Gid} {e : EdgeInput} (h : e.WF hyper) (hnd : verts.Nodup)
    (hs : hyper = false → ∀ x ∈ e.pins, ∃ u ∈ verts, ∃ w, u ≠ w ∧ x = [u, w]) :
    (ofHEdges (canon hyper verts e)).WF hyper ∧
    canon hyper verts (ofHEdges (canon hyper verts e)) = canon hyper verts e ∧
    (∀ v ∈ verts, incOf hyper verts (ofHEdges (canon hyper verts e)) v = incOf hyper verts e v) ∧
    (ofHEdges (canon hyper verts e)).pins.Perm e.pins ∧
    (hyper = true → (ofHEdges (canon hyper verts e)).pins = e.pins) ∧
    (ofHEdges (canon hyper verts e)).pins.length = e.pins.length := by
  cases hyper with
  | true =>
    have h1 : (ofHEdges (canon true verts e)).pins = e.pins := by
      simp only [canon, if_true, ofHEdges]; exact edges_pins h
    have h2 : (ofHEdges (canon true verts e)).ids = e.ids := by
      simp only [canon, if_true, ofHEdges]
      apply List.ext_getElem
      · rw [List.length_map, edges_length h, h.ids_len]
      · intro k a b
        rw [List.getElem_map, edges_getElem (by simpa using a) b (by rw [← h.ids_len]; exact b)
          (by rw [weights_length h, ← h.ids_len]; exact b)]
    refine ⟨⟨by rw [h1, h2]; exact h.ids_len, .inr (by simp [ofHEdges]), by simp⟩, ?_, ?_, by rw [h1], fun _ => h1, by rw [h1]⟩
    · simp only [canon, if_true]; exact ofHEdges_edges _
    · intro v _
      simp only [incOf, if_true, h1, h2]
  | false =>
    have hs' := hs rfl
    have hperm := grouped_perm hnd hs'
    have hpins : (ofHEdges (canon false verts e)).pins = grouped verts e.pins := by
      simp only [canon, ofHEdges, List.map_map, Bool.false_eq_true, if_false]
      apply List.ext_getElem
      · simp [hperm.length_eq]
      · intro k a b
        simp only [List.getElem_map, Function.comp, List.getElem_range]
        rw [List.getD_eq_getElem?_getD, List.getElem?_eq_getElem b, Option.getD_some]
    have hws : (ofHEdges (canon false verts e)).weights = e.weights := by
      have hl := weights_length h
      unfold EdgeInput.weights
      rw [show (ofHEdges (canon false verts e)).wgts = e.weights by
        simp only [canon, ofHEdges, List.map_map, Bool.false_eq_true, if_false]
        apply List.ext_getElem
        · simp [hl]
        · intro k a b
          simp only [List.getElem_map, Function.comp, List.getElem_range]
          rw [List.getD_eq_getElem?_getD, List.getElem?_eq_getElem b, Option.getD_some]]
      by_cases hz : e.weights = []
      · have hp0 : e.pins.length = 0 := by rw [← hl, hz]; rfl
        have : (ofHEdges (canon false verts e)).ids = [] := by
          simp [ofHEdges, canon, hp0]
        have h0 : e.ids.length = 0 := by rw [h.ids_len, hp0]
        have h0' := List.length_eq_zero_iff.mp h0
        rw [if_pos hz, this]
        by_cases hw : e.wgts = []
        · rw [if_pos hw, h0']
        · rcases h.wgts_len with h1 | h1
          · exact absurd h1 hw
          · rw [h0] at h1; exact absurd (List.length_eq_zero_iff.mp h1) hw
      · rw [if_neg hz]; rfl
    refine ⟨⟨?_, .inr (by simp [ofHEdges]), ?_⟩, ?_, ?_, by rw [hpins]; exact hperm, by simp, by rw [hpins]; exact hperm.length_eq⟩
    · simp [ofHEdges]
    · intro _ p hp
      rw [hpins] at hp
      obtain ⟨u, _, w, _, rfl⟩ := hs' p (hperm.mem_iff.mp hp)
      rfl
    · rw [canon_false, hpins, hws, grouped_grouped hnd, hperm.length_eq]; rfl
    · intro v hv
      have hdeg : ∀ u, degOf false (grouped verts e.pins) u = degOf false e.pins u := by
        intro u; unfold degOf; simp only [Bool.false_eq_true, if_false]; exact hperm.countP_eq _
      simp only [incOf, Bool.false_eq_true, if_false, hpins, hdeg]

/-- a type's edges with their handles -/
theorem edgeHandles_fst (g : Graph) (t : Nat) (es : List HEdge) :
    (edgeHandles g t es).map Prod.fst = (List.range es.length).map (fun k => g.getEdge k t) := by
  unfold edgeHandles
  rw [List.map_map]
  apply List.ext_getElem
  · simp
  · intro k h1 h2; simp

theorem edgeHandles_snd (g : Graph) (t : Nat) (es : List HEdge) : (edgeHandles g t es).map Prod.snd = es := by
  unfold edgeHandles
  rw [List.map_map]
  apply List.ext_getElem
  · simp
  · intro k h1 h2; simp

theorem mem_edgeHandles {g : Graph} {t : Nat} {es : List HEdge} (x : Handle × HEdge) :
    x ∈ edgeHandles g t es ↔ ∃ k, ∃ hk : k < es.length, x = (g.getEdge k t, es[k]) := by
  unfold edgeHandles
  rw [List.mem_map]
  constructor
  · rintro ⟨y, hy, rfl⟩
    obtain ⟨k, hk, rfl⟩ := List.mem_iff_getElem.mp hy
    simp only [List.length_zip, List.length_range, Nat.min_self] at hk
    exact ⟨k, hk, by simp⟩
  · rintro ⟨k, hk, rfl⟩
    refine ⟨(k, es[k]), ?_, rfl⟩
    rw [List.mem_iff_getElem]
    exact ⟨k, by simpa using hk, by simp⟩

section
variable {g : Graph} {hyper : Bool} {verts ghosts : List Gid} {types : List EdgeInput}

theorem edgeAt_hyper (h : CRep g true verts ghosts types) {t : Nat} (ht : t < types.length) {k : Nat}
    (hk : k < (canon true verts types[t]).length) :
    EdgeAt g (verts ++ ghosts) (g.getEdge k t) (canon true verts types[t])[k] := by
  have hwf := h.wf _ (List.getElem_mem ht)
  have h1 : k < types[t].pins.length := by rw [canon_length hwf] at hk; exact hk
  have h2 : k < types[t].ids.length := by rw [hwf.ids_len]; exact h1
  have h3 : k < types[t].weights.length := by rw [weights_length hwf]; exact h1
  have : (canon true verts types[t])[k] = ⟨types[t].ids[k], types[t].pins[k], types[t].weights[k]⟩ :=
    edges_getElem hk h2 h1 h3
  rw [this]
  exact ⟨globalIDE_hyper h ht h2, weightE_eq h ht h3, degreeE_hyper h ht h1, yields_pins_hyper h ht h1⟩

theorem edgeAt_trad (h : CRep g false verts ghosts types) {t : Nat} (ht : t < types.length)
    (hs : ∀ x ∈ types[t].pins, ∃ u ∈ verts, ∃ w, u ≠ w ∧ x = [u, w]) {k : Nat}
    (hk : k < (canon false verts types[t]).length) :
    EdgeAt g (verts ++ ghosts) (g.getEdge k t) (canon false verts types[t])[k] := by
  have hwf := h.wf _ (List.getElem_mem ht)
  have hnd := (List.nodup_append.mp h.v.nodup).1
  have h1 : k < types[t].pins.length := by rw [canon_length hwf] at hk; exact hk
  have h3 : k < types[t].weights.length := by rw [weights_length hwf]; exact h1
  have hperm := grouped_perm hnd hs
  have hg : k < (grouped verts types[t].pins).length := by rw [hperm.length_eq]; exact h1
  have hcan : (canon false verts types[t])[k] = ⟨Int.ofNat k, (grouped verts types[t].pins)[k], types[t].weights[k]⟩ := by
    have : (canon false verts types[t])[k]? = some ⟨Int.ofNat k, (grouped verts types[t].pins)[k], types[t].weights[k]⟩ := by
      unfold canon
      simp only [Bool.false_eq_true, if_false]
      rw [List.getElem?_map, List.getElem?_range h1, Option.map_some, List.getD_eq_getElem?_getD,
        List.getElem?_eq_getElem hg, Option.getD_some, List.getD_eq_getElem?_getD, List.getElem?_eq_getElem h3,
        Option.getD_some]
    rw [List.getElem?_eq_getElem hk] at this
    exact Option.some.inj this
  rw [hcan]
  obtain ⟨u, j, hu, hj, hkk⟩ := offs_find _ verts.length k (by rw [← grouped_length]; exact hg)
  have hcu : degOf false types[t].pins (verts.getD u 0) = degOf false types[t].pins verts[u] := by
    rw [List.getD_eq_getElem?_getD, List.getElem?_eq_getElem hu, Option.getD_some]
  simp only [hcu] at hj
  have hj' : j < (types[t].pins.filter (fun p => p[0]? == some verts[u])).length := by
    rw [← degOf_filter]; exact hj
  have hja : j < (adjOf false (verts ++ ghosts) types[t].pins verts[u]).length := by rw [adjOf_length]; exact hj
  have hat := grouped_at hu hj'
  rw [← hkk, List.getElem?_eq_getElem hg] at hat
  have hat' := Option.some.inj hat
  have hmem : (types[t].pins.filter (fun p => p[0]? == some verts[u]))[j] ∈
      types[t].pins.filter (fun p => p[0]? == some verts[u]) := List.getElem_mem hj'
  obtain ⟨hm1, hm2⟩ := List.mem_filter.mp hmem
  obtain ⟨u', hu', w, hne, hx⟩ := hs _ hm1
  rw [hx] at hm2
  simp only [List.getElem?_cons_zero, beq_iff_eq, Option.some.injEq] at hm2
  subst hm2
  have hadj : (adjOf false (verts ++ ghosts) types[t].pins verts[u])[j] = (verts ++ ghosts).idxOf w := by
    have : (adjOf false (verts ++ ghosts) types[t].pins verts[u])[j]? = some ((verts ++ ghosts).idxOf w) := by
      unfold adjOf
      simp only [Bool.false_eq_true, if_false]
      rw [List.getElem?_map, List.getElem?_eq_getElem hj', hx]
      rfl
    rw [List.getElem?_eq_getElem hja] at this
    exact Option.some.inj this
  have hpins : (grouped verts types[t].pins)[k] = [verts[u], w] := by rw [hat', hx]
  have hw : w ∈ verts ++ ghosts := by
    apply h.pins t ht
    rw [List.mem_flatten]
    exact ⟨_, hm1, by rw [hx]; simp⟩
  refine ⟨?_, weightE_eq h ht h3, ?_, ?_⟩
  · unfold Graph.globalIDE
    rw [decode_getEdge (by rw [h.numTypes]; exact ht), Outcome.bind_ok]
    simp only
    rw [if_pos h.hyp]; rfl
  · unfold Graph.degreeE
    rw [if_pos h.hyp]
    simp only [hpins]; rfl
  · have hp := pins_trad h ht hu hja
    rw [← hkk, hadj] at hp
    refine ⟨_, hp, ?_⟩
    have huv : vh (verts ++ ghosts) verts[u] = getVertex u := by
      rw [vh_local hu', hnd.idxOf_getElem]
    have hy := yields_pinIt_trad (g := g) h.hyp t (a := getVertex u) (b := getVertex ((verts ++ ghosts).idxOf w))
      (by simp [getVertex]) (by simp [getVertex])
    rw [if_neg] at hy
    · simp only [hpins, List.map_cons, List.map_nil]
      rw [huv]; exact hy
    · intro hc
      have : u = (verts ++ ghosts).idxOf w := by simpa [getVertex] using hc
      exact hne ((idxOf_eq_iff h.v.nodup hw hu).mp this.symm).symm

theorem edgeAt_canon (h : CRep g hyper verts ghosts types) {t : Nat} (ht : t < types.length)
    (hs : hyper = false → ∀ x ∈ types[t].pins, ∃ u ∈ verts, ∃ w, u ≠ w ∧ x = [u, w]) {k : Nat}
    (hk : k < (canon hyper verts types[t]).length) :
    EdgeAt g (verts ++ ghosts) (g.getEdge k t) (canon hyper verts types[t])[k] := by
  cases hyper with
  | true => exact edgeAt_hyper h ht hk
  | false => exact edgeAt_trad h ht (hs rfl) hk

theorem canon_pins {e : EdgeInput} (h : e.WF hyper) (hnd : verts.Nodup)
    (hs : hyper = false → ∀ x ∈ e.pins, ∃ u ∈ verts, ∃ w, u ≠ w ∧ x = [u, w]) {E : HEdge} (hE : E ∈ canon hyper verts e) :
    E.pins ∈ e.pins := by
  have := (canon_again h hnd hs).2.2.2.1
  apply this.mem_iff.mp
  simp only [ofHEdges]
  exact List.mem_map.mpr ⟨E, hE, rfl⟩

theorem incid_ids (h : CRep g hyper verts ghosts types) {t : Nat} (ht : t < types.length) {v : Gid} (hv : v ∈ verts) :
    edgeIdsOf g v t = .ok (incOf hyper verts types[t] v) := by
  have hwf := h.wf _ (List.getElem_mem ht)
  unfold edgeIdsOf
  rw [findGID_eq h.v (by simp [hv]), Outcome.bind_ok]
  have hvl := vh_local (ghosts := ghosts) hv
  unfold vh at hvl
  rw [hvl]
  have hu := List.idxOf_lt_length_of_mem hv
  have hget : verts[verts.idxOf v] = v := List.getElem_idxOf hu
  obtain ⟨e, he, hr, -⟩ := h.typ t ht
  have hb := bound_ge he
  have hlen := hr.list_len
  have hmono := offs_mono (fun u => degOf hyper types[t].pins (verts.getD u 0)) (show verts.idxOf v + 1 ≤ verts.length by omega)
  have hsucc := offs_succ (fun u => degOf hyper types[t].pins (verts.getD u 0)) (verts.idxOf v)
  have hdv : degOf hyper types[t].pins (verts.getD (verts.idxOf v) 0) = degOf hyper types[t].pins v := by
    rw [List.getD_eq_getElem?_getD, List.getElem?_eq_getElem hu, Option.getD_some, hget]
  simp only [hdv] at hsucc
  cases hyper with
  | true =>
    obtain ⟨it, e1, hy⟩ := yields_edges_hyper h ht hu
    rw [e1, Outcome.bind_ok]
    rw [hget] at hy
    have hadj : adjOf true (verts ++ ghosts) types[t].pins v = adjOf true [] types[t].pins v := rfl
    have hal := adjOf_length true [] types[t].pins v
    rw [hadj] at hy
    rw [iterLoop_collect (F := fun k => types[t].ids.getD k 0) hy (by rw [hal]; omega) (by
      intro acc k hk
      obtain ⟨hk1, -⟩ := mem_adjOf_hyper.mp hk
      have hki : k < types[t].ids.length := by rw [hwf.ids_len]; exact hk1
      rw [globalIDE_hyper h ht hki, Outcome.bind_ok, List.getD_eq_getElem?_getD, List.getElem?_eq_getElem hki]
      rfl)]
    simp [incOf]
  | false =>
    obtain ⟨it, e1, hy⟩ := yields_edges_trad h ht hu
    rw [e1, Outcome.bind_ok]
    rw [hget] at hy
    rw [iterLoop_collect (F := Int.ofNat) hy (by simp only [List.length_range']; omega) (by
      intro acc k hk
      have : g.globalIDE (g.getEdge k t) = .ok (Int.ofNat k) := by
        unfold Graph.globalIDE
        rw [decode_getEdge (by rw [h.numTypes]; exact ht), Outcome.bind_ok]
        simp only
        rw [if_pos h.hyp]; rfl
      rw [this, Outcome.bind_ok]; rfl)]
    simp [incOf]

end

/-- the edges of all types with their handles -/
def ezOf (g : Graph) (hyper : Bool) (verts : List Gid) (types : List EdgeInput) : List (List (Handle × HEdge)) :=
  types.zipIdx.map (fun x => edgeHandles g x.2 (canon hyper verts x.1))

theorem ezOf_snd (g : Graph) (hyper : Bool) (verts : List Gid) (types : List EdgeInput) :
    (ezOf g hyper verts types).map (fun es => es.map Prod.snd) = types.map (canon hyper verts) := by
  unfold ezOf
  rw [List.map_map]
  apply List.ext_getElem
  · simp
  · intro k h1 h2
    simp only [List.getElem_map, List.getElem_zipIdx, Function.comp, edgeHandles_snd]

theorem ezOf_get (g : Graph) (hyper : Bool) (verts : List Gid) (types : List EdgeInput) {t : Nat}
    (ht : t < types.length) (h : t < (ezOf g hyper verts types).length) :
    (ezOf g hyper verts types)[t] = edgeHandles g t (canon hyper verts types[t]) := by
  have : (ezOf g hyper verts types)[t]? = some (edgeHandles g t (canon hyper verts types[t])) := by
    unfold ezOf
    rw [List.getElem?_map, List.getElem?_zipIdx, List.getElem?_eq_getElem ht]
    simp
  rw [List.getElem?_eq_getElem h] at this
  exact Option.some.inj this

/-- what a constructed part shows -/
theorem PartRep.shows {g : Graph} {p n : Nat} {i : Input} {own : Gid → Nat} {gh : List Gid}
    (h : PartRep g p n i own gh) (hl : ∀ v ∈ i.verts, own v = p) {wt : Gid → Wgt}
    (hw : vertWeights i.verts i.wgts = i.verts.map wt)
    (hs : i.hyper = false → SourcesLocal i) {co : Option (Gid → Coord)} (hc : g.coords.isSome = co.isSome)
    (hcv : ∀ c, co = some c → ∀ v ∈ i.verts, g.coord (vh (i.verts ++ gh) v) = .ok (c v)) :
    Shows g p i.verts gh own wt co (ezOf g i.hyper i.verts i.types) := by
  have hlen : (ezOf g i.hyper i.verts i.types).length = i.types.length := by simp [ezOf]
  have hnd := (List.nodup_append.mp h.core.v.nodup).1
  have hwfE : ∀ t (ht : t < i.types.length), i.types[t].WF i.hyper := fun t ht => h.core.wf _ (List.getElem_mem ht)
  have hsE : ∀ t (ht : t < i.types.length), i.hyper = false → ∀ x ∈ i.types[t].pins, ∃ u ∈ i.verts, ∃ w, u ≠ w ∧ x = [u, w] :=
    fun t ht hf => hs hf _ (List.getElem_mem ht)
  have hbd : ∀ t (ht : t < i.types.length), i.types[t].pins.length + i.types[t].pins.flatten.length < g.bound := by
    intro t ht
    obtain ⟨e, he, hr, -⟩ := h.core.typ t ht
    have := bound_ge he
    rw [hr.numE, hr.numP] at this
    omega
  have hehl : ∀ t (ht : t < i.types.length), (edgeHandles g t (canon i.hyper i.verts i.types[t])).length = i.types[t].pins.length := by
    intro t ht
    rw [← canon_length (verts := i.verts) (hwfE t ht)]
    simp [edgeHandles]
  refine ⟨h.core.v, h.rank, by rw [hlen]; exact h.core.numTypes, by rw [h.weights, hw], hc, hcv, h.owners, hl,
    ?_, ?_, ?_, ?_, ?_, ?_, ?_⟩
  · intro t ht
    have ht' : t < i.types.length := by omega
    rw [ezOf_get g _ _ _ ht' ht, hehl t ht']
    exact numEdges_eq h.core ht'
  · intro t ht
    have ht' : t < i.types.length := by omega
    rw [ezOf_get g _ _ _ ht' ht, edgeHandles_fst, canon_length (hwfE t ht')]
    exact yields_edgeBegin h.core ht'
  · intro t ht x hx
    have ht' : t < i.types.length := by omega
    rw [ezOf_get g _ _ _ ht' ht] at hx
    obtain ⟨k, hk, rfl⟩ := (mem_edgeHandles x).mp hx
    exact edgeAt_canon h.core ht' (hsE t ht') hk
  · intro t ht x hx v hv
    have ht' : t < i.types.length := by omega
    rw [ezOf_get g _ _ _ ht' ht] at hx
    obtain ⟨k, hk, rfl⟩ := (mem_edgeHandles x).mp hx
    have hm := canon_pins (hwfE t ht') hnd (hsE t ht') (List.getElem_mem hk)
    exact h.core.pins t ht' v (List.mem_flatten.mpr ⟨_, hm, hv⟩)
  · intro t ht
    have ht' : t < i.types.length := by omega
    rw [ezOf_get g _ _ _ ht' ht, hehl t ht']
    have := hbd t ht'; omega
  · intro t ht x hx
    have ht' : t < i.types.length := by omega
    rw [ezOf_get g _ _ _ ht' ht] at hx
    obtain ⟨k, hk, rfl⟩ := (mem_edgeHandles x).mp hx
    have hm := canon_pins (hwfE t ht') hnd (hsE t ht') (List.getElem_mem hk)
    have h1 := hbd t ht'
    have h2 := (List.sublist_flatten_of_mem hm).length_le
    simp only
    omega
  · have := h.core.v.nl
    unfold Graph.bound; omega

end Verif.Io
