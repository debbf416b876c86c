import Verif.Part.ParmetisGen
import Verif.Agi.TradPart
import Verif.Io.FileShows
/-!
# Lemmas: one part of a traditional graph, as `EnGPar_ParMETIS` sees it
-/
namespace Verif.Part
open Verif.Agi Verif.Io

/-- edges that are listed by source, in the order of the vertices, are numbered as listed -/
theorem grouped_sorted {V : List Gid} (hnd : V.Nodup) : ∀ {es : List (List Gid)}, ArcsOn V es →
    es.Pairwise (fun p q => srcIdx V p ≤ srcIdx V q) → grouped V es = es := by
  intro es
  induction es with
  | nil => intro _ _; simp [grouped]
  | cons a es ih =>
    intro hs hp
    rw [List.pairwise_cons] at hp
    have ih := ih (fun x hx => hs x (by simp [hx])) hp.2
    obtain ⟨u, hu, w, -, rfl⟩ := hs a (by simp)
    obtain ⟨V1, V2, rfl⟩ := List.mem_iff_append.mp hu
    have hu1 : u ∉ V1 := by
      intro hc
      exact (List.nodup_append.mp hnd).2.2 u hc u (by simp) rfl
    have hu2 : u ∉ V2 := by
      have := (List.nodup_append.mp hnd).2.1
      simp only [List.nodup_cons] at this
      exact this.1
    have hidx : (V1 ++ u :: V2).idxOf u = V1.length := by
      rw [List.idxOf_append_of_notMem hu1]; simp
    have hno : ∀ (L : List (List Gid)), (∀ q ∈ L, srcIdx (V1 ++ u :: V2) [u, w] ≤ srcIdx (V1 ++ u :: V2) q ∧ ∃ a, q[0]? = some a) →
        V1.flatMap (fun v => L.filter (fun p => p[0]? == some v)) = [] := by
      intro L hL
      rw [List.flatMap_eq_nil_iff]
      intro v hv
      rw [List.filter_eq_nil_iff]
      intro q hq
      obtain ⟨h1, a, ha⟩ := hL q hq
      simp only [beq_iff_eq, ha, Option.some.injEq]
      rintro rfl
      unfold srcIdx at h1
      simp only [List.getD_eq_getElem?_getD, ha, Option.getD_some] at h1
      rw [List.idxOf_append_of_mem hv] at h1
      have := List.idxOf_lt_length_of_mem hv
      simp only [List.getElem?_cons_zero, Option.getD_some] at h1
      omega
    have hsome : ∀ q ∈ es, ∃ a, q[0]? = some a := by
      intro q hq
      obtain ⟨a, -, b, -, rfl⟩ := hs q (by simp [hq])
      exact ⟨a, rfl⟩
    have h1 : V1.flatMap (fun v => es.filter (fun p => p[0]? == some v)) = [] := hno es (fun q hq => ⟨hp.1 q hq, hsome q hq⟩)
    have h2 : V1.flatMap (fun v => ([u, w] :: es).filter (fun p => p[0]? == some v)) = [] := hno _ (by
      intro q hq
      rcases List.mem_cons.mp hq with rfl | hq
      · exact ⟨Nat.le_refl _, u, rfl⟩
      · exact ⟨hp.1 q hq, hsome q hq⟩)
    unfold grouped at ih ⊢
    rw [List.flatMap_append, List.flatMap_cons, h1, List.nil_append] at ih
    rw [List.flatMap_append, List.flatMap_cons, h2, List.nil_append, List.filter_cons_of_pos (by simp), List.cons_append]
    congr 1
    rw [← ih]
    congr 1
    · rw [ih]
    · rw [ih]
      apply List.flatMap_congr
      intro v hv
      rw [List.filter_cons_of_neg]
      simp only [List.getElem?_cons_zero, beq_iff_eq, Option.some.injEq]
      rintro rfl
      exact hu2 hv

section
variable {g : Graph} {verts ghosts : List Gid} {types : List EdgeInput}

/-- the first of the positions of the edges of a vertex -/
def offT (verts : List Gid) (pins : List (List Gid)) (u : Nat) : Nat := offs (fun u => degOf false pins (verts.getD u 0)) u

/-- the row of a handle -/
def runT (g : Graph) (verts known : List Gid) (t : Nat) (pins : List (List Gid)) (h : Handle) : List (Handle × Handle) :=
  (List.range' (offT verts pins (h - 1)) (degOf false pins (gidOf known h))).map
    (fun k => (getVertex (known.idxOf (dst ((grouped verts pins).getD k []))), g.getEdge k t))

/-- the edge at a position of the row of a vertex -/
theorem row_at {pins : List (List Gid)} (hs : ArcsOn verts pins) {u : Nat} (hu : u < verts.length) {k : Nat}
    (h1 : offT verts pins u ≤ k) (h2 : k < offT verts pins u + degOf false pins verts[u]) :
    ∃ hk : k < (grouped verts pins).length, ∃ w, verts[u] ≠ w ∧ (grouped verts pins)[k] = [verts[u], w] ∧
      k - offT verts pins u < (pins.filter (fun p => p[0]? == some verts[u])).length ∧
      (pins.filter (fun p => p[0]? == some verts[u]))[k - offT verts pins u]? = some [verts[u], w] := by
  have hdeg : degOf false pins verts[u] = (pins.filter (fun p => p[0]? == some verts[u])).length := by
    simp [degOf, List.countP_eq_length_filter]
  have hj : k - offT verts pins u < (pins.filter (fun p => p[0]? == some verts[u])).length := by omega
  have hat := grouped_at hu hj
  have hko : offs (fun u => degOf false pins (verts.getD u 0)) u + (k - offT verts pins u) = k := by
    have : offT verts pins u = offs (fun u => degOf false pins (verts.getD u 0)) u := rfl
    omega
  rw [hko] at hat
  obtain ⟨hk, he⟩ := List.getElem?_eq_some_iff.mp hat
  have hmem := List.getElem_mem hj
  obtain ⟨hm1, hm2⟩ := List.mem_filter.mp hmem
  obtain ⟨a, -, w, hne, hx⟩ := hs _ hm1
  rw [hx] at hm2
  simp only [List.getElem?_cons_zero, beq_iff_eq, Option.some.injEq] at hm2
  subst hm2
  refine ⟨hk, w, hne, by rw [he, hx], hj, by rw [List.getElem?_eq_getElem hj, hx]⟩

/-- an edge of a vertex is at a position of its row -/
theorem at_row (hnd : verts.Nodup) {pins : List (List Gid)} (hs : ArcsOn verts pins) {u : Nat} (hu : u < verts.length) {k : Nat}
    {w : Gid} (hk : (grouped verts pins)[k]? = some [verts[u], w]) :
    offT verts pins u ≤ k ∧ k < offT verts pins u + degOf false pins verts[u] := by
  obtain ⟨hkl, he⟩ := List.getElem?_eq_some_iff.mp hk
  obtain ⟨u', j, hu', hj, hkk⟩ := offs_find _ verts.length k (by rw [← grouped_length]; exact hkl)
  have hcu : degOf false pins (verts.getD u' 0) = degOf false pins verts[u'] := by
    rw [List.getD_eq_getElem?_getD, List.getElem?_eq_getElem hu', Option.getD_some]
  simp only [hcu] at hj
  have hofd : offT verts pins u' = offs (fun u => degOf false pins (verts.getD u 0)) u' := rfl
  obtain ⟨hk2, w', -, he2, -⟩ := row_at hs hu' (k := k) (by omega) (by omega)
  rw [he2] at he
  simp only [List.cons.injEq] at he
  have : u' = u := (List.Nodup.getElem_inj_iff hnd).mp he.1
  subst this
  omega

theorem runT_vertex {pins : List (List Gid)} {t u : Nat} (hu : u < verts.length) :
    runT g verts (verts ++ ghosts) t pins (getVertex u) =
      (List.range' (offT verts pins u) (degOf false pins verts[u])).map
        (fun k => (getVertex ((verts ++ ghosts).idxOf (dst ((grouped verts pins).getD k []))), g.getEdge k t)) := by
  unfold runT
  rw [gidOf_vertex (by simp; omega), List.getElem_append_left hu]
  rfl

theorem mem_runT {pins : List (List Gid)} (hnd : verts.Nodup) (hs : ArcsOn verts pins) {t u : Nat} (hu : u < verts.length)
    {x : Handle × Handle} : x ∈ runT g verts (verts ++ ghosts) t pins (getVertex u) ↔
      ∃ (k : Nat) (w : Gid), verts[u] ≠ w ∧ (grouped verts pins)[k]? = some [verts[u], w] ∧ x = (getVertex ((verts ++ ghosts).idxOf w), g.getEdge k t) := by
  rw [runT_vertex hu, List.mem_map]
  constructor
  · rintro ⟨k, hk, rfl⟩
    rw [List.mem_range'_1] at hk
    obtain ⟨hkl, w, hne, he, -⟩ := row_at hs hu hk.1 hk.2
    refine ⟨k, w, hne, by rw [List.getElem?_eq_getElem hkl, he], ?_⟩
    rw [List.getD_eq_getElem?_getD, List.getElem?_eq_getElem hkl, Option.getD_some, he]
    rfl
  · rintro ⟨k, w, hne, he, rfl⟩
    refine ⟨k, List.mem_range'_1.mpr (at_row hnd hs hu he), ?_⟩
    rw [List.getD_eq_getElem?_getD, he, Option.getD_some]
    rfl

theorem mem_pins_of_grouped {pins : List (List Gid)} {k : Nat} {x : List Gid} (h : (grouped verts pins)[k]? = some x) : x ∈ pins :=
  mem_grouped (List.mem_of_getElem? h)

theorem grouped_of_mem (hnd : verts.Nodup) {pins : List (List Gid)} (hs : ArcsOn verts pins) {x : List Gid} (h : x ∈ pins) :
    ∃ k : Nat, (grouped verts pins)[k]? = some x := by
  have := (grouped_perm hnd hs).mem_iff.mpr h
  exact List.mem_iff_getElem?.mp this

/-- the neighbours by handle -/
theorem mem_others_trad (h : CRep g false verts ghosts types) {t : Nat} (ht : t < types.length) (hs : ArcsOn verts types[t].pins)
    {u : Nat} (hu : u < verts.length) {k : Handle} :
    k ∈ (others (runT g verts (verts ++ ghosts) t types[t].pins) (getVertex u)).map Prod.fst ↔
      ∃ w, w ∈ verts ++ ghosts ∧ (verts[u] ≠ w ∧ [verts[u], w] ∈ types[t].pins) ∧ k = getVertex ((verts ++ ghosts).idxOf w) := by
  have hnd := (List.nodup_append.mp h.v.nodup).1
  have hkn : ∀ w, [verts[u], w] ∈ types[t].pins → w ∈ verts ++ ghosts := fun w hw =>
    h.pins t ht w (List.mem_flatten.mpr ⟨_, hw, by simp⟩)
  rw [List.mem_map]
  constructor
  · rintro ⟨x, hx, rfl⟩
    obtain ⟨h1, -⟩ := List.mem_filter.mp hx
    obtain ⟨k, w, hne, he, rfl⟩ := (mem_runT hnd hs hu).mp h1
    exact ⟨w, hkn w (mem_pins_of_grouped he), ⟨hne, mem_pins_of_grouped he⟩, rfl⟩
  · rintro ⟨w, hwk, ⟨hne, hw⟩, rfl⟩
    obtain ⟨k, he⟩ := grouped_of_mem hnd hs hw
    refine ⟨(_, g.getEdge k t), List.mem_filter.mpr ⟨(mem_runT hnd hs hu).mpr ⟨k, w, hne, he, rfl⟩, ?_⟩, rfl⟩
    simp only [decide_eq_true_eq]
    intro hc
    apply hne
    have := gidOf_idx hwk
    rw [hc, gidOf_vertex (by simp; omega), List.getElem_append_left hu] at this
    exact this

/-- `adjacent` of a vertex, with the edges -/
theorem adjRun_runT (h : CRep g false verts ghosts types) {t : Nat} (ht : t < types.length) (hs : ArcsOn verts types[t].pins)
    {u : Nat} (hu : u < verts.length) : ∃ it, g.adjacent (getVertex u) t = .ok it ∧
      AdjRun g it (runT g verts (verts ++ ghosts) t types[t].pins (getVertex u)) := by
  obtain ⟨eitr, he, hy⟩ := yields_edges_trad h ht hu
  unfold Graph.adjacent
  rw [he, Outcome.bind_ok]
  refine ⟨_, rfl, ?_⟩
  rw [runT_vertex hu]
  have H : ∀ (ls : List Nat) (W : Nat → Nat), (∀ l ∈ ls, g.vOf (g.getEdge l t) = .ok (getVertex (W l))) → ∀ (it : AdjIt), it.isH = false →
      Yields g.iterEdge it.eitr (ls.map (fun l => g.getEdge l t)) →
      AdjRun g it (ls.map (fun l => (getVertex (W l), g.getEdge l t))) := by
    intro ls W
    induction ls with
    | nil =>
      intro _ it hH hy
      obtain ⟨it', hs⟩ := hy
      refine ⟨{ it with eitr := it', edge := 0 }, ?_⟩
      unfold Graph.iterAdj
      rw [if_neg (by simp [hH]), hs, Outcome.bind_ok]
      simp only [Graph.vOf, h.hyp]
      rfl
    | cons l ls ih =>
      intro hv it hH hy
      obtain ⟨-, it', hs, hy'⟩ := hy
      have hw := hv l (by simp)
      refine ⟨by simp [getVertex], getEdge_pos g l t, _, ?_, rfl, ih (fun l hl => hv l (by simp [hl])) { it with eitr := it', edge := g.getEdge l t } hH hy'⟩
      unfold Graph.iterAdj
      rw [if_neg (by simp [hH]), hs, Outcome.bind_ok]
      dsimp only
      rw [hw]
      rfl
  refine H _ (fun k => (verts ++ ghosts).idxOf (dst ((grouped verts types[t].pins).getD k []))) ?_ _ h.hyp hy
  intro l hl
  rw [List.mem_range'_1] at hl
  obtain ⟨hkl, w, hne, hge, hj, hf⟩ := row_at hs hu (k := l) hl.1 hl.2
  have hlo : l = offs (fun u => degOf false types[t].pins (verts.getD u 0)) u + (l - offT verts types[t].pins u) := by
    have : offT verts types[t].pins u = offs (fun u => degOf false types[t].pins (verts.getD u 0)) u := rfl
    omega
  have hja : l - offT verts types[t].pins u < (adjOf false (verts ++ ghosts) types[t].pins verts[u]).length := by
    rw [adjOf_length]
    have : offT verts types[t].pins u = offs (fun u => degOf false types[t].pins (verts.getD u 0)) u := rfl
    omega
  have hv := vOf_eq (t := t) h ht hu hja
  rw [← hlo] at hv
  rw [hv]
  congr 2
  rw [List.getD_eq_getElem?_getD, List.getElem?_eq_getElem hkl, Option.getD_some, hge]
  obtain ⟨hj', hf⟩ := List.getElem?_eq_some_iff.mp hf
  simp only [adjOf, Bool.false_eq_true, if_false, List.getElem_map, hf]
  rfl

theorem rowT_fuel (h : CRep g false verts ghosts types) {t : Nat} (ht : t < types.length) (v : Gid) :
    degOf false types[t].pins v < g.bound ∧ 2 < g.bound ∨ types[t].pins = [] := by
  obtain ⟨e, he, hr, -⟩ := h.typ t ht
  have hb := bound_ge he
  have hn := hr.numE
  have hp := hr.numP
  have hd : degOf false types[t].pins v ≤ types[t].pins.length := by
    simp [degOf]; exact List.countP_le_length
  by_cases hc : types[t].pins = []
  · exact .inr hc
  · left
    constructor
    · omega
    · have hpos : 0 < types[t].pins.length := List.length_pos_iff.mpr hc
      have h2 : ∀ p ∈ types[t].pins, p.length = 2 := fun p hp => (h.wf _ (List.getElem_mem ht)).two rfl p hp
      have : 2 ≤ types[t].pins.flatten.length := by
        rw [List.length_flatten]
        have := le_sum_of_mem (List.mem_map.mpr ⟨_, List.getElem_mem hpos, rfl⟩ : (types[t].pins[0]).length ∈ types[t].pins.map List.length)
        rw [h2 _ (List.getElem_mem hpos)] at this
        exact this
      omega

/-- the weight of a neighbour: the edges from the vertex to it -/
theorem nbrSum_trad (h : CRep g false verts ghosts types) {t : Nat} (ht : t < types.length) (hs : ArcsOn verts types[t].pins)
    {W : List Int} (hW : types[t].weights.map truncD = W) (hWl : W.length = types[t].pins.length)
    {u : Nat} (hu : u < verts.length) {w : Gid} (hwk : w ∈ verts ++ ghosts) (hne : verts[u] ≠ w) :
    nbrSum (wtOf g) (others (runT g verts (verts ++ ghosts) t types[t].pins) (getVertex u)) (getVertex ((verts ++ ghosts).idxOf w)) =
      (((grouped verts types[t].pins).zip W).map (fun e => if e.1 = [verts[u], w] then e.2 else 0)).sum := by
  have hnd := (List.nodup_append.mp h.v.nodup).1
  have hgl : (grouped verts types[t].pins).length = types[t].pins.length := (grouped_perm hnd hs).length_eq
  have hwt : ∀ i (hi : i < W.length), wtOf g (g.getEdge i t) = W[i] := by
    intro i hi
    unfold wtOf
    rw [weightE_eq h ht (k := i) (by rw [← hW, List.length_map] at hi; exact hi)]
    simp only [← hW, List.getElem_map]
  have hk : getVertex ((verts ++ ghosts).idxOf w) ≠ getVertex u := by
    intro hc
    apply hne
    have := gidOf_idx hwk
    rw [hc, gidOf_vertex (by simp; omega), List.getElem_append_left hu] at this
    exact this
  have h1 : nbrSum (wtOf g) (others (runT g verts (verts ++ ghosts) t types[t].pins) (getVertex u)) (getVertex ((verts ++ ghosts).idxOf w)) =
      nbrSum (wtOf g) (runT g verts (verts ++ ghosts) t types[t].pins (getVertex u)) (getVertex ((verts ++ ghosts).idxOf w)) := by
    unfold nbrSum others
    rw [List.filter_filter]
    congr 2
    apply List.filter_congr
    intro x _
    by_cases hx : x.1 = getVertex ((verts ++ ghosts).idxOf w)
    · simp only [hx, decide_true, Bool.true_and]; simpa using hk
    · simp [hx]
  rw [h1, runT_vertex hu]
  set f : Nat → Int := fun k => if (grouped verts types[t].pins).getD k [] = [verts[u], w] then W.getD k 0 else 0 with hf
  -- the row
  have hrow : ∀ (L : List Nat), (∀ k ∈ L, offT verts types[t].pins u ≤ k ∧ k < offT verts types[t].pins u + degOf false types[t].pins verts[u]) →
      nbrSum (wtOf g) (L.map (fun k => (getVertex ((verts ++ ghosts).idxOf (dst ((grouped verts types[t].pins).getD k []))), g.getEdge k t)))
        (getVertex ((verts ++ ghosts).idxOf w)) = (L.map f).sum := by
    intro L
    induction L with
    | nil => intro _; simp [nbrSum]
    | cons k L ih =>
      intro hL
      rw [List.map_cons, ← List.singleton_append, nbrSum_append, ih (fun y hy => hL y (by simp [hy])), List.map_cons, List.sum_cons]
      congr 1
      obtain ⟨hkl, w', hne', he, -⟩ := row_at hs hu (hL k (by simp)).1 (hL k (by simp)).2
      have hg : (grouped verts types[t].pins).getD k [] = [verts[u], w'] := by
        rw [List.getD_eq_getElem?_getD, List.getElem?_eq_getElem hkl, Option.getD_some, he]
      have hwk' : w' ∈ verts ++ ghosts := by
        have : [verts[u], w'] ∈ types[t].pins := by rw [← he]; exact mem_grouped (List.getElem_mem hkl)
        exact h.pins t ht w' (List.mem_flatten.mpr ⟨_, this, by simp⟩)
      have hiff : getVertex ((verts ++ ghosts).idxOf w') = getVertex ((verts ++ ghosts).idxOf w) ↔ w' = w := by
        constructor
        · intro hc
          have h2 := gidOf_idx hwk'
          rw [hc, gidOf_idx hwk] at h2
          exact h2.symm
        · rintro rfl; rfl
      simp only [hf, hg, show dst [verts[u], w'] = w' from rfl]
      by_cases hww : w' = w
      · subst hww
        simp [nbrSum, hwt k (by omega), show k < W.length by omega]
      · have : ¬ getVertex ((verts ++ ghosts).idxOf w') = getVertex ((verts ++ ghosts).idxOf w) := fun hc => hww (hiff.mp hc)
        simp [nbrSum, this, hww]
  rw [hrow _ (fun k hk => List.mem_range'_1.mp hk)]
  -- outside the row nothing counts
  have hzip : ((grouped verts types[t].pins).zip W).map (fun e => if e.1 = [verts[u], w] then e.2 else 0) = (List.range types[t].pins.length).map f := by
    apply List.ext_getElem
    · simp; omega
    · intro k h2 h3
      have hk' : k < types[t].pins.length := by simpa using h3
      simp only [List.getElem_map, List.getElem_zip, List.getElem_range, hf]
      rw [List.getD_eq_getElem?_getD, List.getElem?_eq_getElem (by omega), Option.getD_some,
        List.getD_eq_getElem?_getD, List.getElem?_eq_getElem (by omega), Option.getD_some]
  rw [hzip]
  have hout : ∀ k, ¬ (offT verts types[t].pins u ≤ k ∧ k < offT verts types[t].pins u + degOf false types[t].pins verts[u]) → f k = 0 := by
    intro k hk
    simp only [hf]
    rw [if_neg]
    intro hc
    apply hk
    apply at_row hnd hs hu (w := w)
    by_cases hkl : k < (grouped verts types[t].pins).length
    · rw [List.getD_eq_getElem?_getD, List.getElem?_eq_getElem hkl, Option.getD_some] at hc
      rw [List.getElem?_eq_getElem hkl, hc]
    · rw [List.getD_eq_getElem?_getD, List.getElem?_eq_none (by omega), Option.getD_none] at hc
      cases hc
  have hle : offT verts types[t].pins u + degOf false types[t].pins verts[u] ≤ types[t].pins.length := by
    rw [← hgl, grouped_length]
    have h3 := offs_mono (fun u => degOf false types[t].pins (verts.getD u 0)) (show u + 1 ≤ verts.length by omega)
    have hcu : degOf false types[t].pins (verts.getD u 0) = degOf false types[t].pins verts[u] := by
      rw [List.getD_eq_getElem?_getD, List.getElem?_eq_getElem hu, Option.getD_some]
    rw [offs_succ, hcu] at h3
    exact h3
  obtain ⟨r, hr⟩ : ∃ r, types[t].pins.length = offT verts types[t].pins u + (degOf false types[t].pins verts[u] + r) :=
    ⟨types[t].pins.length - (offT verts types[t].pins u + degOf false types[t].pins verts[u]), by omega⟩
  have hsum0 : ∀ L : List Nat, (∀ k ∈ L, f k = 0) → (L.map f).sum = 0 := by
    intro L hL
    apply List.sum_eq_zero
    intro x hx
    obtain ⟨k, hk, rfl⟩ := List.mem_map.mp hx
    exact hL k hk
  rw [hr, List.range_eq_range', ← List.range'_append_1, ← List.range'_append_1, List.map_append, List.map_append, List.sum_append, List.sum_append,
    hsum0 (List.range' 0 _) (by
      intro k hk
      rw [List.mem_range'_1] at hk
      exact hout k (by omega)),
    hsum0 (List.range' _ r) (by
      intro k hk
      rw [List.mem_range'_1] at hk
      exact hout k (by omega))]
  simp

/-- the weight collected for a neighbour -/
theorem nbrAcc_trad (h : CRep g false verts ghosts types) {t : Nat} (ht : t < types.length) (hs : ArcsOn verts types[t].pins)
    (hts : TruncSafe types[t].weights)
    {W : List Int} (hW : types[t].weights.map truncD = W) (hWl : W.length = types[t].pins.length)
    {u : Nat} (hu : u < verts.length) {w : Gid} (hwk : w ∈ verts ++ ghosts) (hne : verts[u] ≠ w) :
    nbrAcc (wrOf g) (others (runT g verts (verts ++ ghosts) t types[t].pins) (getVertex u)) (getVertex ((verts ++ ghosts).idxOf w)) =
      (((grouped verts types[t].pins).zip W).map (fun e => if e.1 = [verts[u], w] then e.2 else 0)).sum := by
  have hnd := (List.nodup_append.mp h.v.nodup).1
  have hgl : (grouped verts types[t].pins).length = types[t].pins.length := (grouped_perm hnd hs).length_eq
  rw [← nbrSum_trad h ht hs hW hWl hu hwk hne, nbrAcc_sum]
  · congr 1
    funext e
    exact (wtOf_trunc g e).symm
  · apply hts.of_subset
    intro x hx
    obtain ⟨y, hy, rfl⟩ := List.mem_map.mp hx
    obtain ⟨k, w, hne, he, rfl⟩ := (mem_runT hnd hs hu).mp (List.mem_filter.mp hy).1
    obtain ⟨hkl, -⟩ := List.getElem?_eq_some_iff.mp he
    have hl : k < types[t].weights.length := by
      have := congrArg List.length hW
      rw [List.length_map] at this
      omega
    unfold wrOf
    rw [weightE_eq h ht (k := k) hl]
    exact List.getElem_mem _

/-- the facts the loops need -/
theorem pmFacts_trad (h : CRep g false verts ghosts types) {t : Nat} (ht : t < types.length) (hs : ArcsOn verts types[t].pins)
    {own : Gid → Part} (ho : ORep g ghosts own) {slf : Part} (hslf : g.self = slf)
    (hown : ∀ v ∈ verts, own v = slf) (hgh : ∀ v ∈ ghosts, own v ≠ slf) {ws : List Wgt} (hws : g.weights = Mem.ofList ws)
    (hwl : ws.length = verts.length) (hWl : types[t].weights.length = types[t].pins.length) :
    PmFacts g t slf (fun k => own (gidOf (verts ++ ghosts) k)) (gidOf (verts ++ ghosts)) (wrOf g)
      (fun k => ws.getD (k - 1) 1) (runT g verts (verts ++ ghosts) t types[t].pins) := by
  have hnl := h.v.nl
  have hnd := (List.nodup_append.mp h.v.nodup).1
  have hwf := h.wf _ (List.getElem_mem ht)
  have hgl : (grouped verts types[t].pins).length = types[t].pins.length := (grouped_perm hnd hs).length_eq
  have hkn : ∀ {k : Nat} {v w : Gid}, (grouped verts types[t].pins)[k]? = some [v, w] → w ∈ verts ++ ghosts := fun he =>
    h.pins t ht _ (List.mem_flatten.mpr ⟨_, mem_pins_of_grouped he, by simp⟩)
  have hti : ∀ i, (g.getEdge i t - 1) / g.numTypes = i := by
    intro i
    have hnt : 0 < g.numTypes := by rw [h.numTypes]; omega
    unfold Graph.getEdge
    rw [Nat.add_sub_cancel, Nat.add_comm, Nat.add_mul_div_left _ _ hnt, Nat.div_eq_of_lt (by rw [h.numTypes]; exact ht), Nat.zero_add]
  refine ⟨?_, ?_, ?_, ?_, ?_, ?_, ?_, ?_⟩
  · intro u hu
    rw [hnl] at hu
    have hidx : (verts ++ ghosts).idxOf verts[u] = u := (idxOf_eq_iff h.v.nodup (by simp) hu).mpr rfl
    refine ⟨_, fun e => (((grouped verts types[t].pins).getD ((e - 1) / g.numTypes) []).map
      (fun v => getVertex ((verts ++ ghosts).idxOf v))), yields_edges_trad h ht hu, ?_, ?_, ?_⟩
    · rw [List.length_map, List.length_range']
      rcases rowT_fuel h ht verts[u] with h1 | h1
      · exact h1.1
      · obtain ⟨e, he, -⟩ := h.typ t ht
        have := bound_ge he
        rw [h1]; simp [degOf]; omega
    · intro e he
      obtain ⟨k, hk, rfl⟩ := List.mem_map.mp he
      rw [List.mem_range'_1] at hk
      obtain ⟨hkl, w, hne, hge, -⟩ := row_at hs hu (k := k) hk.1 hk.2
      simp only [hti]
      rw [List.getD_eq_getElem?_getD, List.getElem?_eq_getElem hkl, Option.getD_some]
      have hc : k < (canon false verts types[t]).length := by rw [canon_length hwf]; omega
      have hat := edgeAt_trad (t := t) h ht hs hc
      have hpc : (canon false verts types[t])[k].pins = (grouped verts types[t].pins)[k] := by
        simp only [canon, Bool.false_eq_true, if_false, List.getElem_map, List.getElem_range]
        rw [List.getD_eq_getElem?_getD, List.getElem?_eq_getElem hkl, Option.getD_some]
      have := hat.pins
      rw [hpc] at this
      refine ⟨this, ?_⟩
      rw [hge]
      rcases rowT_fuel h ht verts[u] with h1 | h1
      · exact h1.2
      · exfalso
        have : types[t].pins.length = 0 := by rw [h1]; rfl
        omega
    · rw [runT_vertex hu, List.flatMap_map, List.map_map]
      simp only [hti]
      have hoff : offT verts types[t].pins u = offs (fun u => degOf false types[t].pins (verts.getD u 0)) u := rfl
      rw [← hoff]
      have key : ∀ (L : List Nat), (∀ k ∈ L, offT verts types[t].pins u ≤ k ∧ k < offT verts types[t].pins u + degOf false types[t].pins verts[u]) →
          (L.flatMap (fun k => ((grouped verts types[t].pins).getD k []).map (fun v => getVertex ((verts ++ ghosts).idxOf v)))).filter
            (fun x => decide (x ≠ getVertex u)) =
          (L.map (Prod.fst ∘ fun k => (getVertex ((verts ++ ghosts).idxOf (dst ((grouped verts types[t].pins).getD k []))), g.getEdge k t))).filter
            (fun x => decide (x ≠ getVertex u)) := by
        intro L
        induction L with
        | nil => intro _; rfl
        | cons k L ih =>
          intro hL
          obtain ⟨hkl, w, hne, hge, -⟩ := row_at hs hu (hL k (by simp)).1 (hL k (by simp)).2
          have hgd : (grouped verts types[t].pins).getD k [] = [verts[u], w] := by
            rw [List.getD_eq_getElem?_getD, List.getElem?_eq_getElem hkl, Option.getD_some, hge]
          rw [List.flatMap_cons, List.filter_append, ih (fun y hy => hL y (by simp [hy])), List.map_cons, hgd, List.map_cons, List.map_cons, List.map_nil, hidx]
          rw [List.filter_cons_of_neg (by simp)]
          simp only [Function.comp, hgd, show dst [verts[u], w] = w from rfl]
          rw [← List.filter_append]
          rfl
      exact key _ (fun k hk => List.mem_range'_1.mp hk)
  · intro u hu
    rw [hnl] at hu
    obtain ⟨it, e1, hr⟩ := adjRun_runT h ht hs hu
    refine ⟨it, e1, hr, ?_⟩
    rw [runT_vertex hu, List.length_map, List.length_range']
    obtain ⟨e, he, hr, -⟩ := h.typ t ht
    have hb := bound_ge he
    have hd : degOf false types[t].pins verts[u] ≤ types[t].pins.length := by
      simp [degOf]; exact List.countP_le_length
    have := hr.numE
    unfold Graph.adjFuel
    have h4 : g.bound * 1 ≤ g.bound * g.bound := Nat.mul_le_mul_left _ (by omega)
    omega
  · intro u hu x hx
    rw [hnl] at hu
    obtain ⟨k, w, hne, he, rfl⟩ := (mem_runT hnd hs hu).mp hx
    have hk := hkn he
    dsimp only
    rw [owner_eq h.v ho hk, gidOf_idx hk]
    congr 1
    unfold ownerOf
    split
    · rename_i hv; rw [hslf, hown _ hv]
    · rfl
  · intro u hu x hx
    rw [hnl] at hu
    obtain ⟨k, w, hne, he, rfl⟩ := (mem_runT hnd hs hu).mp hx
    have hk := hkn he
    dsimp only
    rw [globalID_idx h.v (List.idxOf_lt_length_of_mem hk), gidOf_idx hk, List.getElem_idxOf]
  · intro u hu x hx
    rw [hnl] at hu
    obtain ⟨k, w, hne, he, rfl⟩ := (mem_runT hnd hs hu).mp hx
    obtain ⟨hkl, -⟩ := List.getElem?_eq_some_iff.mp he
    dsimp only
    have hwe := weightE_eq h ht (k := k) (by omega)
    unfold wrOf
    rw [hwe]
  · intro u hu x hx hox
    rw [hnl] at hu
    obtain ⟨k, w, hne, he, rfl⟩ := (mem_runT hnd hs hu).mp hx
    have hk := hkn he
    dsimp only at hox ⊢
    rw [gidOf_idx hk] at hox
    have hwv : w ∈ verts := by
      rcases List.mem_append.mp hk with h1 | h1
      · exact h1
      · exact absurd hox (hgh w h1)
    refine ⟨_, ?_, rfl⟩
    rw [hnl, List.idxOf_append_of_mem hwv]
    exact List.idxOf_lt_length_of_mem hwv
  · intro u hu
    rw [hnl] at hu
    rw [globalID_idx h.v (by simp; omega), gidOf_vertex (by simp; omega)]
  · intro u hu
    rw [hnl] at hu
    rw [weight_local h.v hws hu (by omega)]
    simp [getVertex, show u < ws.length by omega]

end
end Verif.Part
