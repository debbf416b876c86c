import Verif.Part.DistQueueRounds
import Verif.Part.QueueProps
/-!
# The distance queue of a part of a hypergraph
-/
namespace Verif.Part
open Verif.Agi

section
variable {g : Graph} {verts ghosts : List Gid} {types : List EdgeInput} {own : Gid → Part}

/-- the edges of type 0 at the local vertex `v`, and the pins of an edge, as indices -/
def adjI (verts ghosts : List Gid) (es : List (List Gid)) (v : Nat) : List Nat :=
  adjOf true (verts ++ ghosts) es (verts.getD v 0)

def pinI (verts ghosts : List Gid) (es : List (List Gid)) (e : Nat) : List Nat :=
  (es.getD e []).map (fun v => (verts ++ ghosts).idxOf v)

theorem getD_lt {α : Type} {l : List α} {i : Nat} (h : i < l.length) (d : α) : l.getD i d = l[i] := by
  rw [List.getD_eq_getElem?_getD, List.getElem?_eq_getElem h, Option.getD_some]

/-- what the searches need to know of the graph -/
theorem gfacts_hyper (hc : CRep g true verts ghosts types) (ho : ORep g ghosts own) (ht : 0 < types.length)
    (hown : ∀ v ∈ ghosts, own v ≠ g.self) :
    GFacts g types[0].pins.length verts.length (adjI verts ghosts types[0].pins) (pinI verts ghosts types[0].pins) := by
  obtain ⟨et, het, hrt, -⟩ := hc.typ 0 ht
  have hb := bound_ge het
  have hnP := hrt.numP
  refine ⟨⟨by rw [hc.numTypes]; exact ht, hc.v.nl, ?_, ?_, ?_, ?_⟩, et,
    offs (fun u => degOf true types[0].pins (verts.getD u 0)), Graph.slot_ok het, hrt.deg, ?_, ?_⟩
  · intro e he
    have h1 : (types[0].pins[e]).length ≤ types[0].pins.flatten.length := by
      rw [List.length_flatten]
      exact List.single_le_sum (by simp) _ (List.mem_map.mpr ⟨_, List.getElem_mem he, rfl⟩)
    unfold pinI
    rw [getD_lt he, List.map_map]
    exact ⟨yields_pins_hyper hc ht he, by rw [List.length_map]; omega⟩
  · intro e he i hi
    unfold pinI at hi
    rw [getD_lt he] at hi
    obtain ⟨v, hv, rfl⟩ := List.mem_map.mp hi
    have hm := hc.pins 0 ht v (List.mem_flatten.mpr ⟨_, List.getElem_mem he, hv⟩)
    refine ⟨_, owner_eq hc.v ho hm, ?_⟩
    rw [idxOf_lt_iff]
    unfold ownerOf
    by_cases hl : v ∈ verts
    · simp [hl]
    · rw [if_neg hl]
      rcases List.mem_append.mp hm with h | h
      · exact absurd h hl
      · exact ⟨fun h' => absurd h' (hown v h), fun h' => absurd h' hl⟩
  · intro v hv
    have hy := yields_edges_hyper hc ht hv
    unfold adjI
    rw [getD_lt hv]
    refine ⟨hy, ?_⟩
    rw [adjOf_length]
    have h1 : degOf true types[0].pins verts[v] ≤ types[0].pins.flatten.length := by
      unfold degOf; rw [if_pos rfl]; exact List.count_le_length
    omega
  · intro v hv e
    unfold adjI pinI
    rw [getD_lt hv, mem_adjOf_hyper]
    constructor
    · rintro ⟨he, hm⟩
      refine ⟨he, ?_⟩
      rw [getD_lt he]
      refine List.mem_map.mpr ⟨_, hm, ?_⟩
      rw [List.idxOf_append_of_mem (List.getElem_mem hv)]
      have hn := hc.v.nodup
      exact (List.nodup_append.mp hn).1.idxOf_getElem v hv
    · rintro ⟨he, hm⟩
      refine ⟨he, ?_⟩
      rw [getD_lt he] at hm
      obtain ⟨w, hw, hwv⟩ := List.mem_map.mp hm
      have hm' := hc.pins 0 ht w (List.mem_flatten.mpr ⟨_, List.getElem_mem he, hw⟩)
      have h2 := List.idxOf_lt_length_of_mem hm'
      have h3 : (verts ++ ghosts)[(verts ++ ghosts).idxOf w] = w := List.getElem_idxOf h2
      have h4 : (verts ++ ghosts)[v]? = some w := by rw [← hwv, List.getElem?_eq_getElem h2, h3]
      rw [List.getElem?_append_left hv, List.getElem?_eq_getElem hv, Option.some.injEq] at h4
      rw [h4]; exact hw
  · intro v hv
    unfold adjI
    rw [offs_succ, adjOf_length]
  · intro v hv k hk
    unfold adjI at hk ⊢
    simp only [getD_lt hv] at hk ⊢
    exact hrt.adj v hv k hk

/-- some pin of the edge is a ghost -/
def GhostPin (verts : List Gid) (es : List (List Gid)) (e : Nat) : Prop := ∃ v ∈ es.getD e [], v ∉ verts

instance (verts : List Gid) (es : List (List Gid)) (e : Nat) : Decidable (GhostPin verts es e) := by
  unfold GhostPin; infer_instance

theorem sharedPins_spec (hc : CRep g true verts ghosts types) (ht : 0 < types.length) {et : EType}
    (hrt : TRep true et verts (verts ++ ghosts) types[0].ids types[0].pins) {e : Nat} (he : e < types[0].pins.length) :
    sharedPins et g.numLocal (pinOff types[0].pins e) (pinOff types[0].pins e + types[0].pins[e].length) =
      .ok (decide (GhostPin verts types[0].pins e)) := by
  unfold sharedPins
  rw [Nat.add_sub_cancel_left]
  obtain ⟨b, e1, h1⟩ := range_inv (fun (b : Bool) j => do
    let v ← et.pinList.load j
    return b || decide (g.numLocal ≤ v))
    (fun (k : Nat) (b : Bool) => b = true ↔ ∃ v ∈ types[0].pins[e].take k, v ∉ verts) (pinOff types[0].pins e)
    types[0].pins[e].length (by
      intro k b hk hb
      refine ⟨_, by rw [pin_load hc ht hrt he hk, Outcome.bind_ok]; rfl, ?_⟩
      rw [List.take_succ_eq_append_getElem hk]
      simp only [Bool.or_eq_true, decide_eq_true_eq, List.mem_append, List.mem_singleton, hb]
      have h2 : g.numLocal ≤ (verts ++ ghosts).idxOf types[0].pins[e][k] ↔ types[0].pins[e][k] ∉ verts := by
        rw [hc.v.nl, ← idxOf_lt_iff (rest := ghosts), Nat.not_lt]
      rw [h2]
      constructor
      · rintro (⟨v, h3, h4⟩ | h3)
        · exact ⟨v, Or.inl h3, h4⟩
        · exact ⟨_, Or.inr rfl, h3⟩
      · rintro ⟨v, h3 | rfl, h4⟩
        · exact Or.inl ⟨v, h3, h4⟩
        · exact Or.inr h4) false (by simp)
  rw [e1]
  rw [List.take_length] at h1
  congr 1
  rw [Bool.eq_iff_iff, h1, decide_eq_true_iff]
  unfold GhostPin
  rw [getD_lt he]

/-- the seeds of the first search -/
theorem seeds_hyper (hc : CRep g true verts ghosts types) (ht : 0 < types.length) {et : EType}
    (hrt : TRep true et verts (verts ++ ghosts) types[0].ids types[0].pins) {s : Inputs}
    (hs : Seeds s types[0].pins.length []) :
    ∃ m n, (List.range et.numEdges).foldlM (seedHyper et g.numLocal) s = .ok { s with seeds := m, numSeeds := n } ∧
      Seeds { s with seeds := m, numSeeds := n } types[0].pins.length
        ((List.range types[0].pins.length).filter (fun e => decide (GhostPin verts types[0].pins e))) := by
  have hpd : ∀ k, k ≤ types[0].pins.length → et.pinDegree.load k = .ok (pinOff types[0].pins k) := by
    intro k hk
    rw [hrt.pd, Mem.load_ofList (by simp; omega)]; simp
  obtain ⟨s', e1, h1⟩ := range_inv (seedHyper et g.numLocal)
    (fun k (s' : Inputs) => ∃ m n, s' = { s with seeds := m, numSeeds := n } ∧ Seeds s' types[0].pins.length
      ((List.range k).filter (fun e => decide (GhostPin verts types[0].pins e)))) 0 types[0].pins.length (by
      rintro k s1 hk ⟨m, n, rfl, hS⟩
      rw [Nat.zero_add]
      unfold seedHyper
      rw [hpd k (by omega), Outcome.bind_ok, hpd (k + 1) (by omega), Outcome.bind_ok, pinOff_succ _ hk,
        sharedPins_spec hc ht hrt hk, Outcome.bind_ok, List.range_succ, List.filter_append]
      by_cases hg : GhostPin verts types[0].pins k
      · rw [if_pos (by simpa using hg)]
        obtain ⟨m', e2, h2⟩ := hS.store (e := k) hk (by simp)
        unfold addSeed
        rw [e2, Outcome.bind_ok]
        refine ⟨_, rfl, ⟨_, _, rfl, ?_⟩⟩
        rw [List.filter_cons_of_pos (by simpa using hg), List.filter_nil]
        exact h2 _ rfl rfl
      · rw [if_neg (by simpa using hg)]
        refine ⟨_, rfl, ⟨m, n, rfl, ?_⟩⟩
        rw [List.filter_cons_of_neg (by simpa using hg), List.filter_nil, List.append_nil]
        exact hS) s ⟨s.seeds, s.numSeeds, rfl, hs⟩
  obtain ⟨m, n, rfl, hS⟩ := h1
  rw [hrt.numE, List.range_eq_range']
  rw [List.range_eq_range'] at hS
  refine ⟨m, n, e1, ?_⟩
  rw [← List.range_eq_range'] at hS ⊢
  exact hS

theorem grouped_nil {nb : Nat → Nat → Prop} : Grouped nb [] := by
  intro a b c h
  simp at h

theorem grouped_sublist {nb : Nat → Nat → Prop} {L L' : List Nat} (h : Grouped nb L) (hs : L'.Sublist L) : Grouped nb L' :=
  fun a b c h1 h2 => h a b c (h1.trans hs) h2

theorem grouped_reverse {nb : Nat → Nat → Prop} (hn : ∀ a b, nb a b → nb b a) {L : List Nat} (h : Grouped nb L) :
    Grouped nb L.reverse := by
  intro a b c h1 h2
  have := h c b a (by simpa using h1.reverse) (h2.symm hn)
  exact h2.trans this

/-- the two searches, from the seeds `B` -/
theorem search_spec {N nl : Nat} {adj pin : Nat → List Nat} (push : Bool) (hF : GFacts g N nl adj pin) {B : List Nat}
    (hB : B ≠ []) {m : Mem Nat} {n : Nat} (hS : Seeds ⟨m, n, [], 0, 0, [], [], []⟩ N B) :
    ∃ in2 L2, searches push g N ⟨m, n, [], 0, 0, [], [], []⟩ = .ok in2 ∧ Seeds in2 N L2 ∧ (∀ e ∈ B, e ∈ L2) ∧ L2.Pairwise (NoFarther (Nbr nl adj) (· ∈ B)) ∧
      (∀ a ∈ L2, ∃ d, IsDist (Nbr nl adj) (Core (Nbr nl adj) (· ∈ B) a) a d) ∧
      Grouped (Nbr nl adj) L2 ∧ L2.Pairwise (fun a b => Shallower (Nbr nl adj) (· ∈ B) b a) ∧
      ∀ a ∈ L2, ∃ d n, CompDepth (Nbr nl adj) (· ∈ B) a d ∧ CompSize (Nbr nl adj) a n := by
  obtain ⟨v1, e1, hv1⟩ := minusOnes_spec N
  have hS1 : Seeds ⟨m, n, v1, 0, 0, [], [], []⟩ N ([] ++ B) := hS.of_eq rfl rfl
  obtain ⟨in1, d, L1, vis1, E1, e2, hI, hf1, -⟩ := bfs_spec push hF (depthVisit_ok N) (Old := []) (New0 := B) (depth := 0)
    (by intro e f he; simp at he) hB hS1 hv1 (by simp) (by
      intro v hv
      refine ⟨hS.of_eq rfl rfl, hv, fun e he => ?_, fun e _ he => ?_⟩
      · simp only [if_pos he]; exact le_refl _
      · simp only [if_neg he])
  have hlen : L1 ≠ [] := by
    intro h
    have := hf1.pre.subset
    rw [h] at this
    exact hB (List.eq_nil_iff_forall_not_mem.mpr (fun x hx => by simpa using this hx))
  have hpos := List.length_pos_of_ne_nil hlen
  have hle := hI.seeds.le
  obtain ⟨in2, L2, e5, h1, h2, h3, h4, h5⟩ := rounds_spec push hF hB hI hf1 (in1.seeds.length + 2)
    ((in1.numSeeds : Int) - 1) 0 ⟨Mem.alloc N, 0, v1, 0, 0, [], [], v1⟩ [] (fun _ => -1) (by
      refine ⟨⟨⟨⟨by simp, rfl, by simp, by simp, by simp⟩, hv1, by simp, fun _ _ _ => rfl⟩, _, hv1⟩, ?_, by simp, le_refl _,
        by simp, ?_, ?_, ?_, by simp, by simp, grouped_nil, by simp, by simp, by simp⟩
      · intro e f he; simp at he
      · omega
      · rw [hI.seeds.num]; omega
      · intro j hj hij
        rw [hI.seeds.num] at hij
        omega) (by rw [hI.seeds.num, hI.seeds.len]; omega)
  refine ⟨in2, L2, ?_, h1, ?_, h3, h4, h5⟩
  · rw [List.length_nil] at e2
    unfold searches
    rw [e1, Outcome.bind_ok, e2, Outcome.bind_ok]
    simp only
    rw [Outcome.bind_ok, Outcome.bind_ok]
    exact e5
  · intro e he
    exact h2.mem_iff.mpr (hf1.pre.subset he)

/-- the edges go into the queue, the last one first -/
theorem queue_loop {N : Nat} {s : Inputs} {L : List Nat} (hS : Seeds s N L) {P : Nat → Bool}
    (hP : ∀ e, e < N → ∃ res, g.getResidence (g.getEdge e 0) [] = .ok res ∧ (1 < res.length ↔ P e = true)) {cap : Nat} :
    ∀ (k : Nat), k ≤ L.length → ∀ (q : Queue) (Q : List Handle), QRep q cap [] Q →
      Q.length + ((L.take k).filter P).length ≤ cap →
      ∃ q', (List.range' 1 k).reverse.foldlM (queueEdge g s) q = .ok q' ∧
        QRep q' cap [] (Q ++ ((L.take k).reverse.filter P).map (fun e => g.getEdge e 0))
  | 0, _, q, Q, h, _ => ⟨q, rfl, by simpa using h⟩
  | k + 1, hk, q, Q, h, hl => by
    have hk' : k < L.length := by omega
    have ht : L.take (k + 1) = L.take k ++ [L[k]] := List.take_succ_eq_append_getElem hk'
    rw [ht, List.filter_append, List.length_append] at hl
    rw [← List.range'_append_1, List.reverse_append, List.range'_one, List.reverse_singleton, List.singleton_append,
      List.foldlM_cons, ht, List.reverse_append, List.reverse_singleton, List.singleton_append]
    obtain ⟨res, e1, h1⟩ := hP L[k] (hS.lt _ (List.getElem_mem hk'))
    have hstep : queueEdge g s q (1 + k) = if 1 < res.length then q.add (g.getEdge L[k] 0) else .ok q := by
      unfold queueEdge
      rw [Nat.add_sub_cancel_left, hS.load hk', Outcome.bind_ok, e1, Outcome.bind_ok]
      rfl
    rw [hstep]
    by_cases hb : P L[k] = true
    · rw [if_pos (h1.mpr hb)]
      rw [List.filter_cons_of_pos hb, List.filter_nil, List.length_singleton] at hl
      obtain ⟨q1, e2, h2⟩ := h.add (g.getEdge L[k] 0) (by omega)
      obtain ⟨q2, e3, h3⟩ := queue_loop hS hP k (by omega) q1 _ h2 (by
        rw [List.length_append, List.length_singleton]; omega)
      refine ⟨q2, by rw [e2, Outcome.bind_ok]; exact e3, ?_⟩
      rw [List.filter_cons_of_pos hb, List.map_cons]
      simpa using h3
    · rw [if_neg (fun hh => hb (h1.mp hh)), Outcome.bind_ok, List.filter_cons_of_neg hb]
      exact queue_loop hS hP k (by omega) q Q h (by omega)

/-- `getResidence` has more than one element exactly for the edges with a ghost pin -/
theorem residence_two (hc : CRep g true verts ghosts types) (ho : ORep g ghosts own) (ht : 0 < types.length)
    (hown : ∀ v ∈ ghosts, own v ≠ g.self) (hloc : ∀ p ∈ types[0].pins, ∃ v ∈ p, v ∈ verts) {e : Nat}
    (he : e < types[0].pins.length) :
    ∃ res, g.getResidence (g.getEdge e 0) [] = .ok res ∧
      (1 < res.length ↔ decide (GhostPin verts types[0].pins e) = true) := by
  obtain ⟨⟨res, e1, hsort, hmem⟩, -⟩ := residenceIs_hyper hc ho ht he
  refine ⟨res, e1, ?_⟩
  obtain ⟨v, hv, hvl⟩ := hloc _ (List.getElem_mem he)
  have hself : g.self ∈ res := (hmem _).mpr ⟨v, hv, by simp [ownerOf, hvl]⟩
  rw [decide_eq_true_iff]
  unfold GhostPin
  rw [getD_lt he]
  constructor
  · intro hlen
    by_contra hno
    push Not at hno
    have hall : ∀ p ∈ res, p = g.self := by
      intro p hp
      obtain ⟨w, hw, rfl⟩ := (hmem p).mp hp
      simp [ownerOf, hno w hw]
    match res, hlen, hsort, hall with
    | a :: b :: r, _, hsort, hall =>
      have h1 := hall a (by simp)
      have h2 := hall b (by simp)
      have h3 := (List.pairwise_cons.mp hsort).1 b (by simp)
      omega
  · rintro ⟨w, hw, hwl⟩
    have hm := hc.pins 0 ht w (List.mem_flatten.mpr ⟨_, List.getElem_mem he, hw⟩)
    have hwg : w ∈ ghosts := by
      rcases List.mem_append.mp hm with h | h
      · exact absurd h hwl
      · exact h
    have hin : own w ∈ res := (hmem _).mpr ⟨w, hw, by simp [ownerOf, hwl]⟩
    have hne := hown w hwg
    match res, hself, hin with
    | [], h, _ => simp at h
    | [a], h, h' =>
      rw [List.mem_singleton] at h h'
      exact absurd (h'.trans h.symm) hne
    | a :: b :: r, _, _ => simp

/-- the edges with a ghost pin -/
def ghostEdges (verts : List Gid) (es : List (List Gid)) : List Nat :=
  (List.range es.length).filter (fun e => decide (GhostPin verts es e))

theorem mem_ghostEdges {verts : List Gid} {es : List (List Gid)} {e : Nat} :
    e ∈ ghostEdges verts es ↔ GhostPin verts es e := by
  unfold ghostEdges
  rw [List.mem_filter, List.mem_range, decide_eq_true_iff]
  refine ⟨fun h => h.2, fun h => ⟨?_, h⟩⟩
  by_contra hl
  obtain ⟨v, hv, -⟩ := h
  rw [List.getD_eq_getElem?_getD, List.getElem?_eq_none (by omega)] at hv
  simp at hv

theorem edgeCount_eq (hc : CRep g true verts ghosts types) (ht : 0 < types.length) :
    edgeCount g = .ok types[0].pins.length := by
  obtain ⟨et, het, hrt, -⟩ := hc.typ 0 ht
  unfold edgeCount
  rw [het]
  simp only [hrt.numE]

theorem distanceQueue_eq (push : Bool) {n : Nat} (hn : edgeCount g = .ok n) (hpos : n ≠ 0) {et : EType}
    (he : g.slot 0 = .ok et) {m : Mem Nat} {k : Nat}
    (h1 : firstSeeds g et ⟨Mem.alloc n, 0, [], 0, 0, [], [], []⟩ = .ok ⟨m, k, [], 0, 0, [], [], []⟩) :
    distanceQueue push g = if k = 0 then .ok (Queue.new k) else (do
      let in2 ← searches push g n ⟨m, k, [], 0, 0, [], [], []⟩
      (List.range' 1 in2.numSeeds).reverse.foldlM (queueEdge g in2) (Queue.new k)) := by
  unfold distanceQueue
  rw [hn, Outcome.bind_ok, if_neg hpos, he, Outcome.bind_ok, h1, Outcome.bind_ok]
  simp only
  by_cases hk : k = 0
  · rw [if_pos hk, if_pos hk]; rfl
  · rw [if_neg hk, if_neg hk]

/-- the whole construction -/
theorem distanceQueue_hyper (push : Bool) (hc : CRep g true verts ghosts types) (ho : ORep g ghosts own)
    (ht : 0 < types.length) (hown : ∀ v ∈ ghosts, own v ≠ g.self) (hloc : ∀ p ∈ types[0].pins, ∃ v ∈ p, v ∈ verts)
    (hsmall : ghosts = [] → types[0].pins.length = 0 ∨ 3 ≤ types[0].pins.length) :
    ∃ (q : Queue) (cap : Nat) (L : List Nat), distanceQueue push g = .ok q ∧ QRep q cap [] (L.map (fun e => g.getEdge e 0)) ∧ L.length ≤ cap ∧
      L.Perm (ghostEdges verts types[0].pins) ∧
      L.Pairwise (fun a b => NoFarther (Nbr verts.length (adjI verts ghosts types[0].pins))
        (GhostPin verts types[0].pins) b a) ∧
      (∀ a ∈ L, ∃ d, IsDist (Nbr verts.length (adjI verts ghosts types[0].pins))
        (Core (Nbr verts.length (adjI verts ghosts types[0].pins)) (GhostPin verts types[0].pins) a) a d) ∧
      Grouped (Nbr verts.length (adjI verts ghosts types[0].pins)) L ∧
      L.Pairwise (Shallower (Nbr verts.length (adjI verts ghosts types[0].pins)) (GhostPin verts types[0].pins)) ∧
      ∀ a ∈ L, ∃ d n, CompDepth (Nbr verts.length (adjI verts ghosts types[0].pins)) (GhostPin verts types[0].pins) a d ∧
        CompSize (Nbr verts.length (adjI verts ghosts types[0].pins)) a n := by
  have hF := gfacts_hyper hc ho ht hown
  have hn := edgeCount_eq hc ht
  obtain ⟨et, het, hrt, -⟩ := hc.typ 0 ht
  have hP := fun e (he : e < types[0].pins.length) => residence_two hc ho ht hown hloc he
  by_cases h0 : types[0].pins.length = 0
  · refine ⟨Queue.new 0, 0, [], ?_, QRep.new 0, by simp, ?_, by simp, by simp, grouped_nil, by simp, by simp⟩
    · unfold distanceQueue; rw [hn, Outcome.bind_ok, if_pos h0]; rfl
    · unfold ghostEdges; rw [h0]; simp
  have hS0 : Seeds ⟨Mem.alloc types[0].pins.length, 0, [], 0, 0, [], [], []⟩ types[0].pins.length [] :=
    ⟨by simp, rfl, by simp, by simp, by simp⟩
  have hbn : (ghostEdges verts types[0].pins).Nodup := List.nodup_range.filter _
  by_cases hg : ghosts = []
  · have h3 : 3 ≤ types[0].pins.length := by
      rcases hsmall hg with h | h
      · exact absurd h h0
      · exact h
    have hno : ∀ e, ¬ GhostPin verts types[0].pins e := by
      rintro e ⟨v, hv, hnv⟩
      by_cases he : e < types[0].pins.length
      · rw [getD_lt he] at hv
        have := hc.pins 0 ht v (List.mem_flatten.mpr ⟨_, List.getElem_mem he, hv⟩)
        rw [hg, List.append_nil] at this
        exact hnv this
      · rw [List.getD_eq_getElem?_getD, List.getElem?_eq_none (by omega)] at hv
        simp at hv
    obtain ⟨m, e1, h1⟩ := hS0.store (e := 2) (by omega) (by simp)
    have hfs : firstSeeds g et ⟨Mem.alloc types[0].pins.length, 0, [], 0, 0, [], [], []⟩ =
        .ok ⟨m, 1, [], 0, 0, [], [], []⟩ := by
      unfold firstSeeds addSeed
      rw [if_pos (by rw [hc.v.ng, hg]; rfl), e1, Outcome.bind_ok]
      rfl
    obtain ⟨in2, L2, e2, hS2, -⟩ := search_spec push hF (B := [2]) (by simp) (h1 ⟨m, 1, [], 0, 0, [], [], []⟩ rfl rfl)
    have hnil : ∀ k, (L2.take k).filter (fun e => decide (GhostPin verts types[0].pins e)) = [] := by
      intro k
      rw [List.filter_eq_nil_iff]
      intro a _
      simpa using hno a
    obtain ⟨q, e3, hq⟩ := queue_loop hS2 hP L2.length (le_refl _) (Queue.new 1) [] (QRep.new 1) (by rw [hnil]; simp)
    refine ⟨q, 1, [], ?_, ?_, by simp, ?_, by simp, by simp, grouped_nil, by simp, by simp⟩
    · rw [distanceQueue_eq push hn h0 (Graph.slot_ok het) hfs, if_neg (by omega), e2, Outcome.bind_ok, hS2.num]
      exact e3
    · rw [List.filter_reverse, hnil] at hq
      simpa using hq
    · have : ghostEdges verts types[0].pins = [] := List.eq_nil_iff_forall_not_mem.mpr (fun e he => hno e (mem_ghostEdges.mp he))
      rw [this]
  · obtain ⟨m, k, e1, h1⟩ := seeds_hyper hc ht hrt hS0
    have hfs : firstSeeds g et ⟨Mem.alloc types[0].pins.length, 0, [], 0, 0, [], [], []⟩ =
        .ok ⟨m, k, [], 0, 0, [], [], []⟩ := by
      unfold firstSeeds
      rw [if_neg (by rw [hc.v.ng]; exact fun h => hg (List.eq_nil_of_length_eq_zero h)), if_pos hc.hyp, e1]
    have hk : k = (ghostEdges verts types[0].pins).length := h1.num
    by_cases hb : ghostEdges verts types[0].pins = []
    · rw [hb, List.length_nil] at hk
      refine ⟨Queue.new 0, 0, [], ?_, QRep.new 0, by simp, by rw [hb], by simp, by simp, grouped_nil, by simp, by simp⟩
      rw [distanceQueue_eq push hn h0 (Graph.slot_ok het) hfs, if_pos hk, hk]
    · obtain ⟨in2, L2, e2, hS2, hsub, hord, hdist, hgrp, hrank, hcmp⟩ := search_spec push hF hb h1
      have hBeq : (fun e => e ∈ ghostEdges verts types[0].pins) = GhostPin verts types[0].pins := by
        funext e; exact propext mem_ghostEdges
      simp only [hBeq] at hord hdist hrank hcmp
      have hfp : (L2.filter (fun e => decide (GhostPin verts types[0].pins e))).Perm (ghostEdges verts types[0].pins) := by
        rw [List.perm_ext_iff_of_nodup (hS2.nodup.filter _) hbn]
        intro e
        rw [List.mem_filter, decide_eq_true_iff]
        exact ⟨fun h => mem_ghostEdges.mpr h.2, fun h => ⟨hsub e h, mem_ghostEdges.mp h⟩⟩
      obtain ⟨q, e3, hq⟩ := queue_loop hS2 hP L2.length (le_refl _) (Queue.new k) [] (QRep.new k) (by
        rw [List.take_length, hfp.length_eq, hk]; simp)
      rw [List.take_length, List.nil_append] at hq
      have hkp : k ≠ 0 := by
        rw [hk]; exact fun h => hb (List.eq_nil_of_length_eq_zero h)
      refine ⟨q, k, _, ?_, hq, ?_, ?_, ?_, ?_, ?_, ?_, ?_⟩
      · rw [distanceQueue_eq push hn h0 (Graph.slot_ok het) hfs, if_neg hkp, e2, Outcome.bind_ok, hS2.num]
        exact e3
      · rw [List.filter_reverse, List.length_reverse, hfp.length_eq, hk]
      · rw [List.filter_reverse]; exact (List.reverse_perm _).trans hfp
      · rw [List.filter_reverse, List.pairwise_reverse]
        exact List.Pairwise.filter _ hord
      · intro a ha
        exact hdist a (List.mem_reverse.mp (List.mem_filter.mp ha).1)
      · exact grouped_sublist (grouped_reverse (nbr_symm _ _) hgrp) List.filter_sublist
      · rw [List.filter_reverse, List.pairwise_reverse]
        exact List.Pairwise.filter _ hrank
      · intro a ha
        exact hcmp a (List.mem_reverse.mp (List.mem_filter.mp ha).1)

end
end Verif.Part
