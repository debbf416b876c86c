import Verif.Color.ColorSpec
import Verif.Color.ColorLemmas
import Verif.Part.SecondProps
/-!
# `parallel_create_eve` on a part
-/
namespace Verif.Color
open Verif.Agi Verif.Part

section
variable {g : Graph} {verts ghosts : List Gid} {types : List EdgeInput}

theorem sum_counts {verts : List Gid} (hnd : verts.Nodup) (l : List Gid) :
    (verts.map (fun v => l.count v)).sum = l.countP (fun v => decide (v ∈ verts)) := by
  induction l with
  | nil => simp
  | cons a l ih =>
    have h1 : (verts.map (fun v => (a :: l).count v)).sum = (verts.map (fun v => l.count v)).sum + verts.count a := by
      clear ih hnd
      induction verts with
      | nil => simp
      | cons b vs ih2 =>
        simp only [List.map_cons, List.sum_cons, List.count_cons] at ih2 ⊢
        rw [ih2]
        by_cases hab : a = b
        · subst hab; simp; omega
        · simp [hab, Ne.symm hab]; omega
    rw [h1, ih, List.countP_cons]
    by_cases ha : a ∈ verts
    · rw [List.count_eq_one_of_mem hnd ha]; simp [ha]
    · rw [List.count_eq_zero_of_not_mem ha]; simp [ha]

theorem offs_deg (hnd : verts.Nodup) (es : List (List Gid)) :
    offs (fun u => degOf true es (verts.getD u 0)) verts.length = es.flatten.countP (fun v => decide (v ∈ verts)) := by
  rw [← sum_counts hnd]
  unfold offs
  congr 1
  conv => rhs; rw [list_range verts 0, List.map_map]
  rfl

/-- the incidences of a type as one list -/
theorem edgeList_eq {e : EType} {known ids : List Gid} {es : List (List Gid)} (h : TRep true e verts known ids es) :
    ∃ el : List Nat, e.edgeList = Mem.ofList el ∧ el.length = offs (fun u => degOf true es (verts.getD u 0)) verts.length ∧
      ∀ u (hu : u < verts.length) k (hk : k < (adjOf true known es verts[u]).length),
        el[offs (fun u => degOf true es (verts.getD u 0)) u + k]? = some (adjOf true known es verts[u])[k] := by
  set c := fun u => degOf true es (verts.getD u 0) with hc
  have hget : ∀ i, i < e.edgeList.length → ∃ x, e.edgeList[i]? = some (some x) := by
    intro i hi
    rw [h.list_len] at hi
    obtain ⟨u, j, hu, hj, rfl⟩ := Io.offs_find c verts.length i hi
    exact ⟨_, h.adj u hu j (by rw [adjOf_length]; simpa [hc, hu] using hj)⟩
  refine ⟨(List.range e.edgeList.length).map (fun i => ((e.edgeList[i]?).getD none).getD 0), ?_, by simp [h.list_len, hc], ?_⟩
  · apply ofList_of_get
    · simp
    · intro i hi
      simp only [List.length_map, List.length_range] at hi
      obtain ⟨x, hx⟩ := hget i hi
      simp [hx]
  · intro u hu k hk
    have : e.edgeList[offs c u + k]? = some (some (adjOf true known es verts[u])[k]) := h.adj u hu k hk
    have hlt : offs c u + k < e.edgeList.length := by
      by_contra hcon
      rw [List.getElem?_eq_none (by omega)] at this
      simp at this
    rw [List.getElem?_map, List.getElem?_range hlt, Option.map_some, this]
    rfl

theorem hostToDevice_ok {n : Nat} {l : List Nat} (h : n ≤ l.length) : hostToDevice n (Mem.ofList l) = .ok (l.take n) := by
  unfold hostToDevice
  rw [mapM_ok (g := fun i => l.getD i 0)]
  · congr 1
    apply List.ext_getElem
    · simp; omega
    · intro k h1 h2
      simp only [List.length_map, List.length_range] at h1
      simp [show k < l.length by omega]
  · intro i hi
    have hi := List.mem_range.mp hi
    rw [Mem.load_ofList (by omega), List.getD_eq_getElem?_getD, List.getElem?_eq_getElem (by omega)]
    rfl

theorem hostToDevice_ub {n : Nat} {m : Mem Nat} (h : m.length < n) (hi : ∀ i, i < m.length → ∃ x, m[i]? = some (some x)) :
    hostToDevice n m = .ub := by
  unfold hostToDevice
  have h1 : ∀ k, (List.range' k (n - k)).mapM (fun i => m.load i) = .ub ∨ m.length < k := by
    intro k
    by_cases hk : m.length < k
    · exact .inr hk
    left
    induction hd : m.length - k generalizing k with
    | zero =>
      have : k = m.length := by omega
      subst this
      rw [show n - m.length = (n - m.length - 1) + 1 by omega, List.range'_succ, List.mapM_cons]
      have : m.load m.length = .ub := by simp [Mem.load]
      rw [this]; rfl
    | succ d ih =>
      rw [show n - k = (n - (k + 1)) + 1 by omega, List.range'_succ, List.mapM_cons]
      obtain ⟨x, hx⟩ := hi k (by omega)
      rw [Mem.load_ok hx, Outcome.bind_ok, ih (k + 1) (by omega) (by omega)]
      rfl
  rcases h1 0 with h1 | h1
  · rw [List.range_eq_range']; exact h1
  · omega

/-- the pairs of a vertex -/
def pairsL (xs : List Nat) : List (Nat × Nat) :=
  xs.flatMap (fun x => (xs.filter (fun y => decide (x ≠ y))).map (fun y => (x, y)))

theorem mem_pairsL {xs : List Nat} {a b : Nat} : (a, b) ∈ pairsL xs ↔ a ∈ xs ∧ b ∈ xs ∧ a ≠ b := by
  unfold pairsL
  simp only [List.mem_flatMap, List.mem_map, List.mem_filter, decide_eq_true_eq, Prod.mk.injEq]
  constructor
  · rintro ⟨x, hx, y, ⟨hy, hn⟩, rfl, rfl⟩
    exact ⟨hx, hy, hn⟩
  · rintro ⟨ha, hb, hn⟩
    exact ⟨a, ha, b, ⟨hb, hn⟩, rfl, rfl⟩

/-- the rows of the edges of a type: `j` is in row `k` if both have a pin among the part's vertices -/
def EveRows (verts : List Gid) (es : List (List Gid)) (rows : List (List Nat)) : Prop :=
  rows.length = es.length ∧ ∀ k (hk : k < rows.length), rows[k].Nodup ∧
    ∀ j, j ∈ rows[k] ↔ j ≠ k ∧ ∃ v ∈ verts, v ∈ es.getD k [] ∧ v ∈ es.getD j []

theorem rows_offs {N : Nat} {rows : List (List Nat)} {c : Nat → Nat} (hl : rows.length = N) (h : ∀ a (ha : a < rows.length), rows[a].length = c a) :
    (List.range (N + 1)).map (offs c) = (List.range (rows.length + 1)).map (fun k => (rows.take k).flatten.length) := by
  rw [hl]
  apply List.map_congr_left
  intro k hk
  have hk : k ≤ N := by have := List.mem_range.mp hk; omega
  induction k with
  | zero => simp [offs]
  | succ k ih =>
    have ih := ih (by rw [List.mem_range]; omega) (by omega)
    rw [offs_succ, ih, List.take_add_one, List.getElem?_eq_getElem (by omega), List.flatten_append, List.length_append, ← h k (by omega)]
    simp

theorem parallelEve_spec (hc : CRep g true verts ghosts types) {t : Nat} (ht : t < types.length)
    (hloc : ∀ v ∈ types[t].pins.flatten, v ∈ verts) {E : Env} (hE : E.Ok) :
    ∃ e d l rows, g.slot t = .ok e ∧ e.numEdges = types[t].pins.length ∧
      parallelEve E g t = .ok { g with types := g.types.set t (some { e with eveOffsets := some d, eveLists := l }) } ∧
      Rows d l rows ∧ EveRows verts types[t].pins rows := by
  obtain ⟨e, he, hr, -⟩ := hc.typ t ht
  have hnd : verts.Nodup := (List.nodup_append.mp hc.v.nodup).1
  set es := types[t].pins with hes
  obtain ⟨el, hel, hell, heg⟩ := edgeList_eq hr
  set c := fun u => degOf true es (verts.getD u 0) with hcd
  have hdeg : e.degreeList = Mem.ofList ((List.range (verts.length + 1)).map (offs c)) := by
    apply ofList_of_get
    · simp [hr.deg_len]
    · intro i hi
      simp only [List.length_map, List.length_range] at hi
      rw [hr.deg i (by omega)]
      simp [hcd]
  have hall : offs c verts.length = es.flatten.length := by
    rw [offs_deg hnd, List.countP_eq_length]
    simpa using hloc
  have hev : hostToDevice e.numPins e.edgeList = .ok el := by
    rw [hel, hr.numP, hostToDevice_ok (by omega), List.take_of_length_le (by omega)]
  have hdv : hostToDevice (g.numLocal + 1) e.degreeList = .ok ((List.range (verts.length + 1)).map (offs c)) := by
    rw [hdeg, hc.v.nl, hostToDevice_ok (by simp), List.take_of_length_le (by simp)]
  have hps : (List.range g.numLocal).mapM (pairsOf (Mem.ofList ((List.range (verts.length + 1)).map (offs c))) (Mem.ofList el)) =
      .ok ((List.range verts.length).map (fun u => pairsL (adjOf true (verts ++ ghosts) es (verts.getD u 0)))) := by
    rw [hc.v.nl]
    apply mapM_ok
    intro u hu
    have hu := List.mem_range.mp hu
    unfold pairsOf
    rw [Mem.load_ofList (by simp; omega), Outcome.bind_ok, Mem.load_ofList (by simp; omega), Outcome.bind_ok]
    simp only [List.getElem_map, List.getElem_range]
    have hgu : verts.getD u 0 = verts[u] := by simp [hu]
    have hlen : offs c (u + 1) - offs c u = (adjOf true (verts ++ ghosts) es verts[u]).length := by
      rw [offs_succ, adjOf_length]
      simp only [hcd, hgu]
      omega
    rw [hlen]
    have hx : (List.range' (offs c u) (adjOf true (verts ++ ghosts) es verts[u]).length).mapM (fun i => (Mem.ofList el).load i) =
        .ok (adjOf true (verts ++ ghosts) es verts[u]) := by
      rw [mapM_ok (g := fun i => el.getD i 0)]
      · congr 1
        apply List.ext_getElem
        · simp
        · intro k h1 h2
          simp only [List.getElem_map, List.getElem_range', Nat.one_mul]
          rw [List.getD_eq_getElem?_getD, heg u hu k h2]
          rfl
      · intro i hi
        rw [List.mem_range'_1] at hi
        have := heg u hu (i - offs c u) (by omega)
        rw [show offs c u + (i - offs c u) = i by omega] at this
        obtain ⟨h1, h2⟩ := List.getElem?_eq_some_iff.mp this
        rw [Mem.load_ofList h1, List.getD_eq_getElem?_getD, List.getElem?_eq_getElem h1]
        rfl
    rw [hx, Outcome.bind_ok, hgu]
    rfl
  set ps := (List.range verts.length).map (fun u => pairsL (adjOf true (verts ++ ghosts) es (verts.getD u 0))) with hpsd
  obtain ⟨hK1, hK2⟩ := fillMap_spec E ps (hE.cap _)
  have hmem : ∀ a b, (a, b) ∈ fillMap E ps ↔ a ≠ b ∧ ∃ v ∈ verts, v ∈ es.getD a [] ∧ v ∈ es.getD b [] := by
    intro a b
    have hin : ∀ (i : Nat) (v : Gid), i ∈ adjOf true (verts ++ ghosts) es v ↔ v ∈ es.getD i [] := by
      intro i v
      rw [mem_adjOf_hyper]
      constructor
      · rintro ⟨h1, h2⟩
        simpa [h1] using h2
      · intro h
        by_cases h1 : i < es.length
        · exact ⟨h1, by simpa [h1] using h⟩
        · simp [show es.length ≤ i by omega] at h
    rw [hK2]
    simp only [hpsd, List.mem_map, List.mem_range]
    constructor
    · rintro ⟨row, ⟨u, hu, rfl⟩, hp⟩
      obtain ⟨h1, h2, h3⟩ := mem_pairsL.mp hp
      rw [show verts.getD u 0 = verts[u] by simp [hu]] at h1 h2
      exact ⟨h3, verts[u], List.getElem_mem hu, (hin _ _).mp h1, (hin _ _).mp h2⟩
    · rintro ⟨h3, v, hv, h1, h2⟩
      obtain ⟨u, hu, rfl⟩ := List.mem_iff_getElem.mp hv
      refine ⟨_, ⟨u, hu, rfl⟩, ?_⟩
      rw [show verts.getD u 0 = verts[u] by simp [hu]]
      exact mem_pairsL.mpr ⟨(hin _ _).mpr h1, (hin _ _).mpr h2, h3⟩
  set slots := E.slots (fillMap E ps) with hsl
  have hperm : (slots.filterMap id).Perm (fillMap E ps) := hE.slots _
  have hN : ∀ p ∈ slots.filterMap id, p.1 < es.length := by
    intro p hp
    obtain ⟨-, v, -, h1, -⟩ := (hmem p.1 p.2).mp (hperm.mem_iff.mp hp)
    by_contra hcon
    rw [List.getD_eq_getElem?_getD, List.getElem?_eq_none (by omega)] at h1
    simp at h1
  obtain ⟨d0, hd0, hd1, hd2, hd3⟩ := countDeg_spec E hN
  obtain ⟨d, x, hscan, hd⟩ := scan_spec _ hd1 hd2 hd3
  obtain ⟨rows, hrl, hrp, hout⟩ := putAll_spec E hN
  refine ⟨e, d, Mem.ofList rows.flatten, rows, Graph.slot_ok he, hr.numE, ?_, ⟨?_, rfl⟩, hrl, ?_⟩
  · unfold parallelEve
    rw [if_neg (by rw [hc.hyp]; simp), Graph.slot_ok he, Outcome.bind_ok, hdv, Outcome.bind_ok, hev, Outcome.bind_ok, hps, Outcome.bind_ok]
    simp only
    rw [← hsl, hr.numE, hd0, Outcome.bind_ok, hscan, Outcome.bind_ok]
    simp only
    rw [hd, Mem.load_ofList (by simp), Outcome.bind_ok]
    simp only [List.getElem_map, List.getElem_range]
    rw [hout, Outcome.bind_ok]
    rfl
  · rw [hd]
    congr 1
    apply rows_offs hrl
    intro a ha
    rw [(hrp a ha).length_eq, List.length_map]
    unfold deg1
    rw [List.countP_eq_length_filter]
  · intro k hk
    have hp := hrp k hk
    refine ⟨hp.nodup_iff.mpr ?_, ?_⟩
    · have h1 : (slots.filterMap id).Nodup := hperm.nodup_iff.mpr hK1
      refine List.Nodup.map_on ?_ (h1.filter _)
      rintro ⟨a, b⟩ hx ⟨a', b'⟩ hy hxy
      have := of_decide_eq_true (List.mem_filter.mp hx).2
      have := of_decide_eq_true (List.mem_filter.mp hy).2
      simp_all
    · intro j
      rw [hp.mem_iff, List.mem_map]
      constructor
      · rintro ⟨⟨a, b⟩, hx, rfl⟩
        obtain ⟨h1, h2⟩ := List.mem_filter.mp hx
        have h2 : a = k := of_decide_eq_true h2
        subst h2
        obtain ⟨h3, h4⟩ := (hmem _ _).mp (hperm.mem_iff.mp h1)
        exact ⟨Ne.symm h3, h4⟩
      · rintro ⟨h1, h2⟩
        exact ⟨(k, j), List.mem_filter.mpr ⟨hperm.mem_iff.mpr ((hmem k j).mpr ⟨Ne.symm h1, h2⟩), by simp⟩, rfl⟩

/-- a pin on another part makes the copy of `edge_list` read past its end -/
theorem parallelEve_ub (hc : CRep g true verts ghosts types) {t : Nat} (ht : t < types.length)
    (hgh : ∃ v ∈ types[t].pins.flatten, v ∉ verts) (E : Env) : parallelEve E g t = .ub := by
  obtain ⟨e, he, hr, -⟩ := hc.typ t ht
  have hnd : verts.Nodup := (List.nodup_append.mp hc.v.nodup).1
  set es := types[t].pins with hes
  obtain ⟨el, hel, hell, heg⟩ := edgeList_eq hr
  set c := fun u => degOf true es (verts.getD u 0) with hcd
  have hdeg : e.degreeList = Mem.ofList ((List.range (verts.length + 1)).map (offs c)) := by
    apply ofList_of_get
    · simp [hr.deg_len]
    · intro i hi
      simp only [List.length_map, List.length_range] at hi
      rw [hr.deg i (by omega)]
      simp [hcd]
  have hdv : hostToDevice (g.numLocal + 1) e.degreeList = .ok ((List.range (verts.length + 1)).map (offs c)) := by
    rw [hdeg, hc.v.nl, hostToDevice_ok (by simp), List.take_of_length_le (by simp)]
  have hlt : el.length < es.flatten.length := by
    rw [hell, offs_deg hnd]
    obtain ⟨v, hv, hn⟩ := hgh
    refine Nat.lt_of_le_of_ne List.countP_le_length ?_
    intro heq
    exact hn (by simpa using List.countP_eq_length.mp heq v hv)
  unfold parallelEve
  rw [if_neg (by rw [hc.hyp]; simp), Graph.slot_ok he, Outcome.bind_ok, hdv, Outcome.bind_ok, hostToDevice_ub]
  · rfl
  · rw [hel, hr.numP]; simpa using hlt
  · intro i hi
    rw [hel] at hi ⊢
    simp only [Mem.length_ofList] at hi
    exact ⟨el[i], by simp [Mem.ofList, hi]⟩

end
end Verif.Color
