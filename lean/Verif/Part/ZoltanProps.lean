import Verif.Part.ZoltanModel
import Verif.Io.FileProps
import Verif.Io.FileWitness
import Verif.Io.BinLemmas
import Verif.Agi.PlanProps
/-!
# Property C51: the graph handed to Zoltan
-/
namespace Verif.Part
open Verif.Agi Verif.Io

/-! ## specification -/

/-- the hyperedges of a vertex: the id of every edge, as often as the vertex is a pin of it -/
def incident (e : EdgeInput) (v : Gid) : List Gid := e.edges.flatMap (fun E => List.replicate (E.pins.count v) E.id)

/-- the edges out of a vertex: destination, its part, and the weight of the edge -/
def outEdges (own : Gid → Nat) (e : EdgeInput) (v : Gid) : List (Gid × Int × Wgt) :=
  (e.edges.filter (fun E => E.pins[0]? == some v)).map (fun E => (E.pins.getD 1 0, (own (E.pins.getD 1 0) : Int), E.w))

/-- the edges are listed vertex by vertex, in the order of the vertices -/
def BySource (verts : List Gid) (e : EdgeInput) : Prop :=
  e.pins = verts.flatMap (fun v => e.pins.filter (fun p => p[0]? == some v))

/-! ## array lemmas -/

/-- the first `k` of `n` cells written -/
def filled {α : Type} (L : List α) (n k : Nat) : Mem α := Mem.ofList (L.take k) ++ Mem.alloc (n - k)

theorem filled_zero {α : Type} (L : List α) (n : Nat) : filled L n 0 = Mem.alloc n := by
  simp [filled, Mem.ofList]

theorem filled_length {α : Type} {L : List α} {n k : Nat} (h : k ≤ L.length) (hk : k ≤ n) : (filled L n k).length = n := by
  simp only [filled, Mem.ofList, Mem.alloc, List.length_append, List.length_map, List.length_take, List.length_replicate]
  omega

theorem filled_store {α : Type} {L : List α} {n k : Nat} (h : k < L.length) (hk : k < n) {x : α} (hx : L[k] = x) :
    (filled L n k).store k x = .ok (filled L n (k + 1)) := by
  have := store_next (L.take k) (n - (k + 1)) x
  rw [List.length_take, Nat.min_eq_left (by omega)] at this
  unfold filled
  rw [show n - k = n - (k + 1) + 1 by omega, this, List.take_add_one, List.getElem?_eq_getElem h, hx]
  rfl

theorem filled_load {α : Type} {L : List α} {n k : Nat} (hk : k ≤ L.length) {i : Nat} (hi : i < k) :
    (filled L n k).load i = .ok (L[i]'(by omega)) := by
  apply Mem.load_ok
  unfold filled
  rw [List.getElem?_append_left (by simp [Mem.ofList]; omega)]
  simp only [Mem.ofList, List.getElem?_map, List.getElem?_take, if_pos hi]
  rw [List.getElem?_eq_getElem (by omega)]; rfl

theorem filled_unwritten {α : Type} {L : List α} {n k : Nat} (hk : k ≤ L.length) (hn : k < n) :
    (filled L n k).load k = .ub := by
  have : (filled L n k)[k]? = some none := by
    unfold filled
    have hl : (Mem.ofList (L.take k)).length = k := by simp [Mem.ofList]; omega
    rw [List.getElem?_append_right (by omega), hl, Nat.sub_self, Mem.alloc, List.getElem?_replicate, if_pos (by omega)]
  unfold Mem.load
  rw [this]

theorem mapM_getElem {α β : Type} {f : Nat → Outcome β} {F : α → β} (L : List α) (a : Nat)
    (h : ∀ i (hi : i < L.length), f (a + i) = .ok (F L[i])) : (List.range' a L.length).mapM f = .ok (L.map F) := by
  induction L generalizing a with
  | nil => rfl
  | cons x L ih =>
    rw [List.length_cons, List.range'_succ, List.mapM_cons]
    have h0 := h 0 (by simp)
    rw [Nat.add_zero] at h0
    rw [h0, Outcome.bind_ok, ih (a + 1) (by
      intro i hi
      have := h (i + 1) (by simpa using hi)
      rw [show a + 1 + i = a + (i + 1) by omega, this]
      rfl)]
    rfl

theorem readArr_filled {α : Type} {L : List α} {n : Nat} (h : L.length = n) : readArr (filled L n n) = .ok L := by
  unfold readArr
  rw [filled_length (by omega) (Nat.le_refl _), List.range_eq_range', ← h]
  rw [mapM_getElem (F := id) L 0 (by
    intro i hi
    rw [Nat.zero_add, filled_load (by omega) hi]
    rfl)]
  simp

/-- a loop that steps through known states -/
theorem iterLoop_states {σ β : Type} {step : σ → Outcome (Handle × σ)} {body : β → Handle → Outcome (β × Bool)}
    {hs : List Handle} {s : σ} {fuel : Nat} (hy : Yields step s hs) (hf : hs.length < fuel) (B : Nat → β)
    (hb : ∀ k (hk : k < hs.length), body (B k) hs[k] = .ok (B (k + 1), false)) :
    iterLoop step body fuel s (B 0) = .ok (B hs.length) := by
  rw [iterLoop_yields body _ s fuel _ hy hf]
  clear hy hf
  have : ∀ (hs : List Handle) (a : Nat), (∀ k (hk : k < hs.length), body (B (a + k)) hs[k] = .ok (B (a + k + 1), false)) →
      loopList body hs (B a) = .ok (B (a + hs.length)) := by
    intro hs
    induction hs with
    | nil => intro a _; rfl
    | cons x hs ih =>
      intro a h
      have h0 := h 0 (by simp)
      simp only [Nat.add_zero, List.getElem_cons_zero] at h0
      rw [loopList, h0, Outcome.bind_ok]
      simp only [Bool.false_eq_true, if_false]
      rw [ih (a + 1) (by
        intro k hk
        have := h (k + 1) (by simpa using hk)
        rw [show a + 1 + k = a + (k + 1) by omega]
        simpa using this), List.length_cons, show a + 1 + hs.length = a + (hs.length + 1) by omega]
  have h := this hs 0 (by intro k hk; rw [Nat.zero_add]; exact hb k hk)
  rw [Nat.zero_add] at h
  exact h

/-! ## the callbacks -/

section
variable {g : Graph} {verts ghosts : List Gid} {types : List EdgeInput} {zid : Gid → Int}

theorem bound_verts {hyper : Bool} (h : CRep g hyper verts ghosts types) : verts.length < g.bound := by
  have := h.v.nl
  unfold Graph.bound
  omega

theorem zVertices_eq {hyper : Bool} (h : CRep g hyper verts ghosts types) {ws : List Wgt} (hl : ws.length = verts.length)
    (hw : ∀ k (hk : k < verts.length), g.weight (getVertex k) = .ok (ws[k]'(by omega))) :
    zVertices g zid = .ok ⟨(List.range verts.length).map (fun k : Nat => (k : Int)), verts.map zid, ws⟩ := by
  unfold zVertices
  have hy := yields_vertices g
  have hb := bound_verts h
  set n := verts.length with hn
  rw [h.v.nl] at hy
  rw [h.v.nl]
  set lids := (List.range n).map (fun k : Nat => (k : Int)) with hlids
  have hll : lids.length = n := by simp [hlids]
  have := iterLoop_states (body := zVertex g zid) (fuel := g.bound) hy (by simpa using hb)
    (fun k => ⟨filled lids n k, filled (verts.map zid) n k, filled ws n k⟩) (by
      intro k hk
      have hk' : k < n := by simpa using hk
      simp only [List.getElem_map, List.getElem_range]
      unfold zVertex
      rw [vidx_getVertex, Outcome.bind_ok]
      simp only
      rw [filled_store (by omega) hk' (by simp [hlids]), Outcome.bind_ok, globalID_idx h.v (by simp; omega),
        Outcome.bind_ok, filled_store (by simpa using hk') hk' (by simp [List.getElem_append_left hk']), Outcome.bind_ok,
        hw k hk', Outcome.bind_ok, filled_store (by omega) hk' rfl]
      rfl)
  simp only [filled_zero, List.length_map, List.length_range] at this
  rw [this, Outcome.bind_ok]
  simp only
  rw [readArr_filled hll, Outcome.bind_ok, readArr_filled (by simp [hn]), Outcome.bind_ok, readArr_filled hl]
  rfl

theorem zEdgeWeights_eq (h : CRep g true verts ghosts types) (ht : 0 < types.length) :
    zEdgeWeights g zid = .ok ⟨(List.range types[0].pins.length).map (fun k : Nat => (k : Int)), types[0].ids.map zid,
      types[0].weights⟩ := by
  unfold zEdgeWeights
  have hwf := h.wf _ (List.getElem_mem ht)
  obtain ⟨it, e1, hy⟩ := yields_edgeBegin h ht
  obtain ⟨e, he, hr, -⟩ := h.typ 0 ht
  have hb := bound_ge he
  have hne := hr.numE
  rw [numEdges_eq h ht, Outcome.bind_ok, e1, Outcome.bind_ok]
  set n := types[0].pins.length with hn
  set lids := (List.range n).map (fun k : Nat => (k : Int)) with hlids
  have hll : lids.length = n := by simp [hlids]
  have hil : types[0].ids.length = n := hwf.ids_len
  have hwl : types[0].weights.length = n := weights_length hwf
  have := iterLoop_states (body := zEdgeWeight g zid) (fuel := g.bound) hy (by simp only [List.length_map, List.length_range]; omega)
    (fun k => ⟨filled lids n k, filled (types[0].ids.map zid) n k, filled types[0].weights n k⟩) (by
      intro k hk
      have hk' : k < n := by simpa using hk
      simp only [List.getElem_map, List.getElem_range]
      unfold zEdgeWeight
      rw [decode_getEdge (by rw [h.numTypes]; exact ht), Outcome.bind_ok]
      simp only
      rw [filled_store (by omega) hk' (by simp [hlids]), Outcome.bind_ok, globalIDE_hyper h ht (by omega),
        Outcome.bind_ok, filled_store (by simpa [hil] using hk') hk' (by simp), Outcome.bind_ok,
        weightE_eq h ht (by omega), Outcome.bind_ok, filled_store (by omega) hk' rfl]
      rfl)
  simp only [filled_zero, List.length_map, List.length_range] at this
  rw [this, Outcome.bind_ok]
  simp only
  rw [readArr_filled hll, Outcome.bind_ok, readArr_filled (by simp [hil]), Outcome.bind_ok, readArr_filled hwl]
  rfl

theorem incOf_incident {e : EdgeInput} (h : e.WF true) (v : Gid) : incOf true verts e v = incident e v := by
  unfold incOf incident adjOf
  simp only [if_true]
  rw [List.map_flatMap]
  have key : ∀ (ps : List (List Gid)) (is : List Gid) (ws : List Wgt) (k : Nat), is.length = ps.length → ws.length = ps.length →
      (∀ j (hj : j < is.length), e.ids.getD (k + j) 0 = is[j]) →
      (ps.zipIdx k).flatMap (fun p => (List.replicate (p.1.count v) p.2).map (fun k => e.ids.getD k 0)) =
        ((is.zip (ps.zip ws)).map (fun x => (⟨x.1, x.2.1, x.2.2⟩ : HEdge))).flatMap
          (fun E => List.replicate (E.pins.count v) E.id) := by
    intro ps
    induction ps with
    | nil => intro is ws k h1 h2 _; cases is <;> simp at h1 ⊢
    | cons p ps ih =>
      intro is ws k h1 h2 h3
      cases is with
      | nil => simp at h1
      | cons i is =>
        cases ws with
        | nil => simp at h2
        | cons w ws =>
          simp only [List.zipIdx_cons, List.flatMap_cons, List.zip_cons_cons, List.map_cons]
          have h0 := h3 0 (by simp)
          simp only [Nat.add_zero, List.getElem_cons_zero] at h0
          rw [ih is ws (k + 1) (by simpa using h1) (by simpa using h2) (by
            intro j hj
            have := h3 (j + 1) (by simpa using hj)
            rw [show k + 1 + j = k + (j + 1) by omega, this]; rfl)]
          rw [List.map_replicate, h0]
  have := key e.pins e.ids e.weights 0 h.ids_len (weights_length h) (by
    intro j hj
    rw [Nat.zero_add, List.getD_eq_getElem?_getD, List.getElem?_eq_getElem hj, Option.getD_some])
  rw [this]
  rfl

theorem countP_cons_mem {a : Gid} {l : List Gid} (h : a ∉ l) (L : List Gid) :
    L.countP (fun x => decide (x ∈ a :: l)) = L.count a + L.countP (fun x => decide (x ∈ l)) := by
  induction L with
  | nil => simp
  | cons x L ih =>
    rw [List.countP_cons, List.countP_cons, List.count_cons, ih]
    by_cases hx : x = a
    · subst hx; simp [h]; omega
    · simp only [List.mem_cons, hx, false_or, beq_iff_eq, if_false]
      omega

theorem count_sum (L : List Gid) : ∀ verts : List Gid, verts.Nodup →
    (verts.map (fun v => L.count v)).sum = L.countP (fun x => decide (x ∈ verts)) := by
  intro verts
  induction verts with
  | nil => intro _; simp
  | cons a l ih =>
    intro hnd
    simp only [List.nodup_cons] at hnd
    rw [List.map_cons, List.sum_cons, ih hnd.2, countP_cons_mem hnd.1]

/-- where the rows start -/
def rowOff (e : EdgeInput) (verts : List Gid) (u : Nat) : Nat := offs (fun u => degOf true e.pins (verts.getD u 0)) u

theorem getD_at {verts : List Gid} {u : Nat} (hu : u < verts.length) : verts.getD u 0 = verts[u] := by
  rw [List.getD_eq_getElem?_getD, List.getElem?_eq_getElem hu, Option.getD_some]

theorem rowOff_succ {e : EdgeInput} {verts : List Gid} {u : Nat} (hu : u < verts.length) :
    rowOff e verts (u + 1) = rowOff e verts u + degOf true e.pins verts[u] := by
  unfold rowOff
  rw [offs_succ]
  simp only [getD_at hu]

theorem rowOff_total {e : EdgeInput} {verts : List Gid} (hnd : verts.Nodup) :
    rowOff e verts verts.length = e.pins.flatten.countP (fun x => decide (x ∈ verts)) := by
  rw [← count_sum _ _ hnd]
  unfold rowOff offs
  congr 1
  apply List.ext_getElem
  · simp
  · intro k h1 h2
    have hk : k < verts.length := by simpa using h2
    simp only [List.getElem_map, List.getElem_range, getD_at hk]
    simp [degOf]

theorem inc_length {e : EdgeInput} (verts : List Gid) (v : Gid) : (incOf true verts e v).length = degOf true e.pins v := by
  unfold incOf
  simp only [if_true, List.length_map]
  exact adjOf_length true [] e.pins v

theorem rows_take {e : EdgeInput} {verts : List Gid} (zid : Gid → Int) : ∀ u, u ≤ verts.length →
    ((verts.take u).flatMap (fun v => (incOf true verts e v).map zid)).length = rowOff e verts u := by
  intro u
  induction u with
  | zero => intro _; simp [rowOff, offs]
  | succ u ih =>
    intro hu
    rw [rowOff_succ (by omega), ← ih (by omega), List.take_add_one, List.getElem?_eq_getElem (by omega),
      Option.toList_some, List.flatMap_append, List.length_append]
    congr 1
    simp [inc_length]

theorem rows_length {e : EdgeInput} {verts : List Gid} (zid : Gid → Int) :
    (verts.flatMap (fun v => (incOf true verts e v).map zid)).length = rowOff e verts verts.length := by
  have := rows_take (e := e) zid verts.length (Nat.le_refl _)
  rwa [List.take_length] at this

theorem rows_at {e : EdgeInput} {verts : List Gid} (zid : Gid → Int) {u : Nat} (hu : u < verts.length) {j : Nat}
    (hj : j < (incOf true verts e verts[u]).length) (hlt : rowOff e verts u + j < (verts.flatMap (fun v => (incOf true verts e v).map zid)).length) :
    (verts.flatMap (fun v => (incOf true verts e v).map zid))[rowOff e verts u + j] =
      zid (incOf true verts e verts[u])[j] := by
  have h1 : (verts.flatMap (fun v => (incOf true verts e v).map zid))[rowOff e verts u + j]? =
      some (zid (incOf true verts e verts[u])[j]) := by
    have h2 : verts.flatMap (fun v => (incOf true verts e v).map zid) =
        (verts.take u).flatMap (fun v => (incOf true verts e v).map zid) ++
          ((incOf true verts e verts[u]).map zid ++ (verts.drop (u + 1)).flatMap (fun v => (incOf true verts e v).map zid)) := by
      have key : ∀ f : Gid → List Int, verts.flatMap f =
          (verts.take u).flatMap f ++ (f verts[u] ++ (verts.drop (u + 1)).flatMap f) := by
        intro f
        conv_lhs => rw [← List.take_append_drop u verts, List.drop_eq_getElem_cons hu]
        rw [List.flatMap_append, List.flatMap_cons]
      exact key _
    rw [h2, ← rows_take zid u (by omega), List.getElem?_append_right (by omega), Nat.add_sub_cancel_left,
      List.getElem?_append_left (by simpa using hj), List.getElem?_map, List.getElem?_eq_getElem hj]
    rfl
  rw [List.getElem?_eq_getElem hlt] at h1
  exact Option.some.inj h1

/-- the state after `k` vertices -/
def zState (zid : Gid → Int) (verts : List Gid) (e : EdgeInput) (k : Nat) : ZCsr :=
  ⟨filled (verts.map zid) verts.length k,
   filled ((List.range verts.length).map (fun u => (rowOff e verts u : Int))) verts.length (min (k + 1) verts.length),
   ⟨filled (verts.flatMap (fun v => (incOf true verts e v).map zid)) e.pins.flatten.length (rowOff e verts k), rowOff e verts k⟩⟩

theorem zOffset_eq (h : CRep g true verts ghosts types) (ht : 0 < types.length) {k : Nat} (hk : k < verts.length) :
    zOffset g (filled ((List.range verts.length).map (fun u => (rowOff types[0] verts u : Int))) verts.length
      (min (k + 1) verts.length)) k (getVertex k) =
    .ok (filled ((List.range verts.length).map (fun u => (rowOff types[0] verts u : Int))) verts.length
      (min (k + 1 + 1) verts.length)) := by
  unfold zOffset
  rw [h.v.nl]
  by_cases hl : k + 1 < verts.length
  · rw [if_pos (by omega), Nat.min_eq_left (by omega), Nat.min_eq_left (by omega),
      filled_load (by simp; omega) (by omega), Outcome.bind_ok, degreeV_eq h ht hk, Outcome.bind_ok,
      filled_store (by simp; omega) hl]
    simp only [List.getElem_map, List.getElem_range]
    rw [rowOff_succ hk]
    push_cast
    rfl
  · rw [if_neg (by omega), Nat.min_eq_right (by omega), Nat.min_eq_right (by omega)]

theorem zHyperFill_eq (h : CRep g true verts ghosts types) (ht : 0 < types.length) :
    zHyperFill g zid = if verts = [] then .ub else .ok (zState zid verts types[0] verts.length) := by
  have hwf := h.wf _ (List.getElem_mem ht)
  have hnd := (List.nodup_append.mp h.v.nodup).1
  unfold zHyperFill
  rw [numPins_eq h ht, Outcome.bind_ok, h.v.nl]
  by_cases hz : verts = []
  · rw [if_pos hz, hz]; rfl
  rw [if_neg hz]
  have hpos : 0 < verts.length := List.length_pos_iff.mpr hz
  have hstore : (Mem.alloc verts.length).store 0 (0 : Int) =
      .ok (filled ((List.range verts.length).map (fun u => (rowOff types[0] verts u : Int))) verts.length (min 1 verts.length)) := by
    rw [← filled_zero ((List.range verts.length).map (fun u => (rowOff types[0] verts u : Int))) verts.length,
      filled_store (by simpa using hpos) hpos (by simp [rowOff, offs]), Nat.min_eq_left (by omega)]
  rw [hstore, Outcome.bind_ok]
  have hy := yields_vertices g
  rw [h.v.nl] at hy
  have htot : rowOff types[0] verts verts.length ≤ types[0].pins.flatten.length := by
    rw [rowOff_total hnd]; exact List.countP_le_length
  have := iterLoop_states (body := zHyperVertex g zid) (fuel := g.bound) hy (by simpa using bound_verts h)
    (zState zid verts types[0]) (by
      intro k hk
      have hk' : k < verts.length := by simpa using hk
      simp only [List.getElem_map, List.getElem_range]
      unfold zHyperVertex
      rw [vidx_getVertex, Outcome.bind_ok, globalID_idx h.v (by simp; omega), Outcome.bind_ok]
      unfold zState
      simp only
      rw [filled_store (by simpa using hk') hk' (by simp [List.getElem_append_left hk']), Outcome.bind_ok,
        zOffset_eq h ht hk', Outcome.bind_ok]
      obtain ⟨it, e1, hye⟩ := yields_edges_hyper h ht hk'
      rw [e1, Outcome.bind_ok]
      have hadj : adjOf true (verts ++ ghosts) types[0].pins verts[k] = adjOf true [] types[0].pins verts[k] := rfl
      rw [hadj] at hye
      have hal := adjOf_length true [] types[0].pins verts[k]
      obtain ⟨e, he, hr, -⟩ := h.typ 0 ht
      have hb := bound_ge he
      have hlen := hr.list_len
      have hmono := offs_mono (fun u => degOf true types[0].pins (verts.getD u 0)) (show k + 1 ≤ verts.length by omega)
      have hsucc := rowOff_succ (e := types[0]) hk'
      have hmono' : rowOff types[0] verts (k + 1) ≤ rowOff types[0] verts verts.length := hmono
      have hlen' : e.edgeList.length = rowOff types[0] verts verts.length := hlen
      have hrl := rows_length (e := types[0]) (verts := verts) zid
      have hin := iterLoop_states (body := zRowEdge g zid) (fuel := g.bound) hye (by simp only [List.length_map]; omega)
        (fun j => ⟨filled (verts.flatMap (fun v => (incOf true verts types[0] v).map zid)) types[0].pins.flatten.length
          (rowOff types[0] verts k + j), rowOff types[0] verts k + j⟩) (by
          intro j hj
          simp only [List.length_map] at hj
          rw [List.getElem_map]
          unfold zRowEdge
          have hmem := List.getElem_mem hj
          obtain ⟨hk1, -⟩ := mem_adjOf_hyper.mp hmem
          have hki : (adjOf true [] types[0].pins verts[k])[j] < types[0].ids.length := by rw [hwf.ids_len]; exact hk1
          rw [globalIDE_hyper h ht hki, Outcome.bind_ok]
          simp only
          have hji : j < (incOf true verts types[0] verts[k]).length := by rw [inc_length]; omega
          rw [filled_store (by omega) (by omega) (x := zid types[0].ids[(adjOf true [] types[0].pins verts[k])[j]]) (by
            rw [rows_at zid hk' hji]
            congr 1
            unfold incOf
            simp only [if_true, List.getElem_map]
            rw [List.getD_eq_getElem?_getD, List.getElem?_eq_getElem hki, Option.getD_some])]
          rfl)
      simp only [Nat.add_zero, List.length_map] at hin
      rw [hin, Outcome.bind_ok, hal, hsucc]
      rfl)
  unfold zState at this
  simp only [filled_zero, List.length_map, List.length_range, rowOff, offs_zero, Nat.zero_add] at this
  unfold zState
  simp only [rowOff]
  exact this

theorem zRow_eq (hnd : verts.Nodup) {e : EdgeInput} {u : Nat} (hu : u < verts.length) :
    zRow (zState zid verts e verts.length) u =
      if u + 1 < verts.length ∨ (∀ x ∈ e.pins.flatten, x ∈ verts) then .ok ((incOf true verts e verts[u]).map zid) else .ub := by
  unfold zRow zState
  simp only
  rw [Nat.min_eq_right (by omega), filled_load (by simp) hu, Outcome.bind_ok]
  simp only [List.getElem_map, List.getElem_range]
  rw [filled_length (by simp) (Nat.le_refl _)]
  have htot : rowOff e verts verts.length ≤ e.pins.flatten.length := by
    rw [rowOff_total hnd]; exact List.countP_le_length
  have hrl := rows_length (e := e) (verts := verts) zid
  rw [filled_length (by omega) (by omega)]
  have hmono : rowOff e verts (u + 1) ≤ rowOff e verts verts.length := offs_mono _ (by omega)
  have hsucc := rowOff_succ (e := e) hu
  have hil := inc_length (e := e) verts verts[u]
  have hgood : (List.range' (rowOff e verts u) (incOf true verts e verts[u]).length).mapM
      (filled (verts.flatMap (fun v => (incOf true verts e v).map zid)) e.pins.flatten.length (rowOff e verts verts.length)).load =
      .ok ((incOf true verts e verts[u]).map zid) := by
    apply mapM_getElem
    intro i hi
    rw [filled_load (by omega) (by omega), rows_at zid hu hi]
  by_cases hl : u + 1 < verts.length
  · rw [if_pos hl, filled_load (by simp) hl, Outcome.bind_ok, if_pos (.inl hl)]
    simp only [List.getElem_map, List.getElem_range]
    rw [show ((rowOff e verts (u + 1) : Int) - (rowOff e verts u : Int)).toNat = (incOf true verts e verts[u]).length by
      rw [hsucc, hil]; omega]
    exact hgood
  · rw [if_neg hl, Outcome.bind_ok]
    have hlast : u + 1 = verts.length := by omega
    have hlr : rowOff e verts (u + 1) = rowOff e verts verts.length := by rw [hlast]
    by_cases hall : ∀ x ∈ e.pins.flatten, x ∈ verts
    · rw [if_pos (.inr hall)]
      have heq : rowOff e verts verts.length = e.pins.flatten.length := by
        rw [rowOff_total hnd, List.countP_eq_length]
        intro x hx
        simpa using hall x hx
      rw [show ((e.pins.flatten.length : Int) - (rowOff e verts u : Int)).toNat = (incOf true verts e verts[u]).length by
        omega]
      exact hgood
    · rw [if_neg (by rintro (h1 | h1); exact hl h1; exact hall h1)]
      have hlt : rowOff e verts verts.length < e.pins.flatten.length := by
        rw [rowOff_total hnd]
        rcases Nat.lt_or_ge (e.pins.flatten.countP (fun x => decide (x ∈ verts))) e.pins.flatten.length with h1 | h1
        · exact h1
        · exfalso; apply hall
          have := List.countP_eq_length.mp (Nat.le_antisymm List.countP_le_length h1)
          intro x hx
          simpa using this x hx
      rw [show ((e.pins.flatten.length : Int) - (rowOff e verts u : Int)).toNat =
        (incOf true verts e verts[u]).length + ((e.pins.flatten.length - rowOff e verts verts.length - 1) + 1) by omega]
      rw [Int.toNat_natCast, ← List.range'_append_1, List.mapM_append, hgood, Outcome.bind_ok, List.range'_succ, List.mapM_cons,
        show rowOff e verts u + (incOf true verts e verts[u]).length = rowOff e verts verts.length by omega,
        filled_unwritten (by omega) hlt]
      rfl

theorem zHyper_eq (h : CRep g true verts ghosts types) (ht : 0 < types.length) :
    zHyper g zid = if verts ≠ [] ∧ (∀ x ∈ (types[0]'ht).pins.flatten, x ∈ verts) then
      .ok (verts.map (fun v => (zid v, (incident types[0] v).map zid))) else .ub := by
  have hnd := (List.nodup_append.mp h.v.nodup).1
  have hwf := h.wf _ (List.getElem_mem ht)
  unfold zHyper
  rw [zHyperFill_eq h ht]
  by_cases hz : verts = []
  · rw [if_pos hz, if_neg (by simp [hz])]; rfl
  rw [if_neg hz, Outcome.bind_ok]
  have hvl : (zState zid verts types[0] verts.length).vtx = filled (verts.map zid) verts.length verts.length := rfl
  rw [hvl, readArr_filled (by simp), Outcome.bind_ok, filled_length (by simp) (Nat.le_refl _)]
  by_cases hall : ∀ x ∈ types[0].pins.flatten, x ∈ verts
  · rw [if_pos ⟨hz, hall⟩, List.range_eq_range', mapM_getElem (F := fun v => (incOf true verts types[0] v).map zid) verts 0 (by
      intro i hi
      rw [Nat.zero_add, zRow_eq hnd hi, if_pos (.inr hall)]), Outcome.bind_ok]
    rw [List.zip_map']
    simp only [incOf_incident hwf]
    rfl
  · rw [if_neg (fun hc => hall hc.2)]
    have hpos : 0 < verts.length := List.length_pos_iff.mpr hz
    have : (List.range verts.length).mapM (zRow (zState zid verts types[0] verts.length)) = .ub := by
      rw [show verts.length = (verts.length - 1) + 1 by omega, List.range_succ, List.mapM_append,
        ← show verts.length = (verts.length - 1) + 1 by omega]
      have h1 := mapM_getElem (f := zRow (zState zid verts types[0] verts.length))
        (F := fun v => (incOf true verts types[0] v).map zid) (verts.take (verts.length - 1)) 0 (by
        intro i hi
        simp only [List.length_take] at hi
        rw [Nat.zero_add, zRow_eq hnd (by omega), if_pos (.inl (by omega)), List.getElem_take])
      rw [List.length_take, Nat.min_eq_left (by omega), ← List.range_eq_range'] at h1
      rw [h1, Outcome.bind_ok, List.mapM_cons, zRow_eq hnd (by omega), if_neg (by
        rintro (hc | hc)
        · omega
        · exact hall hc)]
      rfl
    rw [this]; rfl

/-! ### traditional graphs -/

theorem offs_grouped (e : EdgeInput) {u : Nat} (hu : u ≤ verts.length) :
    offs (fun u => degOf false e.pins (verts.getD u 0)) u = (grouped (verts.take u) e.pins).length :=
  (grouped_take verts e.pins u hu).symm

/-- the edges out of a vertex are the ones at its place -/
theorem filter_source {e : EdgeInput} (hwf : e.WF false) (hnd : verts.Nodup) (hb : BySource verts e) {u : Nat} (hu : u < verts.length) :
    e.edges.filter (fun E => E.pins[0]? == some verts[u]) =
      (e.edges.drop (offs (fun u => degOf false e.pins (verts.getD u 0)) u)).take (degOf false e.pins verts[u]) := by
  rw [offs_grouped e (by omega), degOf_filter]
  set A := grouped (verts.take u) e.pins with hA
  set B := e.pins.filter (fun p => p[0]? == some verts[u]) with hB
  set C := grouped (verts.drop (u + 1)) e.pins with hC
  have hsplit : e.edges.map (fun E => E.pins) = A ++ (B ++ C) := by
    rw [edges_pins hwf]
    have key : ∀ f : Gid → List (List Gid), verts.flatMap f =
        (verts.take u).flatMap f ++ (f verts[u] ++ (verts.drop (u + 1)).flatMap f) := by
      intro f
      conv_lhs => rw [← List.take_append_drop u verts, List.drop_eq_getElem_cons hu]
      rw [List.flatMap_append, List.flatMap_cons]
    exact hb.trans (key _)
  have hnone : ∀ (l : List Gid), verts[u] ∉ l → ∀ x ∈ grouped l e.pins, ¬ (x[0]? == some verts[u]) = true := by
    intro l hl x hx hc
    unfold grouped at hx
    rw [List.mem_flatMap] at hx
    obtain ⟨w, hw, hxw⟩ := hx
    have h1 := (List.mem_filter.mp hxw).2
    simp only [beq_iff_eq] at h1 hc
    rw [h1] at hc
    exact hl (by rw [← Option.some.inj hc]; exact hw)
  have hnd' := hnd
  rw [← List.take_append_drop u verts, List.drop_eq_getElem_cons hu] at hnd'
  have hn1 : verts[u] ∉ verts.take u := by
    intro hc
    exact (List.nodup_append.mp hnd').2.2 _ hc _ (List.mem_cons_self) rfl
  have hn2 : verts[u] ∉ verts.drop (u + 1) := by
    have := (List.nodup_append.mp hnd').2.1
    simp only [List.nodup_cons] at this
    exact this.1
  have hfl : ∀ l : List HEdge, (∀ x ∈ l.map (fun E => E.pins), ¬ (x[0]? == some verts[u]) = true) →
      l.filter (fun E => E.pins[0]? == some verts[u]) = [] := by
    intro l h
    rw [List.filter_eq_nil_iff]
    intro E hE
    exact h _ (List.mem_map.mpr ⟨E, hE, rfl⟩)
  conv_lhs => rw [← List.take_append_drop A.length e.edges, ← List.take_append_drop B.length (e.edges.drop A.length)]
  rw [List.filter_append, List.filter_append, hfl (e.edges.take A.length), List.nil_append]
  · rw [hfl ((e.edges.drop A.length).drop B.length), List.append_nil]
    · rw [List.filter_eq_self]
      intro E hE
      have : E.pins ∈ B := by
        have h1 : ((e.edges.drop A.length).take B.length).map (fun E => E.pins) = B := by
          rw [List.map_take, List.map_drop, hsplit, List.drop_left, List.take_left]
        rw [← h1]
        exact List.mem_map.mpr ⟨E, hE, rfl⟩
      exact (List.mem_filter.mp this).2
    · rw [List.map_drop, List.map_drop, hsplit, List.drop_left, List.drop_left]
      exact hnone _ hn2
  · rw [List.map_take, hsplit, List.take_left]
    exact hnone _ hn1

theorem zEdges_eq (h : CRep g false verts ghosts types) (ht : 0 < types.length) {own : Gid → Nat}
    (hown : ∀ v ∈ verts ++ ghosts, g.owner (getVertex ((verts ++ ghosts).idxOf v)) = .ok (own v : Int))
    (hb : BySource verts types[0]) {u : Nat} (hu : u < verts.length) :
    zEdges g zid u = .ok ((outEdges own types[0] verts[u]).map (fun x => (zid x.1, x.2))) := by
  have hwf := h.wf _ (List.getElem_mem ht)
  have hnd := (List.nodup_append.mp h.v.nodup).1
  set o := offs (fun u => degOf false types[0].pins (verts.getD u 0)) u with ho
  set d := degOf false types[0].pins verts[u] with hd
  set es := types[0].edges.filter (fun E => E.pins[0]? == some verts[u]) with hes
  have hfs : es = (types[0].edges.drop o).take d := filter_source hwf hnd hb hu
  have hel : types[0].edges.length = types[0].pins.length := edges_length hwf
  have hpl := edges_pins hwf
  have hd' : d = es.length := by
    rw [hd, degOf_filter, hes, ← List.countP_eq_length_filter, ← List.countP_eq_length_filter, ← hpl, List.countP_map]
    rfl
  have hod : o + d ≤ types[0].edges.length := by
    have := congrArg List.length hfs
    rw [List.length_take, List.length_drop, ← hd'] at this
    by_cases hz : d = 0
    · have h1 : (grouped verts types[0].pins).length = types[0].pins.length := congrArg List.length hb.symm
      rw [grouped_length] at h1
      have h2 := offs_mono (fun u => degOf false types[0].pins (verts.getD u 0)) (show u ≤ verts.length by omega)
      omega
    · omega
  have hat : ∀ j (hj : j < es.length), es[j] = types[0].edges[o + j]'(by omega) := by
    intro j hj
    have : es[j]? = types[0].edges[o + j]? := by
      rw [hfs, List.getElem?_take, if_pos (by omega), List.getElem?_drop]
    rw [List.getElem?_eq_getElem hj, List.getElem?_eq_getElem (by omega)] at this
    exact Option.some.inj this
  -- the row
  unfold zEdges
  simp only
  rw [degreeV_eq h ht hu, Outcome.bind_ok]
  obtain ⟨it, e1, hy⟩ := yields_edges_trad h ht hu
  rw [e1, Outcome.bind_ok, ← hd, Int.toNat_natCast]
  obtain ⟨e, he, hr, -⟩ := h.typ 0 ht
  have hbd := bound_ge he
  have hne := hr.numE
  have hal := adjOf_length false (verts ++ ghosts) types[0].pins verts[u]
  rw [← hd] at hal
  have hadj : adjOf false (verts ++ ghosts) types[0].pins verts[u] =
      es.map (fun E => (verts ++ ghosts).idxOf (E.pins.getD 1 0)) := by
    unfold adjOf
    simp only [Bool.false_eq_true, if_false]
    rw [← hpl, List.filter_map, List.map_map, hes]
    rfl
  have hmemk : ∀ E ∈ es, E.pins.getD 1 0 ∈ verts ++ ghosts := by
    intro E hE
    have h1 : E.pins ∈ types[0].pins := by
      rw [← hpl]
      exact List.mem_map.mpr ⟨E, (List.mem_filter.mp hE).1, rfl⟩
    apply h.pins 0 ht
    rw [List.mem_flatten]
    refine ⟨_, h1, ?_⟩
    have h2 := hwf.two rfl _ h1
    rw [List.getD_eq_getElem?_getD, List.getElem?_eq_getElem (by omega), Option.getD_some]
    exact List.getElem_mem _
  have hin := iterLoop_states (body := zNbr g zid) (fuel := g.bound) hy (by simp only [List.length_map, List.length_range']; omega)
    (fun j => ⟨filled (es.map (fun E => zid (E.pins.getD 1 0))) d j, filled (es.map (fun E => (own (E.pins.getD 1 0) : Int))) d j,
      filled (es.map (fun E => E.w)) d j, j⟩) (by
      intro j hj
      have hj' : j < d := by simpa using hj
      have hje : j < es.length := by omega
      have hoj : o + j < types[0].pins.length := by omega
      have hE := hat j hje
      rw [edges_getElem (by omega) (by rw [hwf.ids_len]; exact hoj) hoj (by rw [weights_length hwf]; exact hoj)] at hE
      simp only [List.getElem_map, List.getElem_range', Nat.one_mul]
      unfold zNbr
      have hv := vOf_eq h ht hu (k := j) (by omega)
      rw [← ho] at hv ⊢
      have hdj : (adjOf false (verts ++ ghosts) types[0].pins verts[u])[j]'(by omega) =
          (verts ++ ghosts).idxOf (es[j].pins.getD 1 0) := by
        have : (adjOf false (verts ++ ghosts) types[0].pins verts[u])[j]? =
            some ((verts ++ ghosts).idxOf (es[j].pins.getD 1 0)) := by
          rw [hadj, List.getElem?_map, List.getElem?_eq_getElem hje]; rfl
        rw [List.getElem?_eq_getElem (by omega)] at this
        exact Option.some.inj this
      have hk := hmemk es[j] (List.getElem_mem hje)
      rw [hv, Outcome.bind_ok, hdj, globalID_eq h.v hk, Outcome.bind_ok]
      simp only
      rw [filled_store (by simpa using hje) hj' (by simp), Outcome.bind_ok, hown _ hk, Outcome.bind_ok,
        filled_store (by simpa using hje) hj' (by simp), Outcome.bind_ok,
        weightE_eq h ht (by rw [weights_length hwf]; exact hoj), Outcome.bind_ok,
        filled_store (by simpa using hje) hj' (by simp [hE])]
      rfl)
  simp only [filled_zero, List.length_map, List.length_range'] at hin
  rw [hin, Outcome.bind_ok]
  simp only
  rw [readArr_filled (by simp [hd']), Outcome.bind_ok, readArr_filled (by simp [hd']), Outcome.bind_ok,
    readArr_filled (by simp [hd'])]
  unfold outEdges
  rw [Outcome.bind_ok]
  simp only [Outcome.pure_eq]
  rw [List.zip_map', List.zip_map', List.map_map]
  rfl

end

/-! ## the properties -/

section
variable {ins : List Input} {own : Gid → Nat} {hyper : Bool} {T : Nat} {owns : List (GMap Part)}
  {co : Option (Gid → Coord)} {o1 o2 : Nat → List Nat}

/-- construction with coordinates, ghosts and original owners -/
theorem setup_rep (hd : Dist ins own) (hu : Uniform ins hyper T) (ho : OwnMaps ins own owns)
    (ho1 : Orders ins.length o1) (ho2 : Orders ins.length o2) (co : Option (Gid → Coord)) :
    ∃ (gr : Nat → Graph) (GH : Nat → List Gid), setupAll ins co owns o1 o2 = .ok ((List.range ins.length).map gr) ∧
      ∀ p (hp : p < ins.length), PartRep (gr p) p ins.length ins[p] own (GH p) := by
  set n := ins.length with hn
  have hget : ∀ p (hp : p < n), ins.getD p ⟨true, [], [], []⟩ = ins[p] := by
    intro p hp; rw [List.getD_eq_getElem?_getD, List.getElem?_eq_getElem hp]; rfl
  have hins : ins = (List.range n).map (fun p => ins.getD p ⟨true, [], [], []⟩) := list_range ins _
  obtain ⟨g0, gr, GH, b1, b2, b3, b4⟩ := full_spec hd hu ho ho1 ho2
    (cs := fun p => co.map (fun f => (ins.getD p ⟨true, [], [], []⟩).verts.map f)) (by
      intro p hp l hl
      obtain ⟨f, -, rfl⟩ := Option.map_eq_some_iff.mp hl
      rw [hget p hp]; simp)
  rw [← hn] at b1 b2 b3 b4
  have e1 : (((List.range n).map g0).zip ins).mapM (fun x => x.1.giveCoords x.2.verts co) =
      .ok ((List.range n).map (fun p => { g0 p with coords := (co.map (fun f => (ins.getD p ⟨true, [], [], []⟩).verts.map f)).map Mem.ofList })) := by
    have : ((List.range n).map g0).zip ins = (List.range n).map (fun p => (g0 p, ins.getD p ⟨true, [], [], []⟩)) := by
      conv_lhs => rw [hins]
      exact zip_range _ _ _
    rw [this]
    apply mapM_range
    intro p hp
    rw [← b2 p hp]
    unfold Graph.giveCoords setCoordsOpt
    cases co <;> rfl
  refine ⟨fun p => (gr p).setOriginalOwners, GH, ?_, ?_⟩
  · unfold setupAll
    rw [b1, Outcome.bind_ok, e1, Outcome.bind_ok, b3, Outcome.bind_ok, List.map_map]
    rfl
  · intro p hp
    have hf := b4 p hp
    have hrep := hf.rep hp
    have hset : (gr p).setOriginalOwners =
        { gr p with originalOwners := some (Mem.ofList (List.replicate (gr p).numLocal (gr p).self)) } := by
      unfold Graph.setOriginalOwners
      simp only [hf.oo]
    simp only
    rw [hset]
    exact hrep.of_orig _

theorem rep_owner {g : Graph} {p n : Nat} {i : Input} {gh : List Gid} (h : PartRep g p n i own gh)
    (hl : ∀ v ∈ i.verts, own v = p) : ∀ v ∈ i.verts ++ gh,
      g.owner (getVertex ((i.verts ++ gh).idxOf v)) = .ok (own v : Int) := by
  intro v hv
  rw [owner_eq h.core.v h.owners hv]
  unfold ownerOf
  split
  · rename_i hm; rw [h.rank, hl v hm]
  · rfl

/-- **C51, vertices and hyperedge weights.**  Every part of every distributed graph: Zoltan gets the vertices of the part
with their ids, local ids and weights, and (hypergraphs) the hyperedges of type 0 with their ids, local ids and weights. -/
theorem c51_objects (hd : Dist ins own) (hu : Uniform ins hyper T) (ho : OwnMaps ins own owns)
    (ho1 : Orders ins.length o1) (ho2 : Orders ins.length o2) (co : Option (Gid → Coord)) (zid : Gid → Int) :
    ∃ gs, setupAll ins co owns o1 o2 = .ok gs ∧ gs.length = ins.length ∧
      ∀ p (h : p < gs.length) (hp : p < ins.length),
        zVertices gs[p] zid = .ok ⟨(List.range ins[p].verts.length).map (fun k : Nat => (k : Int)), ins[p].verts.map zid,
          vertWeights ins[p].verts ins[p].wgts⟩ ∧
        ∀ (_ : hyper = true) (ht : 0 < ins[p].types.length),
          zEdgeWeights gs[p] zid = .ok ⟨(List.range ins[p].types[0].pins.length).map (fun k : Nat => (k : Int)),
            ins[p].types[0].ids.map zid, ins[p].types[0].weights⟩ := by
  obtain ⟨gr, GH, e, hrep⟩ := setup_rep hd hu ho ho1 ho2 co
  refine ⟨_, e, by simp, ?_⟩
  intro p h hp
  simp only [List.getElem_map, List.getElem_range]
  have hr := hrep p hp
  have hi := List.getElem_mem (l := ins) hp
  have hwl := vertWeights_length ins[p].verts ins[p].wgts
  refine ⟨zVertices_eq hr.core hwl (fun k hk => weight_local hr.core.v hr.weights hk (by omega)), ?_⟩
  intro hh ht
  have hc := hr.core
  rw [hu.hyper _ hi, hh] at hc
  exact zEdgeWeights_eq hc ht

/-- **C51, hypergraph, exactly.**  On a part that has vertices and no remote pins in type 0, Zoltan gets every vertex with
the ids of its hyperedges.  On every other part the program writes or Zoltan reads outside the data. -/
theorem c51_hypergraph_exact (hd : Dist ins own) (hu : Uniform ins true T) (ho : OwnMaps ins own owns)
    (ho1 : Orders ins.length o1) (ho2 : Orders ins.length o2) (co : Option (Gid → Coord)) (zid : Gid → Int) :
    ∃ gs, setupAll ins co owns o1 o2 = .ok gs ∧ gs.length = ins.length ∧
      ∀ p (h : p < gs.length) (hp : p < ins.length) (ht : 0 < ins[p].types.length),
        ((ins[p].verts ≠ [] ∧ ∀ x ∈ ins[p].types[0].pins.flatten, own x = p) →
          zHyper gs[p] zid = .ok (ins[p].verts.map (fun v => (zid v, (incident ins[p].types[0] v).map zid)))) ∧
        (¬ (ins[p].verts ≠ [] ∧ ∀ x ∈ ins[p].types[0].pins.flatten, own x = p) → zHyper gs[p] zid = .ub) := by
  obtain ⟨gr, GH, e, hrep⟩ := setup_rep hd hu ho ho1 ho2 co
  refine ⟨_, e, by simp, ?_⟩
  intro p h hp ht
  simp only [List.getElem_map, List.getElem_range]
  have hr := hrep p hp
  have hi := List.getElem_mem (l := ins) hp
  have hc := hr.core
  rw [hu.hyper _ hi] at hc
  have hiff : (∀ x ∈ ins[p].types[0].pins.flatten, x ∈ ins[p].verts) ↔ ∀ x ∈ ins[p].types[0].pins.flatten, own x = p := by
    constructor
    · intro h1 x hx
      exact hd.verts p hp x (h1 x hx)
    · intro h1 x hx
      have hpx := hd.pins p hp x (by
        unfold Input.allPins
        rw [List.mem_flatten]
        exact ⟨_, List.mem_map.mpr ⟨_, List.getElem_mem ht, rfl⟩, hx⟩)
      obtain ⟨h3, h4⟩ := hpx
      have := h1 x hx
      simpa [this] using h4
  rw [← hiff, zHyper_eq hc ht]
  exact ⟨fun hc => if_pos hc, fun hc => if_neg hc⟩

/-- **C51, hypergraph (partial).**  Missing: parts with remote pins and parts without vertices, for which it is false
(`c51_hypergraph_exact`, `c51_remote_pin`, `c51_no_vertices`). -/
theorem c51_hypergraph_partial (hd : Dist ins own) (hu : Uniform ins true T) (ho : OwnMaps ins own owns)
    (ho1 : Orders ins.length o1) (ho2 : Orders ins.length o2) (co : Option (Gid → Coord)) (zid : Gid → Int)
    (hloc : ∀ p (hp : p < ins.length), ins[p].verts ≠ [] ∧ ∀ e ∈ ins[p].types, ∀ x ∈ e.pins.flatten, own x = p) :
    ∃ gs, setupAll ins co owns o1 o2 = .ok gs ∧ gs.length = ins.length ∧
      ∀ p (h : p < gs.length) (hp : p < ins.length) (ht : 0 < ins[p].types.length),
        zHyper gs[p] zid = .ok (ins[p].verts.map (fun v => (zid v, (incident ins[p].types[0] v).map zid))) := by
  obtain ⟨gs, e, hl, h⟩ := c51_hypergraph_exact hd hu ho ho1 ho2 co zid
  refine ⟨gs, e, hl, fun p h1 hp ht => (h p h1 hp ht).1 ⟨(hloc p hp).1, (hloc p hp).2 _ (List.getElem_mem ht)⟩⟩

/-- **C51, traditional graph (partial).**  Every part of every distributed traditional graph (self-loops included) whose
edges are listed by source: for every local vertex Zoltan gets the destinations of its edges of type 0 with their parts
and the weights of the edges.  Missing: other orders of the edges, for which the weights are wrong
(`c51_weights_permuted`, the defect of C08). -/
theorem c51_neighbours_partial (hd : Dist ins own) (hu : Uniform ins false T) (ho : OwnMaps ins own owns)
    (ho1 : Orders ins.length o1) (ho2 : Orders ins.length o2) (co : Option (Gid → Coord)) (zid : Gid → Int) :
    ∃ gs, setupAll ins co owns o1 o2 = .ok gs ∧ gs.length = ins.length ∧
      ∀ p (h : p < gs.length) (hp : p < ins.length) (ht : 0 < ins[p].types.length), BySource ins[p].verts ins[p].types[0] →
        ∀ u (hv : u < ins[p].verts.length), zEdges gs[p] zid u =
          .ok ((outEdges own ins[p].types[0] ins[p].verts[u]).map (fun x => (zid x.1, x.2))) := by
  obtain ⟨gr, GH, e, hrep⟩ := setup_rep hd hu ho ho1 ho2 co
  refine ⟨_, e, by simp, ?_⟩
  intro p h hp ht hb u hv
  simp only [List.getElem_map, List.getElem_range]
  have hr := hrep p hp
  have hi := List.getElem_mem (l := ins) hp
  have hc := hr.core
  rw [hu.hyper _ hi] at hc
  exact zEdges_eq hc ht (rep_owner hr (hd.verts p hp)) hb hv

theorem planned_inserts : ∀ L : List (Nat × Part), (L.map (·.1)).Nodup →
    (∀ l, planned l (L.map (fun x => PlanOp.insert x.1 x.2)) ≠ none ↔ l ∈ L.map (·.1)) ∧
    ∀ x ∈ L, planned x.1 (L.map (fun x => PlanOp.insert x.1 x.2)) = some x.2 := by
  intro L
  induction L with
  | nil => intro _; simp [planned]
  | cons y L ih =>
    intro hn
    simp only [List.map_cons, List.nodup_cons] at hn
    obtain ⟨h1, h2⟩ := ih hn.2
    constructor
    · intro l
      simp only [List.map_cons, planned, List.mem_cons]
      by_cases hl : l = y.1
      · simp [hl]
      · rw [if_neg hl, h1 l]; simp [hl]
    · intro x hx
      simp only [List.map_cons, planned]
      rcases List.mem_cons.mp hx with rfl | hx'
      · rw [if_pos rfl]
      · rw [if_neg, h2 x hx']
        intro hc
        exact hn.1 (hc ▸ List.mem_map.mpr ⟨x, hx', rfl⟩)

/-- **C51, the plan.**  Whatever lists of exported local vertices Zoltan returns, each vertex at most once and with parts
as destinations, the plan sends exactly these vertices there. -/
theorem c51_plan (g : Graph) (ex : List (Nat × Part)) (hl : ∀ x ∈ ex, x.1 < g.numLocal ∧ 0 ≤ x.2)
    (hn : (ex.map (·.1)).Nodup) :
    ∃ plan, zoltanPlan g ex = .ok plan ∧
      (∀ l, l < g.numLocal → g.planHas plan (getVertex l) = .ok (decide (l ∈ ex.map (·.1)))) ∧
      (∀ x ∈ ex, g.planGet plan (getVertex x.1) = .ok x.2) ∧
      plan.sending.Nodup ∧ ∀ h, h ∈ plan.sending ↔ ∃ l ∈ ex.map (·.1), h = getVertex l := by
  have hops : ∀ l d, PlanOp.insert l d ∈ ex.map (fun x => PlanOp.insert x.1 x.2) → l < g.numLocal ∧ d ≠ -1 := by
    intro l d h
    obtain ⟨x, hx, he⟩ := List.mem_map.mp h
    cases he
    have := hl x hx
    exact ⟨this.1, by omega⟩
  obtain ⟨plan, e, h1, h2, h3, h4⟩ := c16_plan_is_a_map g (ex.map (fun x => PlanOp.insert x.1 x.2)) hops
  have e' : zoltanPlan g ex = .ok plan := by
    rw [← e]
    unfold zoltanPlan Graph.planRun
    cases g.newPlan with
    | ok p0 =>
      simp only [Outcome.bind_ok]
      rw [List.foldlM_map]
      rfl
    | fail => rfl
    | ub => rfl
  obtain ⟨hp1, hp2⟩ := planned_inserts ex.reverse (by rw [List.map_reverse]; exact List.nodup_reverse.mpr hn)
  rw [List.map_reverse] at hp1 hp2
  have hmem : ∀ l, planned l (ex.map (fun x => PlanOp.insert x.1 x.2)).reverse ≠ none ↔ l ∈ ex.map (·.1) := by
    intro l; rw [hp1 l, List.map_reverse, List.mem_reverse]
  refine ⟨plan, e', ?_, ?_, h3, ?_⟩
  · intro l hlt
    rw [(h1 l hlt).1]
    congr 1
    rw [Bool.eq_iff_iff, decide_eq_true_iff, ← hmem l, Option.isSome_iff_ne_none]
  · intro x hx
    exact (h1 x.1 (hl x hx).1).2 _ (hp2 x (List.mem_reverse.mpr hx))
  · intro h
    rw [h4 h]
    constructor
    · rintro ⟨l, -, rfl, hl⟩
      exact ⟨l, (hmem l).mp hl, rfl⟩
    · rintro ⟨l, hl', rfl⟩
      obtain ⟨x, hx, rfl⟩ := List.mem_map.mp hl'
      exact ⟨x.1, (hl x hx).1, rfl, (hmem _).mpr hl'⟩

end

/-! ## cases and counterexamples -/

/-- two parts, no shared hyperedge -/
def apartWorld : List Input :=
  [⟨true, [1], [], [⟨[10], [[1]], []⟩]⟩, ⟨true, [2, 3], [2, 4], [⟨[11, 12], [[2, 3, 3], [3]], [5, 6]⟩]⟩]

theorem apart_dist : Dist apartWorld sampleOwn := by
  refine ⟨?_, ?_, ?_⟩
  · intro i hi
    simp only [apartWorld, List.mem_cons, List.not_mem_nil, or_false] at hi
    rcases hi with rfl | rfl
    · refine ⟨by decide, by decide, ?_⟩
      intro e he
      simp only [List.mem_cons, List.not_mem_nil, or_false] at he
      subst he
      exact ⟨rfl, .inl rfl, by decide⟩
    · refine ⟨by decide, by decide, ?_⟩
      intro e he
      simp only [List.mem_cons, List.not_mem_nil, or_false] at he
      subst he
      exact ⟨rfl, .inr rfl, by decide⟩
  · intro p hp
    have h1 : p = 0 ∨ p = 1 := by simp [apartWorld] at hp; omega
    have h2 : ∀ v ∈ (apartWorld[0]'(by decide)).verts, sampleOwn v = 0 := by decide
    have h3 : ∀ v ∈ (apartWorld[1]'(by decide)).verts, sampleOwn v = 1 := by decide
    rcases h1 with rfl | rfl
    · exact h2
    · exact h3
  · intro p hp
    have h1 : p = 0 ∨ p = 1 := by simp [apartWorld] at hp; omega
    have h2 : ∀ v ∈ (apartWorld[0]'(by decide)).allPins, ∃ h' : sampleOwn v < apartWorld.length, v ∈ apartWorld[sampleOwn v].verts := by decide
    have h3 : ∀ v ∈ (apartWorld[1]'(by decide)).allPins, ∃ h' : sampleOwn v < apartWorld.length, v ∈ apartWorld[sampleOwn v].verts := by decide
    rcases h1 with rfl | rfl
    · exact h2
    · exact h3

theorem two_owns {ins : List Input} (h : ins.length = 2) : OwnMaps ins sampleOwn sampleOwns := by
  refine ⟨by rw [h]; rfl, ?_⟩
  intro p hp h' v _ _
  have h1 : p = 0 ∨ p = 1 := by rw [h] at hp; omega
  rcases h1 with rfl | rfl <;> rfl

/-- a case of `c51_objects`, `c51_hypergraph_partial` with two parts -/
example : ∃ gs, setupAll apartWorld none sampleOwns twoOrder flipOrder = .ok gs ∧ gs.length = 2 ∧
    ∀ p (_ : p < gs.length) (hp : p < apartWorld.length) (ht : 0 < apartWorld[p].types.length),
      zHyper gs[p] id = .ok (apartWorld[p].verts.map (fun v => (id v, (incident apartWorld[p].types[0] v).map id))) :=
  c51_hypergraph_partial (T := 1) apart_dist ⟨by decide, by decide⟩ (two_owns rfl) orders_two.1 orders_two.2 none id (by
    intro p hp
    have h1 : p = 0 ∨ p = 1 := by simp [apartWorld] at hp; omega
    have h2 : (apartWorld[0]'(by decide)).verts ≠ [] ∧ ∀ e ∈ (apartWorld[0]'(by decide)).types, ∀ x ∈ e.pins.flatten, sampleOwn x = 0 := by decide
    have h3 : (apartWorld[1]'(by decide)).verts ≠ [] ∧ ∀ e ∈ (apartWorld[1]'(by decide)).types, ∀ x ∈ e.pins.flatten, sampleOwn x = 1 := by decide
    rcases h1 with rfl | rfl
    · exact h2
    · exact h3)

example : (do
    let gs ← setupAll apartWorld none sampleOwns twoOrder flipOrder
    let g ← rd gs 1
    let h ← zHyper g id
    let w ← zEdgeWeights g id
    let v ← zVertices g id
    return (h, w, v)) = Outcome.ok ([(2, [11]), (3, [11, 11, 12])], ⟨[0, 1], [11, 12], [5, 6]⟩, ⟨[0, 1], [2, 3], [2, 4]⟩) := by
  decide +kernel

example : ∃ gs, setupAll fileT none sampleOwns twoOrder flipOrder = .ok gs ∧ gs.length = 2 ∧
    ∀ p (_ : p < gs.length) (hp : p < fileT.length) (ht : 0 < fileT[p].types.length), BySource fileT[p].verts fileT[p].types[0] →
      ∀ u (_ : u < fileT[p].verts.length), zEdges gs[p] id u =
        .ok ((outEdges sampleOwn fileT[p].types[0] fileT[p].verts[u]).map (fun x => (id x.1, x.2))) :=
  c51_neighbours_partial (T := 2) fileT_dist ⟨by decide, by decide⟩ (two_owns rfl) orders_two.1 orders_two.2 none id

example : BySource [2, 3] ⟨[0, 1, 2], [[2, 1], [3, 2], [3, 1]], [2, 1, 3]⟩ ∧
    outEdges sampleOwn ⟨[0, 1, 2], [[2, 1], [3, 2], [3, 1]], [2, 1, 3]⟩ 3 = [(2, 1, 1), (1, 0, 3)] := by
  unfold BySource; decide

example : ∃ g plan, build 0 2 3 sampleH = .ok g ∧ zoltanPlan g [(1, 0), (0, 1)] = .ok plan ∧ plan.sending = [2, 1] := by
  refine ⟨_, _, rfl, rfl, rfl⟩

/-- **Defect** (C51, noted as inaccurate in the source): hyperedge 100 of part 0 has a pin on part 1; the number of pins
reported counts it, the list of the last vertex does not, and Zoltan reads past what was written. -/
theorem c51_remote_pin : (do
    let gs ← setupAll sampleWorld none sampleOwns twoOrder flipOrder
    let g ← rd gs 0
    zHyper g id) = .ub := by decide +kernel

/-- **Defect** (C51): a part without vertices writes `offsets[0]` of an array of length 0. -/
theorem c51_no_vertices : (do
    let g ← build 0 1 0 ⟨true, [], [], [⟨[], [], []⟩]⟩
    zHyper g id) = .ub := by decide +kernel

/-- **Defect** (C08 seen through C51): part 1 was given 2→1 with weight 2; Zoltan gets weight 1 for it. -/
theorem c51_weights_permuted : (do
    let gs ← setupAll fileT none sampleOwns twoOrder flipOrder
    let g ← rd gs 1
    zEdges g id 0) = .ok [(1, 0, 1)] ∧ outEdges sampleOwn ⟨[0, 1, 2], [[3, 2], [2, 1], [3, 1]], [1, 2, 3]⟩ 2 = [(1, 0, 2)] := by
  constructor
  · decide +kernel
  · decide

/-- **Defect** (C51): ids are converted to `ZOLTAN_ID_TYPE` (`unsigned int` by default) without a check; two vertices whose
ids differ by 2^32 are one vertex to Zoltan. -/
theorem c51_ids_clash : (do
    let g ← build 0 1 2 ⟨true, [1, 4294967297], [], [⟨[7], [[1, 4294967297]], []⟩]⟩
    zHyper g (fun v => v % 4294967296)) = .ok [(1, [7]), (1, [7])] := by decide +kernel

end Verif.Part
