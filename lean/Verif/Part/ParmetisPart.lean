import Verif.Part.ParmetisLemmas
import Verif.Part.SidesProps
/-!
# Lemmas: one part of a distributed hypergraph, as `EnGPar_ParMETIS` sees it
-/
namespace Verif.Part
open Verif.Agi

/-! ## specification -/

/-- two vertices share a hyperedge -/
def Sharing (es : List HEdge) (v w : Gid) : Prop := v ≠ w ∧ ∃ e ∈ es, v ∈ e.pins ∧ w ∈ e.pins

/-- the weight of the connection of two vertices: the hyperedges with both of them, with multiplicity -/
def pairWeight (es : List HEdge) (wt : HEdge → Int) (v w : Gid) : Int :=
  (es.map (fun e => (e.pins.count v : Int) * (e.pins.count w : Int) * wt e)).sum

/-- the arrays `A` are the compressed rows of the vertices `vs`: the row of `v` has each vertex `w` with `nbr v w`
once, with number `num w` and weight `ew v w`, and nothing else; the arrays have no other entries -/
structure CsrOf (A : PmInput) (vs : List Gid) (nbr : Gid → Gid → Prop) (num : Gid → Int) (ew : Gid → Gid → Int)
    (vw : Gid → Int) : Prop where
  rows : A.xadj.length = vs.length + 1
  first : A.xadj[0]? = some 0
  last : A.xadj[vs.length]? = some (A.adjncy.length : Int)
  ewgts : A.ewgts.length = A.adjncy.length
  vwgts : A.vwgts = vs.map vw
  row : ∀ u v, vs[u]? = some v → ∃ lo hi : Nat, A.xadj[u]? = some (lo : Int) ∧ A.xadj[u + 1]? = some (hi : Int) ∧
    lo ≤ hi ∧ hi ≤ A.adjncy.length ∧
    ((((A.adjncy.zip A.ewgts).take hi).drop lo).map Prod.fst).Nodup ∧
    ∀ x w, (x, w) ∈ ((A.adjncy.zip A.ewgts).take hi).drop lo ↔ ∃ v', nbr v v' ∧ x = num v' ∧ w = ew v v'

/-! ## from rows to arrays -/

theorem flat_slice (B : Nat → List (Int × Int)) (n u : Nat) (hu : u < n) :
    (((List.range n).flatMap B).take ((List.range (u + 1)).flatMap B).length).drop ((List.range u).flatMap B).length = B u ∧
    ((List.range (u + 1)).flatMap B).length ≤ ((List.range n).flatMap B).length ∧
    ((List.range u).flatMap B).length ≤ ((List.range (u + 1)).flatMap B).length := by
  have h1 : (List.range (u + 1)).flatMap B = (List.range u).flatMap B ++ B u := by
    rw [List.range_succ, List.flatMap_append]; simp
  obtain ⟨d, hd⟩ : ∃ d, n = (u + 1) + d := ⟨n - (u + 1), by omega⟩
  have h2 : (List.range n).flatMap B = (List.range (u + 1)).flatMap B ++ ((List.range d).map (fun x => u + 1 + x)).flatMap B := by
    rw [hd, List.range_add (n := u + 1), List.flatMap_append]
  refine ⟨?_, ?_, ?_⟩
  · rw [h2, List.take_left, h1, List.drop_left]
  · rw [h2, List.length_append]; omega
  · rw [h1, List.length_append]; omega

theorem csr_rows {vs : List Gid} {nbr : Gid → Gid → Prop} {num : Gid → Int} {ew : Gid → Gid → Int} {vw : Gid → Int}
    (rows : Nat → List (Int × Int)) (dist : List Int)
    (hrow : ∀ u v, vs[u]? = some v → ((rows u).map Prod.fst).Nodup ∧
      ∀ x w, (x, w) ∈ rows u ↔ ∃ v', nbr v v' ∧ x = num v' ∧ w = ew v v') :
    CsrOf ⟨dist, rowEnds rows vs.length, ((List.range vs.length).flatMap rows).map Prod.fst, vs.map vw,
      ((List.range vs.length).flatMap rows).map Prod.snd⟩ vs nbr num ew vw := by
  have hend : ∀ j, j ≤ vs.length → (rowEnds rows vs.length)[j]? = some (((List.range j).flatMap rows).length : Int) := by
    intro j hj
    unfold rowEnds
    rw [List.getElem?_map, List.getElem?_range (by omega)]; rfl
  refine ⟨by simp [rowEnds], ?_, ?_, ?_, rfl, ?_⟩
  · rw [hend 0 (by omega)]; simp
  · show (rowEnds rows vs.length)[vs.length]? = _
    rw [hend _ (Nat.le_refl _)]; simp
  · simp
  · intro u v hv
    obtain ⟨hu, -⟩ := List.getElem?_eq_some_iff.mp hv
    obtain ⟨h1, h2, h3⟩ := flat_slice rows vs.length u hu
    refine ⟨_, _, hend u (by omega), hend (u + 1) (by omega), h3, by rw [List.length_map]; exact h2, ?_⟩
    rw [show (((List.range vs.length).flatMap rows).map Prod.fst).zip (((List.range vs.length).flatMap rows).map Prod.snd) =
      (List.range vs.length).flatMap rows from by
        rw [List.zip_map', List.map_congr_left (g := id) (by intro a _; rfl), List.map_id], h1]
    exact hrow u v hv

/-! ## the entries of `run` -/

section
variable {g : Graph} {verts ghosts : List Gid} {types : List EdgeInput}

/-- the vertex of a handle -/
def gidOf (known : List Gid) (h : Handle) : Gid := known.getD (h - 1) 0

/-- the weight of an edge handle -/
def wtOf (g : Graph) (e : Handle) : Int :=
  match g.weightE e with
  | .ok q => truncD q
  | _ => 0

/-- the weight of an edge handle, not truncated -/
def wrOf (g : Graph) (e : Handle) : Rat :=
  match g.weightE e with
  | .ok q => q
  | _ => 0

theorem wtOf_trunc (g : Graph) (e : Handle) : wtOf g e = truncD (wrOf g e) := by
  unfold wtOf wrOf
  cases g.weightE e <;> first | rfl | exact (truncD_int 0).symm

/-- the row of a handle -/
def runOf (g : Graph) (known : List Gid) (t : Nat) (pins : List (List Gid)) (h : Handle) : List (Handle × Handle) :=
  (adjOf true known pins (gidOf known h)).flatMap (pinRun g known t pins)

theorem gidOf_vertex {known : List Gid} {l : Nat} (hl : l < known.length) : gidOf known (getVertex l) = known[l] := by
  simp [gidOf, getVertex, hl]

theorem gidOf_idx {known : List Gid} {v : Gid} (hv : v ∈ known) : gidOf known (getVertex (known.idxOf v)) = v := by
  rw [gidOf_vertex (List.idxOf_lt_length_of_mem hv), List.getElem_idxOf]

theorem mem_runOf (h : CRep g true verts ghosts types) {t : Nat} (ht : t < types.length) {u : Nat} (hu : u < verts.length)
    {x : Handle × Handle} : x ∈ runOf g (verts ++ ghosts) t types[t].pins (getVertex u) ↔
      ∃ i, ∃ hi : i < types[t].pins.length, verts[u] ∈ types[t].pins[i] ∧ ∃ w ∈ types[t].pins[i],
        x = (getVertex ((verts ++ ghosts).idxOf w), g.getEdge i t) := by
  unfold runOf
  rw [gidOf_vertex (by simp; omega), List.getElem_append_left hu, List.mem_flatMap]
  constructor
  · rintro ⟨i, hi, hx⟩
    obtain ⟨hil, hia⟩ := mem_adjOf_hyper.mp hi
    unfold pinRun at hx
    rw [List.getD_eq_getElem?_getD, List.getElem?_eq_getElem hil, Option.getD_some] at hx
    obtain ⟨w, hw, rfl⟩ := List.mem_map.mp hx
    exact ⟨i, hil, hia, w, hw, rfl⟩
  · rintro ⟨i, hil, hia, w, hw, rfl⟩
    refine ⟨i, mem_adjOf_hyper.mpr ⟨hil, hia⟩, ?_⟩
    unfold pinRun
    rw [List.getD_eq_getElem?_getD, List.getElem?_eq_getElem hil, Option.getD_some]
    exact List.mem_map.mpr ⟨w, hw, rfl⟩

theorem known_pin (h : CRep g true verts ghosts types) {t : Nat} (ht : t < types.length) {i : Nat}
    (hi : i < types[t].pins.length) {w : Gid} (hw : w ∈ types[t].pins[i]) : w ∈ verts ++ ghosts :=
  h.pins t ht w (List.mem_flatten.mpr ⟨_, List.getElem_mem hi, hw⟩)

/-- the neighbours by handle -/
theorem mem_others (h : CRep g true verts ghosts types) {t : Nat} (ht : t < types.length) {u : Nat} (hu : u < verts.length)
    {k : Handle} : k ∈ (others (runOf g (verts ++ ghosts) t types[t].pins) (getVertex u)).map Prod.fst ↔
      ∃ w, w ≠ verts[u] ∧ (∃ ps ∈ types[t].pins, verts[u] ∈ ps ∧ w ∈ ps) ∧ k = getVertex ((verts ++ ghosts).idxOf w) := by
  rw [List.mem_map]
  have hidx : (verts ++ ghosts).idxOf verts[u] = u := (idxOf_eq_iff h.v.nodup (by simp) hu).mpr rfl
  constructor
  · rintro ⟨x, hx, rfl⟩
    obtain ⟨h1, h2⟩ := List.mem_filter.mp hx
    obtain ⟨i, hi, hv, w, hw, rfl⟩ := (mem_runOf h ht hu).mp h1
    refine ⟨w, ?_, ⟨_, List.getElem_mem hi, hv, hw⟩, rfl⟩
    rintro rfl
    rw [hidx] at h2
    simp at h2
  · rintro ⟨w, hne, ⟨ps, hps, hv, hw⟩, rfl⟩
    obtain ⟨i, hi, rfl⟩ := List.mem_iff_getElem.mp hps
    refine ⟨(_, g.getEdge i t), List.mem_filter.mpr ⟨(mem_runOf h ht hu).mpr ⟨i, hi, hv, w, hw, rfl⟩, ?_⟩, rfl⟩
    simp only [decide_eq_true_eq]
    intro hc
    apply hne
    have := gidOf_idx (known_pin h ht hi hw)
    rw [hc, gidOf_vertex (by simp; omega), List.getElem_append_left hu] at this
    exact this.symm

theorem nbrSum_append (wt : Handle → Int) (A B : List (Handle × Handle)) (k : Handle) :
    nbrSum wt (A ++ B) k = nbrSum wt A k + nbrSum wt B k := by
  unfold nbrSum
  rw [List.filter_append, List.map_append, List.sum_append]

theorem sum_replicate_int (n : Nat) (x : Int) : (List.replicate n x).sum = (n : Int) * x := by
  induction n with
  | zero => simp
  | succ n ih => rw [List.replicate_succ, List.sum_cons, ih]; push_cast; ring

/-- the weight of a neighbour -/
theorem nbrSum_eq (h : CRep g true verts ghosts types) {t : Nat} (ht : t < types.length) {W : List Int}
    (hW : types[t].weights.map truncD = W) (hWl : W.length = types[t].pins.length) {u : Nat} (hu : u < verts.length) {w : Gid}
    (hwk : w ∈ verts ++ ghosts) (hne : w ≠ verts[u]) :
    nbrSum (wtOf g) (others (runOf g (verts ++ ghosts) t types[t].pins) (getVertex u)) (getVertex ((verts ++ ghosts).idxOf w)) =
      ((types[t].pins.zip W).map (fun e => (e.1.count verts[u] : Int) * (e.1.count w : Int) * e.2)).sum := by
  have hwt : ∀ i (hi : i < W.length), wtOf g (g.getEdge i t) = W[i] := by
    intro i hi
    unfold wtOf
    rw [weightE_eq h ht (k := i) (by rw [← hW, List.length_map] at hi; exact hi)]
    simp only [← hW, List.getElem_map]
  have hk : getVertex ((verts ++ ghosts).idxOf w) ≠ getVertex u := by
    intro hc
    apply hne
    have := gidOf_idx hwk
    rw [hc, gidOf_vertex (by simp; omega), List.getElem_append_left hu] at this
    exact this.symm
  have h1 : nbrSum (wtOf g) (others (runOf g (verts ++ ghosts) t types[t].pins) (getVertex u)) (getVertex ((verts ++ ghosts).idxOf w)) =
      nbrSum (wtOf g) (runOf g (verts ++ ghosts) t types[t].pins (getVertex u)) (getVertex ((verts ++ ghosts).idxOf w)) := by
    unfold nbrSum others
    rw [List.filter_filter]
    congr 2
    apply List.filter_congr
    intro x _
    by_cases hx : x.1 = getVertex ((verts ++ ghosts).idxOf w)
    · simp only [hx, decide_true, Bool.true_and]; simpa using hk
    · simp [hx]
  rw [h1]
  unfold runOf
  rw [gidOf_vertex (by simp; omega), List.getElem_append_left hu]
  -- one edge
  have hedge : ∀ i (hi : i < types[t].pins.length), nbrSum (wtOf g) (pinRun g (verts ++ ghosts) t types[t].pins i)
      (getVertex ((verts ++ ghosts).idxOf w)) = (types[t].pins[i].count w : Int) * W[i]'(by omega) := by
    intro i hi
    unfold pinRun
    rw [List.getD_eq_getElem?_getD, List.getElem?_eq_getElem hi, Option.getD_some]
    have key : ∀ (L : List Gid), (∀ x ∈ L, x ∈ verts ++ ghosts) →
        nbrSum (wtOf g) (L.map (fun v => (getVertex ((verts ++ ghosts).idxOf v), g.getEdge i t)))
          (getVertex ((verts ++ ghosts).idxOf w)) = (L.count w : Int) * W[i]'(by omega) := by
      intro L
      induction L with
      | nil => intro _; simp [nbrSum]
      | cons x L ih =>
        intro hL
        rw [List.map_cons, ← List.singleton_append, nbrSum_append, ih (fun y hy => hL y (by simp [hy])), List.count_cons]
        have hx : getVertex ((verts ++ ghosts).idxOf x) = getVertex ((verts ++ ghosts).idxOf w) ↔ x = w := by
          constructor
          · intro hc
            have h2 := gidOf_idx (hL x (by simp))
            rw [hc, gidOf_idx hwk] at h2
            exact h2.symm
          · rintro rfl; rfl
        by_cases hxw : x = w
        · subst hxw
          simp [nbrSum, hwt i (by omega)]
          ring
        · have : ¬ getVertex ((verts ++ ghosts).idxOf x) = getVertex ((verts ++ ghosts).idxOf w) := fun hc => hxw (hx.mp hc)
          simp [nbrSum, this, hxw]
    exact key _ (fun x hx => known_pin h ht hi hx)
  -- all edges
  have key : ∀ n, n ≤ types[t].pins.length →
      nbrSum (wtOf g) (((types[t].pins.zipIdx.take n).flatMap (fun p => List.replicate (p.1.count verts[u]) p.2)).flatMap
        (pinRun g (verts ++ ghosts) t types[t].pins)) (getVertex ((verts ++ ghosts).idxOf w)) =
      (((types[t].pins.zip W).take n).map (fun e => (e.1.count verts[u] : Int) * (e.1.count w : Int) * e.2)).sum := by
    intro n
    induction n with
    | zero => intro _; simp [nbrSum]
    | succ n ih =>
      intro hn
      have hz : n < types[t].pins.zipIdx.length := by simpa using hn
      have hz2 : n < (types[t].pins.zip W).length := by simp; omega
      rw [List.take_add_one, List.take_add_one, List.flatMap_append, List.flatMap_append, nbrSum_append, ih (by omega),
        List.map_append, List.sum_append, List.getElem?_eq_getElem hz, List.getElem?_eq_getElem hz2]
      congr 1
      simp only [Option.toList_some, List.flatMap_cons, List.flatMap_nil, List.append_nil, List.map_cons, List.map_nil,
        List.sum_cons, List.sum_nil, Int.add_zero, List.getElem_zipIdx, List.getElem_zip, Nat.zero_add]
      have hrep : ∀ c, nbrSum (wtOf g) ((List.replicate c n).flatMap (pinRun g (verts ++ ghosts) t types[t].pins))
          (getVertex ((verts ++ ghosts).idxOf w)) = (c : Int) * ((types[t].pins[n].count w : Int) * W[n]'(by omega)) := by
        intro c
        induction c with
        | zero => simp [nbrSum]
        | succ c ihc =>
          rw [List.replicate_succ, List.flatMap_cons, nbrSum_append, ihc, hedge n (by omega)]
          push_cast; ring
      rw [hrep]
      ring
  have h2 := key types[t].pins.length (Nat.le_refl _)
  rw [List.take_of_length_le (by simp), List.take_of_length_le (by simp)] at h2
  rw [← h2]
  congr 2

/-- the weight collected for a neighbour -/
theorem nbrAcc_eq (h : CRep g true verts ghosts types) {t : Nat} (ht : t < types.length) (hts : TruncSafe types[t].weights)
    {W : List Int} (hW : types[t].weights.map truncD = W) (hWl : W.length = types[t].pins.length) {u : Nat} (hu : u < verts.length)
    {w : Gid} (hwk : w ∈ verts ++ ghosts) (hne : w ≠ verts[u]) :
    nbrAcc (wrOf g) (others (runOf g (verts ++ ghosts) t types[t].pins) (getVertex u)) (getVertex ((verts ++ ghosts).idxOf w)) =
      ((types[t].pins.zip W).map (fun e => (e.1.count verts[u] : Int) * (e.1.count w : Int) * e.2)).sum := by
  rw [← nbrSum_eq h ht hW hWl hu hwk hne, nbrAcc_sum]
  · congr 1
    funext e
    exact (wtOf_trunc g e).symm
  · have hsub : ∀ x ∈ (others (runOf g (verts ++ ghosts) t types[t].pins) (getVertex u)).map (fun x => wrOf g x.2), x ∈ types[t].weights := by
      intro x hx
      obtain ⟨y, hy, rfl⟩ := List.mem_map.mp hx
      obtain ⟨i, hi, -, w, hw, rfl⟩ := (mem_runOf h ht hu).mp (List.mem_filter.mp hy).1
      have hl : i < types[t].weights.length := by
        have := congrArg List.length hW
        rw [List.length_map] at this
        omega
      unfold wrOf
      rw [weightE_eq h ht (k := i) hl]
      exact List.getElem_mem _
    rcases hts with hs | hs
    · exact .inl (fun x hx => hs x (hsub x hx))
    · exact .inr (fun x hx => hs x (hsub x hx))

/-- the facts the loops need -/
theorem pmFacts_hyper (h : CRep g true verts ghosts types) {t : Nat} (ht : t < types.length)
    (hne : ∀ p ∈ types[t].pins, p ≠ []) {own : Gid → Part} (ho : ORep g ghosts own) {slf : Part} (hslf : g.self = slf)
    (hown : ∀ v ∈ verts, own v = slf) (hgh : ∀ v ∈ ghosts, own v ≠ slf) {ws : List Wgt} (hws : g.weights = Mem.ofList ws)
    (hwl : ws.length = verts.length) (hWl : types[t].weights.length = types[t].pins.length) :
    PmFacts g t slf (fun k => own (gidOf (verts ++ ghosts) k)) (gidOf (verts ++ ghosts)) (wrOf g)
      (fun k => ws.getD (k - 1) 1) (runOf g (verts ++ ghosts) t types[t].pins) := by
  have hnl := h.v.nl
  obtain ⟨hb, -⟩ := pins_lt_bound' h ht
  have hdeg : ∀ v, (adjOf true (verts ++ ghosts) types[t].pins v).length ≤ types[t].pins.flatten.length := by
    intro v
    rw [adjOf_length]; unfold degOf; rw [if_pos rfl]; exact List.count_le_length
  have hrun : ∀ u (hu : u < verts.length), runOf g (verts ++ ghosts) t types[t].pins (getVertex u) =
      (adjOf true (verts ++ ghosts) types[t].pins verts[u]).flatMap (pinRun g (verts ++ ghosts) t types[t].pins) := by
    intro u hu
    unfold runOf
    rw [gidOf_vertex (by simp; omega), List.getElem_append_left hu]
  refine ⟨?_, ?_, ?_, ?_, ?_, ?_, ?_, ?_⟩
  · intro u hu
    rw [hnl] at hu
    refine ⟨_, fun e => ((types[t].pins.getD ((e - 1) / g.numTypes) []).map
      (fun v => getVertex ((verts ++ ghosts).idxOf v))), yields_edges_hyper h ht hu, ?_, ?_, ?_⟩
    · rw [List.length_map]
      have := hdeg verts[u]
      omega
    · intro e he
      obtain ⟨i, hi, rfl⟩ := List.mem_map.mp he
      obtain ⟨hil, -⟩ := mem_adjOf_hyper.mp hi
      have hti : (g.getEdge i t - 1) / g.numTypes = i := by
        have hnt : 0 < g.numTypes := by rw [h.numTypes]; omega
        unfold Graph.getEdge
        rw [Nat.add_sub_cancel, Nat.add_comm, Nat.add_mul_div_left _ _ hnt, Nat.div_eq_of_lt (by rw [h.numTypes]; exact ht), Nat.zero_add]
      simp only [hti]
      rw [List.getD_eq_getElem?_getD, List.getElem?_eq_getElem hil, Option.getD_some]
      refine ⟨yields_pins_hyper h ht hil, ?_⟩
      rw [List.length_map]
      have : types[t].pins[i].length ≤ types[t].pins.flatten.length := by
        rw [List.length_flatten]
        exact le_sum_of_mem (List.mem_map.mpr ⟨_, List.getElem_mem hil, rfl⟩)
      omega
    · rw [hrun u hu]
      congr 1
      rw [List.flatMap_map, List.map_flatMap]
      congr 1
      funext i
      have hti : (g.getEdge i t - 1) / g.numTypes = i := by
        have hnt : 0 < g.numTypes := by rw [h.numTypes]; omega
        unfold Graph.getEdge
        rw [Nat.add_sub_cancel, Nat.add_comm, Nat.add_mul_div_left _ _ hnt, Nat.div_eq_of_lt (by rw [h.numTypes]; exact ht), Nat.zero_add]
      unfold pinRun
      rw [hti, List.map_map]
      rfl
  · intro u hu
    rw [hnl] at hu
    obtain ⟨it, e1, hr⟩ := adjRun_vertex h ht hne hu
    rw [hrun u hu]
    exact ⟨it, e1, hr, adjRun_fuel h ht _⟩
  · intro u hu x hx
    rw [hnl] at hu
    obtain ⟨i, hi, -, w, hw, rfl⟩ := (mem_runOf h ht hu).mp hx
    have hk := known_pin h ht hi hw
    dsimp only
    rw [owner_eq h.v ho hk, gidOf_idx hk]
    congr 1
    unfold ownerOf
    split
    · rename_i hv; rw [hslf, hown _ hv]
    · rfl
  · intro u hu x hx
    rw [hnl] at hu
    obtain ⟨i, hi, -, w, hw, rfl⟩ := (mem_runOf h ht hu).mp hx
    have hk := known_pin h ht hi hw
    dsimp only
    rw [globalID_idx h.v (List.idxOf_lt_length_of_mem hk), gidOf_idx hk, List.getElem_idxOf]
  · intro u hu x hx
    rw [hnl] at hu
    obtain ⟨i, hi, -, w, hw, rfl⟩ := (mem_runOf h ht hu).mp hx
    dsimp only
    have hwe := weightE_eq h ht (k := i) (by omega)
    unfold wrOf
    rw [hwe]
  · intro u hu x hx hox
    rw [hnl] at hu
    obtain ⟨i, hi, -, w, hw, rfl⟩ := (mem_runOf h ht hu).mp hx
    have hk := known_pin h ht hi hw
    dsimp only at hox ⊢
    rw [gidOf_idx hk] at hox
    have hwv : w ∈ verts := by
      rcases List.mem_append.mp hk with h1 | h1
      · exact h1
      · exact absurd hox (hgh w h1)
    refine ⟨_, ?_, rfl⟩
    rw [hnl, List.idxOf_append_of_mem hwv]
    exact List.idxOf_lt_length_of_mem hwv
  · intro u hu
    rw [hnl] at hu
    rw [globalID_idx h.v (by simp; omega), gidOf_vertex (by simp; omega)]
  · intro u hu
    rw [hnl] at hu
    rw [weight_local h.v hws hu (by omega)]
    simp [getVertex, show u < ws.length by omega]

end
end Verif.Part
