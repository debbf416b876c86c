import Verif.Vtk.VtkLemmas
import Verif.Io.FileProps
/-!
# The file of a part of a hypergraph
-/
namespace Verif.Vtk
open Verif.Agi

/-! ## cells of two points -/

theorem cells_pairs (l : List (Nat × Nat)) : ∀ pre : List Nat,
    cellsFrom (pre ++ l.flatMap (fun x => [x.1, x.2])) pre.length ((List.range l.length).map (fun k => pre.length + 2 * (k + 1))) =
      l.map (fun x => [x.1, x.2]) := by
  induction l with
  | nil => intro pre; rfl
  | cons x l ih =>
    intro pre
    rw [List.length_cons, List.range_succ_eq_map, List.map_cons, List.map_map, cellsFrom]
    have := ih (pre ++ [x.1, x.2])
    rw [List.length_append] at this
    simp only [List.length_cons, List.length_nil] at this
    rw [List.map_cons]
    congr 1
    · simp
    · rw [← this, List.flatMap_cons, List.append_assoc]
      congr 1
      apply List.map_congr_left
      intro k _
      simp only [Function.comp]
      omega

/-- the files written: two points per cell -/
structure Lines (f : File) (l : List (Nat × Nat)) : Prop where
  conn : f.connectivity = l.flatMap (fun x => [x.1, x.2])
  offs : f.offsets = (List.range l.length).map (fun k => 2 * (k + 1))
  types : f.types = List.replicate l.length 3
  num : f.numCells = l.length

theorem Lines.cells {f : File} {l : List (Nat × Nat)} (h : Lines f l) : f.cells = l.map (fun x => [x.1, x.2]) := by
  unfold File.cells
  rw [h.conn, h.offs]
  have := cells_pairs l []
  simpa using this

theorem Lines.wf {f : File} {l : List (Nat × Nat)} (h : Lines f l) (hp : f.points.length = f.numPoints)
    (hin : ∀ x ∈ l, x.1 < f.numPoints ∧ x.2 < f.numPoints) (hpart : f.part.length = f.numPoints)
    (hve : ∀ l, f.vorE = some l → l.length = f.numPoints) (htag : ∀ l, f.tag = some l → l.length = f.numPoints) : f.WF := by
  refine ⟨hp, ?_, ?_, ?_, ?_, ?_, hpart, hve, htag⟩
  · rw [h.offs, h.num]; simp
  · rw [h.types, h.num]
  · rw [h.cells]
    intro c hc
    obtain ⟨x, -, rfl⟩ := List.mem_map.mp hc
    rfl
  · rw [h.cells, h.conn, List.flatMap_def]
  · rw [h.conn]
    intro i hi
    obtain ⟨x, hx, hi⟩ := List.mem_flatMap.mp hi
    have := hin x hx
    simp only [List.mem_cons, List.not_mem_nil, or_false] at hi
    rcases hi with rfl | rfl
    · exact this.1
    · exact this.2

theorem flat_one {α β : Type} (l : List α) (F : α → β) : l.flatMap (fun x => [F x]) = l.map F := by
  induction l with
  | nil => rfl
  | cons a l ih => rw [List.flatMap_cons, ih]; rfl

/-! ## the mean position -/

theorem foldl_coord (cs : List Coord) : ∀ a : Coord, cs.foldl addCoord a =
    (a.1 + (cs.map (fun c => c.1)).sum, a.2.1 + (cs.map (fun c => c.2.1)).sum, a.2.2 + (cs.map (fun c => c.2.2)).sum) := by
  induction cs with
  | nil => intro a; simp
  | cons x cs ih =>
    intro a
    rw [List.foldl_cons, ih]
    simp only [addCoord, List.map_cons, List.sum_cons, Prod.mk.injEq]
    refine ⟨?_, ?_, ?_⟩ <;> exact Rat.add_assoc _ _ _

theorem mean_eq (cs : List Coord) (h : cs ≠ []) : divCoord (cs.foldl addCoord (0, 0, 0)) (cs.length : Int) = some (mean cs) := by
  unfold divCoord mean
  have : 0 < cs.length := List.length_pos_iff.mpr h
  rw [if_neg (by omega), foldl_coord]
  simp

/-! ## the hypergraph file -/

section
variable {g : Graph} {V G : List Gid} {types : List EdgeInput} {own : Gid → Nat} {c : Gid → Coord} {p : Nat}

/-- the (edge number, pin) pairs of the pins of part `p` -/
def minePins (own : Gid → Nat) (p : Nat) (E : List (List Gid)) : List (Nat × Gid) :=
  (List.range E.length).flatMap (fun k => ((E.getD k []).filter (fun v => decide (own v = p))).map (fun v => (k, v)))

theorem VPart.known (h : VPart g true V G types own c p) {k : Nat} (hk : k < (types[0]'h.one).pins.length) :
    ∀ v ∈ (types[0]'h.one).pins[k], v ∈ V ++ G :=
  fun v hv => h.core.pins 0 h.one v (List.mem_flatten.mpr ⟨_, List.getElem_mem hk, hv⟩)

theorem getD_lt {α : Type} {l : List α} {k : Nat} (h : k < l.length) (d : α) : l.getD k d = l[k] := by
  rw [List.getD_eq_getElem?_getD, List.getElem?_eq_getElem h]; rfl

/-- printing something for each pin of the part -/
theorem ownedPins_eq {β : Type} (h : VPart g true V G types own c p) {out : Handle → Outcome (List β)} {F : Nat → Gid → List β}
    {k : Nat} (hk : k < (types[0]'h.one).pins.length)
    (hb : ∀ v ∈ (types[0]'h.one).pins[k], own v = p → out (getVertex ((V ++ G).idxOf v)) = .ok (F k v)) :
    ownedPins g (g.getEdge k 0) out = .ok (((types[0]'h.one).pins[k].filter (fun v => decide (own v = p))).flatMap (F k)) := by
  unfold ownedPins
  rw [eachPin_eq (F := fun v => if own v = p then F k v else []) h.core h.one hk]
  · congr 1
    generalize (types[0]'h.one).pins[k] = l
    induction l with
    | nil => rfl
    | cons a l ih =>
      rw [List.flatMap_cons, ih, List.filter_cons]
      by_cases hp : own a = p
      · simp [hp]
      · simp [hp]
  · intro v hv
    rw [h.owner (h.known hk v hv), Outcome.bind_ok, h.rank]
    by_cases hp : own v = p
    · rw [if_pos (by omega), if_pos hp]; exact hb v hv hp
    · rw [if_neg (by omega), if_neg hp]; rfl

theorem eachOwned_eq {β : Type} (h : VPart g true V G types own c p) {out : Handle → Handle → Outcome (List β)} {F : Nat → Gid → List β}
    (hb : ∀ k (hk : k < (types[0]'h.one).pins.length), ∀ v ∈ (types[0]'h.one).pins[k], own v = p →
      out (g.getEdge k 0) (getVertex ((V ++ G).idxOf v)) = .ok (F k v)) :
    eachEdge g (fun e => ownedPins g e (out e)) = .ok ((minePins own p (types[0]'h.one).pins).flatMap (fun x => F x.1 x.2)) := by
  rw [eachEdge_eq h.core h.one (F := fun k => (((types[0]'h.one).pins.getD k []).filter (fun v => decide (own v = p))).flatMap (F k))]
  · unfold minePins
    rw [List.flatMap_assoc]
    congr 2
    funext k
    rw [List.flatMap_map]
  · intro k hk
    rw [ownedPins_eq h hk (hb k hk), getD_lt hk]

theorem VPart.connectivity_eq (h : VPart g true V G types own c p) :
    connectivity g = .ok ((minePins own p (types[0]'h.one).pins).flatMap (fun x => [x.1 + V.length, (V ++ G).idxOf x.2])) := by
  unfold connectivity
  rw [if_pos h.core.hyp]
  apply eachOwned_eq h (out := fun e v => do
    let l ← edgeLid g e
    let k ← vidx v
    return [l + g.numLocal, k]) (F := fun k v => [k + V.length, (V ++ G).idxOf v])
  intro k hk v hv _
  unfold edgeLid
  rw [decode_getEdge (by rw [h.core.numTypes]; exact h.one)]
  simp only [Outcome.bind_ok, Outcome.pure_eq]
  rw [vidx_getVertex, Outcome.bind_ok, h.core.v.nl]

theorem VPart.marks_eq (h : VPart g true V G types own c p) :
    cellMarks g = .ok ((minePins own p (types[0]'h.one).pins).flatMap (fun _ => [()])) := by
  unfold cellMarks
  rw [if_pos h.core.hyp]
  exact eachOwned_eq h (out := fun _ _ => return [()]) (F := fun _ _ => [()]) (fun _ _ _ _ _ => rfl)

theorem VPart.numCells_eq (h : VPart g true V G types own c p) :
    getNumCells g = .ok (minePins own p (types[0]'h.one).pins).length := by
  unfold getNumCells
  rw [if_pos h.core.hyp, eachEdge_eq h.core h.one (F := fun k => ((types[0]'h.one).pins.getD k []).flatMap (fun v => [if own v = p then 1 else 0]))]
  · rw [Outcome.bind_ok]
    simp only [Outcome.pure_eq]
    congr 1
    unfold minePins
    generalize List.range (types[0]'h.one).pins.length = ks
    induction ks with
    | nil => rfl
    | cons k ks ih =>
      rw [List.flatMap_cons, List.sum_append, ih, List.flatMap_cons, List.length_append, List.length_map]
      congr 1
      generalize (types[0]'h.one).pins.getD k [] = l
      induction l with
      | nil => rfl
      | cons a l ih2 =>
        rw [List.flatMap_cons, List.sum_append, ih2, List.filter_cons]
        by_cases hp : own a = p
        · simp [hp]; omega
        · simp [hp]
  · intro k hk
    rw [eachPin_eq h.core h.one hk (F := fun v => [if own v = p then 1 else 0]), getD_lt hk]
    intro v hv
    rw [h.owner (h.known hk v hv), Outcome.bind_ok, h.rank]
    have : ((own v : Int) = (p : Int)) ↔ own v = p := by omega
    simp only [this, Outcome.pure_eq]

theorem VPart.points_eq (h : VPart g true V G types own c p) (hne : ∀ ps ∈ (types[0]'h.one).pins, ps ≠ []) :
    points g (Mem.ofList (G.map c)) = .ok (V.map (fun v => some (c v)) ++ (types[0]'h.one).pins.map (fun ps => some (mean (ps.map c)))) := by
  unfold points ownPoints
  rw [eachVertex_eq h.core.v (F := fun v => [c v]) (by
    intro v hv
    rw [h.coord v hv]; rfl), Outcome.bind_ok, if_pos h.core.hyp]
  rw [eachEdge_eq h.core h.one (F := fun k => [some (mean (((types[0]'h.one).pins.getD k []).map c))])]
  · rw [Outcome.bind_ok]
    simp only [Outcome.pure_eq]
    rw [flat_one, flat_one, List.map_map]
    congr 2
    · apply List.ext_getElem
      · simp
      · intro k h1 h2
        simp only [List.length_map, List.length_range] at h1
        simp [h1]
  · intro k hk
    unfold edgePoint
    rw [eachPin_eq h.core h.one hk (F := fun v => [c v]) (by
      intro v hv
      rw [h.pin (h.known hk v hv)]; rfl), Outcome.bind_ok, degreeE_hyper h.core h.one hk, Outcome.bind_ok]
    simp only [Outcome.pure_eq, Outcome.bind_ok]
    rw [getD_lt hk, flat_one]
    have := mean_eq ((types[0]'h.one).pins[k].map c) (by
      have := hne _ (List.getElem_mem hk)
      simpa using this)
    rw [List.length_map] at this
    rw [this]

theorem eachVertex_const {β : Type} (hv : VRep g V G) (b : β) : eachVertex g (fun _ => return [b]) = .ok (List.replicate V.length b) := by
  rw [eachVertex_eq hv (F := fun _ => [b]) (fun _ _ => rfl), flat_one]
  simp

theorem eachEdge_const {β : Type} (h : VPart g true V G types own c p) (b : β) :
    eachEdge g (fun _ => return [b]) = .ok (List.replicate (types[0]'h.one).pins.length b) := by
  rw [eachEdge_eq h.core h.one (F := fun _ => [b]) (fun _ _ => rfl), flat_one]
  simp

theorem VPart.tag_eq (h : VPart g true V G types own c p) (vals : Option (List Int)) (t : TagOn)
    (hok : TagOk vals t V.length (types[0]'h.one).pins.length) :
    tagData g (vals.map Mem.ofList) t = .ok (tagH vals t V.length (types[0]'h.one).pins.length) := by
  unfold tagData
  cases vals with
  | none => cases t <;> rfl
  | some d =>
    obtain ⟨hok1, hok2⟩ := hok d rfl
    have hV : t = .vtx → tagVerts g (Mem.ofList d) t = .ok (d.take V.length) := by
      intro ht
      have hl := hok1 ht
      unfold tagVerts
      rw [eachVertex_eq h.core.v (F := fun v => [d.getD (V.idxOf v) 0])]
      · congr 1
        rw [flat_one]
        apply List.ext_getElem
        · simp [hl]
        · intro k h1 h2
          simp only [List.length_map] at h1
          rw [List.getElem_map, List.getElem_take, (List.nodup_append.mp h.core.v.nodup).1.idxOf_getElem, getD_lt (by omega)]
      · intro v hv
        have hlt := List.idxOf_lt_length_of_mem hv
        rw [if_pos ht]
        unfold Graph.getVtxTag
        rw [vidx_getVertex, Outcome.bind_ok, List.idxOf_append_of_mem hv]
        rw [if_neg (by rw [h.core.v.nl]; omega), Mem.load_ofList (by omega), getD_lt (by omega)]
        rfl
    have hV' : t ≠ .vtx → tagVerts g (Mem.ofList d) t = .ok (List.replicate V.length (-1)) := by
      intro ht
      unfold tagVerts
      simp only [if_neg ht]
      exact eachVertex_const h.core.v _
    have hE : t = .edge 0 → tagEdges g (Mem.ofList d) t = .ok (d.take (types[0]'h.one).pins.length) := by
      intro ht
      have hl := hok2 ht
      unfold tagEdges
      rw [eachEdge_eq h.core h.one (F := fun k => [d.getD k 0])]
      · congr 1
        rw [flat_one]
        apply List.ext_getElem
        · simp [hl]
        · intro k h1 h2
          simp only [List.length_map, List.length_range] at h1
          rw [List.getElem_map, List.getElem_take, List.getElem_range, getD_lt (by omega)]
      · intro k hk
        rw [if_pos ht]
        unfold Graph.getEdgeTag
        rw [decode_getEdge (by rw [h.core.numTypes]; exact h.one), Outcome.bind_ok]
        simp only
        rw [Mem.load_ofList (by omega), getD_lt (by omega)]
        rfl
    have hE' : t ≠ .edge 0 → tagEdges g (Mem.ofList d) t = .ok (List.replicate (types[0]'h.one).pins.length (-1)) := by
      intro ht
      unfold tagEdges
      simp only [if_neg ht]
      exact eachEdge_const h _
    simp only [Option.map_some]
    rcases t with _ | _ | t
    · rw [if_neg (by simp)]; rfl
    · rw [if_pos (by simp), hV rfl, Outcome.bind_ok, if_pos h.core.hyp, hE' (by simp)]; rfl
    · rw [if_pos ⟨by simp, Or.inr h.core.hyp⟩, hV' (by simp), Outcome.bind_ok, if_pos h.core.hyp]
      cases t with
      | zero => rw [hE rfl]; rfl
      | succ t => rw [hE' (by simp)]; rfl

/-! ## what the graph shows -/

theorem VPart.gids {hyper : Bool} (h : VPart g hyper V G types own c p) : g.localGids = .ok V := by
  unfold Graph.localGids
  have hv := h.core.v
  rw [iterLoop_collect (F := fun v => v) (yields_verts hv) (by unfold Graph.bound; rw [hv.nl]; omega)]
  · simp
  · intro acc v hvm
    rw [globalID_eq hv (by simp [hvm]), Outcome.bind_ok]; rfl

theorem VPart.edgeViews {hyper : Bool} (h : VPart g hyper V G types own c p)
    (hs : hyper = false → ∀ x ∈ (types[0]'h.one).pins, ∃ u ∈ V, ∃ w, u ≠ w ∧ x = [u, w]) :
    g.edgeViews 0 = .ok ((Io.canon hyper V (types[0]'h.one)).map (HEdge.viewed own)) := by
  have hwf := h.core.wf _ (List.getElem_mem h.one)
  have hnd := (List.nodup_append.mp h.core.v.nodup).1
  have hlen := Io.canon_length (verts := V) hwf
  obtain ⟨it, e, hy⟩ := yields_edgeBegin h.core h.one
  obtain ⟨e', he', hr, -⟩ := h.core.typ 0 h.one
  have hb := bound_ge he'
  rw [hr.numE, hr.numP] at hb
  unfold Graph.edgeViews
  rw [e, Outcome.bind_ok]
  rw [iterLoop_collect (F := fun k => ((Io.canon hyper V (types[0]'h.one)).getD k ⟨0, [], 0⟩).viewed own) hy (by rw [List.length_range]; omega)]
  · congr 1
    apply List.ext_getElem
    · simp [hlen]
    · intro k h1 h2
      simp only [List.length_map] at h2
      rw [List.getElem_map, List.getElem_map, List.getElem_range, getD_lt h2]
  · intro acc k hk
    have hk' : k < (Io.canon hyper V (types[0]'h.one)).length := by rw [hlen]; exact List.mem_range.mp hk
    have hat := Io.edgeAt_canon h.core h.one hs hk'
    have hmem := Io.canon_pins hwf hnd hs (List.getElem_mem hk')
    have hkn : ∀ v ∈ (Io.canon hyper V (types[0]'h.one))[k].pins, v ∈ V ++ G := fun v hv =>
      h.core.pins 0 h.one v (List.mem_flatten.mpr ⟨_, hmem, hv⟩)
    have hle := (List.sublist_flatten_of_mem hmem).length_le
    have hp : g.pinView (g.getEdge k 0) = .ok ((Io.canon hyper V (types[0]'h.one))[k].pins.map (fun v => (v, (own v : Int)))) := by
      obtain ⟨itp, ep, hyp⟩ := hat.pins
      unfold Graph.pinView
      rw [ep, Outcome.bind_ok]
      apply iterLoop_collect hyp (by omega)
      intro acc v hv
      have := hkn v hv
      rw [show g.globalID (vh (V ++ G) v) = .ok v from globalID_eq h.core.v this, Outcome.bind_ok,
        show g.owner (vh (V ++ G) v) = .ok (own v : Int) from h.owner this, Outcome.bind_ok]
      rfl
    have hv : g.edgeView (g.getEdge k 0) = .ok ((Io.canon hyper V (types[0]'h.one))[k].viewed own) := by
      unfold Graph.edgeView
      rw [hat.id, Outcome.bind_ok, hat.w, Outcome.bind_ok, hp, Outcome.bind_ok]; rfl
    rw [hv, Outcome.bind_ok, getD_lt hk']; rfl

/-! ## the file -/

theorem tagH_length {vals : Option (List Int)} {t : TagOn} {nv ne : Nat} (h : TagOk vals t nv ne) :
    ∀ l, tagH vals t nv ne = some l → l.length = nv + ne := by
  intro l hl
  cases vals with
  | none => cases t <;> simp [tagH] at hl
  | some d =>
    obtain ⟨h1, h2⟩ := h d rfl
    rcases t with _ | _ | t
    · simp [tagH] at hl
    · have := h1 rfl
      simp only [tagH, Option.some.injEq] at hl
      subst hl
      simp [this]
    · cases t with
      | zero =>
        have := h2 rfl
        simp only [tagH, Option.some.injEq] at hl
        subst hl
        simp [this]
      | succ t =>
        simp only [tagH, Option.some.injEq] at hl
        subst hl
        simp

/-- **the file of a part of a hypergraph** -/
theorem VPart.file (h : VPart g true V G types own c p) (hne : ∀ ps ∈ (types[0]'h.one).pins, ps ≠ []) (vals : Option (List Int))
    (t : TagOn) (hok : TagOk vals t V.length (types[0]'h.one).pins.length) :
    ∃ f, writePart g (Mem.ofList (G.map c)) (vals.map Mem.ofList) t = .ok f ∧
      ShowsH f c vals t p V ((types[0]'h.one).edges.map (HEdge.viewed own)) := by
  have hwf := h.core.wf _ (List.getElem_mem h.one)
  have hEl : (types[0]'h.one).edges.length = (types[0]'h.one).pins.length := edges_length hwf
  have hEp : (types[0]'h.one).edges.map HEdge.pins = (types[0]'h.one).pins := edges_pins hwf
  unfold writePart countPoints partData vorE
  rw [h.numCells_eq, Outcome.bind_ok, if_pos h.core.hyp, numEdges_eq h.core h.one, Outcome.bind_ok, h.core.v.nl]
  simp only [Outcome.pure_eq, Outcome.bind_ok]
  rw [h.points_eq hne, Outcome.bind_ok, h.connectivity_eq, Outcome.bind_ok, h.marks_eq, Outcome.bind_ok]
  have c1 := eachVertex_const h.core.v g.self
  have c2 := eachEdge_const h g.self
  have c3 := eachVertex_const h.core.v 0
  have c4 := eachEdge_const h 1
  simp only [Outcome.pure_eq] at c1 c2 c3 c4
  simp only [if_pos h.core.hyp, c1, c2, c3, c4, Outcome.bind_ok]
  rw [h.tag_eq vals t hok, Outcome.bind_ok]
  refine ⟨_, rfl, ?_⟩
  set E := (types[0]'h.one).pins with hE
  have hmm : ∀ x ∈ minePins own p E, x.1 < E.length ∧ x.2 ∈ V := by
    intro x hx
    unfold minePins at hx
    obtain ⟨k, hk, hx⟩ := List.mem_flatMap.mp hx
    obtain ⟨v, hv, rfl⟩ := List.mem_map.mp hx
    rw [List.mem_range] at hk
    obtain ⟨hv1, hv2⟩ := List.mem_filter.mp hv
    rw [getD_lt hk] at hv1
    refine ⟨hk, ?_⟩
    rcases List.mem_append.mp (h.known hk v hv1) with h1 | h1
    · exact h1
    · exact absurd (of_decide_eq_true hv2) (h.theirs v h1)
  have hlines : ∀ f : File, f.connectivity = (minePins own p E).flatMap (fun x => [x.1 + V.length, (V ++ G).idxOf x.2]) →
      f.offsets = offsets ((minePins own p E).flatMap (fun _ => [()])) →
      f.types = ((minePins own p E).flatMap (fun _ => [()])).map (fun _ => 3) → f.numCells = (minePins own p E).length →
      Lines f ((minePins own p E).map (fun x => (x.1 + V.length, (V ++ G).idxOf x.2))) := by
    intro f h1 h2 h3 h4
    refine ⟨?_, ?_, ?_, ?_⟩
    · rw [h1, List.flatMap_map]
    · rw [h2, flat_one]; simp [offsets]
    · rw [h3, flat_one]; simp
    · rw [h4]; simp
  refine ⟨?_, ?_, ?_, ?_, ?_, ?_⟩
  · apply (hlines _ rfl rfl rfl rfl).wf
    · simp [hE]
    · intro x hx
      obtain ⟨y, hy, rfl⟩ := List.mem_map.mp hx
      obtain ⟨h1, h2⟩ := hmm y hy
      have := List.idxOf_lt_length_of_mem h2
      simp only
      rw [List.idxOf_append_of_mem h2]
      omega
    · simp
    · intro l hl
      simp only [Option.some.injEq] at hl
      subst hl
      simp
    · intro l hl
      have := tagH_length hok l hl
      exact this
  · simp only
    rw [List.map_map, ← hEp, List.map_map]
    congr 1
    apply List.map_congr_left
    intro e _
    simp [HEdge.viewed, Function.comp_def]
  · rw [(hlines _ rfl rfl rfl rfl).cells, List.map_map, List.map_map]
    have hpt : ∀ x ∈ minePins own p E, ((fun cell : List Nat => cell.map (fun i => (ptsH V ((types[0]'h.one).edges.map (HEdge.viewed own)))[i]?)) ∘
        (fun x : Nat × Nat => [x.1, x.2]) ∘ (fun x : Nat × Gid => (x.1 + V.length, (V ++ G).idxOf x.2))) x =
        [(types[0]'h.one).edges[x.1]?.map (fun e => Pt.edge e.id), some (Pt.vertex x.2)] := by
      intro x hx
      obtain ⟨h1, h2⟩ := hmm x hx
      have hlt := List.idxOf_lt_length_of_mem h2
      simp only [Function.comp, List.map_cons, List.map_nil, ptsH]
      rw [List.getElem?_append_right (by simp), List.length_map, Nat.add_sub_cancel, List.idxOf_append_of_mem h2,
        List.getElem?_append_left (by simpa using hlt), List.getElem?_map, List.getElem?_map, List.getElem?_map,
        List.getElem?_eq_getElem hlt, List.getElem_idxOf, Option.map_map]
      rfl
    refine (List.map_congr_left hpt).trans ?_
    unfold minePins
    rw [List.map_flatMap]
    have hr : (types[0]'h.one).edges = (List.range E.length).map (fun k => (types[0]'h.one).edges.getD k ⟨0, [], 0⟩) := by
      rw [← hEl]; exact list_range _ _
    rw [List.flatMap_map]
    conv => rhs; rw [hr, List.flatMap_map]
    apply List.flatMap_congr
    intro k hk
    have hk' := List.mem_range.mp hk
    have hke : k < (types[0]'h.one).edges.length := by omega
    have hpk : (types[0]'h.one).edges[k].pins = E[k] := by
      have : ((types[0]'h.one).edges.map HEdge.pins)[k]? = E[k]? := by rw [hEp]
      rw [List.getElem?_map, List.getElem?_eq_getElem hke, List.getElem?_eq_getElem hk'] at this
      exact Option.some.inj this
    rw [List.map_map, getD_lt hk', getD_lt hke]
    simp only [HEdge.viewed, hpk]
    rw [List.filter_map, List.map_map]
    have hfil : (E[k].filter (fun v => decide (own v = p))) = E[k].filter ((fun x : Gid × Part => decide (x.2 = (p : Int))) ∘ fun v => (v, (own v : Int))) := by
      apply List.filter_congr
      intro v _
      simp [Function.comp]
    rw [← hfil]
    apply List.map_congr_left
    intro v _
    simp [Function.comp, List.getElem?_eq_getElem hke]
  · simp [h.rank, hEl]
  · simp [hEl]
  · simp [hEl]

end

end Verif.Vtk
