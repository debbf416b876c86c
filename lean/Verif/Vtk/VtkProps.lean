import Verif.Vtk.VtkTrad
import Verif.Agi.MigWitness
import Mathlib.Data.List.Perm.Basic
/-!
# Property theorems C61: the files written by `writeVTK`
-/
namespace Verif.Vtk
open Verif.Agi

/-- the tags handed over have a value for each entity they are for, on every part -/
def TagsFit (gs : List Graph) (vals : List (Option (List Int))) (t : TagOn) : Prop :=
  vals.length = gs.length ∧ ∀ p (h : p < gs.length) (h' : p < vals.length) ne, gs[p].numLocalEdges 0 = .ok ne →
    TagOk vals[p] t gs[p].numLocal ne

/-- all parts write, from the parts -/
theorem writeVTK_range {n : Nat} {gr : Nat → Graph} {hyper : Bool} {V G : Nat → List Gid} {ty : Nat → List EdgeInput}
    {own : Gid → Nat} {c : Gid → Coord} (h : ∀ p, p < n → VPart (gr p) hyper (V p) (G p) (ty p) own c p)
    (hgo : ∀ p, p < n → ∀ v ∈ G p, own v < n ∧ v ∈ V (own v)) {o3 o4 : Nat → List Nat} (ho3 : Orders n o3) (ho4 : Orders n o4)
    (vals : List (Option (List Int))) (hl : vals.length = n) (t : TagOn) {F : Nat → File}
    (hF : ∀ p, p < n → writePart (gr p) (Mem.ofList ((G p).map c)) ((vals.getD p none).map Mem.ofList) t = .ok (F p)) :
    writeVTK ((List.range n).map gr) (vals.map (Option.map Mem.ofList)) t o3 o4 = .ok ((List.range n).map F) := by
  unfold writeVTK
  rw [ghostCoords_eq (fun p hp => (h p hp).core.v) (fun p hp => (h p hp).owns) (fun p hp => (h p hp).rank)
    (fun p hp => (h p hp).theirs) hgo (fun p hp => (h p hp).coord) ho3 ho4, Outcome.bind_ok]
  have hv : vals.map (Option.map Mem.ofList) = (List.range n).map (fun p => (vals.getD p none).map Mem.ofList) := by
    conv => lhs; rw [list_range vals none, List.map_map]
    rw [hl]; rfl
  rw [hv, zip_range, zip_range]
  exact mapM_range (fun p hp => hF p hp)

/-! ## pins over all parts -/

theorem split_flat {α β : Type} (key : α → Nat) (F : α → β) (n : Nat) (l : List α) (h : ∀ x ∈ l, key x < n) :
    ((List.range n).flatMap (fun p => (l.filter (fun x => decide (key x = p))).map F)).Perm (l.map F) := by
  induction l with
  | nil => simp
  | cons a l ih =>
    have ha := h a (by simp)
    have ih := ih (fun x hx => h x (by simp [hx]))
    have hp : key a ∈ List.range n := List.mem_range.mpr ha
    obtain ⟨s1, s2, e⟩ := List.mem_iff_append.mp hp
    have hnd := List.nodup_range (n := n)
    rw [e] at hnd
    have hn1 : key a ∉ s1 := fun hc => (List.nodup_append.mp hnd).2.2 _ hc _ (by simp) rfl
    have hn2 : key a ∉ s2 := (List.nodup_cons.mp (List.nodup_append.mp hnd).2.1).1
    have step : ∀ s : List Nat, key a ∉ s → s.flatMap (fun p => ((a :: l).filter (fun x => decide (key x = p))).map F) =
        s.flatMap (fun p => (l.filter (fun x => decide (key x = p))).map F) := by
      intro s hs
      apply List.flatMap_congr
      intro p hp
      rw [List.filter_cons_of_neg]
      simp only [decide_eq_true_eq]
      rintro rfl
      exact hs hp
    rw [e] at ih ⊢
    rw [List.flatMap_append, List.flatMap_cons, step s1 hn1, step s2 hn2, List.filter_cons_of_pos (by simp), List.map_cons, List.map_cons]
    rw [List.flatMap_append, List.flatMap_cons] at ih
    rw [List.cons_append]
    exact (List.perm_middle).trans (List.Perm.cons _ ih)

theorem filter_flat {α β : Type} (q : α → Bool) (f : α → List β) (l : List α) :
    (l.filter q).flatMap f = l.flatMap (fun x => if q x = true then f x else []) := by
  induction l with
  | nil => rfl
  | cons a l ih =>
    by_cases h : q a = true
    · rw [List.filter_cons_of_pos h, List.flatMap_cons, List.flatMap_cons, ih, if_pos h]
    · rw [List.filter_cons_of_neg h, List.flatMap_cons, ih, if_neg h, List.nil_append]

theorem flatMap_swap {α β : Type} (ps : List Nat) (l : List α) (f : Nat → α → List β) :
    (ps.flatMap (fun p => l.flatMap (f p))).Perm (l.flatMap (fun x => ps.flatMap (fun p => f p x))) := by
  induction l with
  | nil => simp
  | cons a l ih =>
    simp only [List.flatMap_cons]
    refine List.Perm.trans ?_ (List.Perm.append_left _ ih)
    exact (List.flatMap_append_perm ps _ _).symm

section
variable {H : List (List HEdge)} {es : List HEdge} {ins : List Input} {own : Gid → Nat} {owns : List (GMap Part)}
  {o1 o2 o3 o4 : Nat → List Nat} {c : Gid → Coord} {T : Nat}

/-- the files of a hypergraph: file `p` shows the vertices and the hyperedges of part `p`, and the lines of all files together
are the incidences of the hypergraph `E`, each once -/
structure FilesH (E : List HEdge) (own : Gid → Nat) (c : Gid → Coord) (vals : List (Option (List Int))) (t : TagOn)
    (gs : List Graph) (fs : List File) (vs : Nat → List Gid) (es : Nat → List EdgeView) : Prop where
  len : fs.length = gs.length
  read : ∀ p (h : p < gs.length), gs[p].localGids = .ok (vs p) ∧ gs[p].edgeViews 0 = .ok (es p)
  edges : ∀ p, p < gs.length → (es p).Perm ((E.filter (fun e => decide (∃ v ∈ e.pins, own v = p))).map (HEdge.viewed own))
  shows_ : ∀ p (h : p < fs.length), ShowsH fs[p] c (vals.getD p none) t p (vs p) (es p)
  once : ((List.range gs.length).flatMap (fun p => ((fs.getD p ⟨0, 0, [], [], [], [], [], none, none⟩).cells.map
      (fun cell => cell.map (fun i => (ptsH (vs p) (es p))[i]?))))).Perm
    (E.flatMap (fun e => e.pins.map (fun v => [some (Pt.edge e.id), some (Pt.vertex v)])))

theorem filesH_of {n : Nat} {gr : Nat → Graph} {V G : Nat → List Gid} {ty : Nat → List EdgeInput} {E : List HEdge}
    (h : ∀ p, p < n → VPart (gr p) true (V p) (G p) (ty p) own c p)
    (hgo : ∀ p, p < n → ∀ v ∈ G p, own v < n ∧ v ∈ V (own v)) (ho3 : Orders n o3) (ho4 : Orders n o4)
    (hE : ∀ p (hp : p < n), ((ty p)[0]'(h p hp).one).edges.Perm (E.filter (fun e => decide (∃ v ∈ e.pins, own v = p))))
    (hne : ∀ e ∈ E, e.pins ≠ []) (hown : ∀ e ∈ E, ∀ v ∈ e.pins, own v < n)
    (vals : List (Option (List Int))) (t : TagOn) (hfit : TagsFit ((List.range n).map gr) vals t) :
    ∃ fs es, writeVTK ((List.range n).map gr) (vals.map (Option.map Mem.ofList)) t o3 o4 = .ok fs ∧
      FilesH E own c vals t ((List.range n).map gr) fs V es := by
  obtain ⟨hl, hfit⟩ := hfit
  simp only [List.length_map, List.length_range] at hl hfit
  have hnep : ∀ p (hp : p < n), ∀ ps ∈ ((ty p)[0]'(h p hp).one).pins, ps ≠ [] := by
    intro p hp ps hps
    have hwf := (h p hp).core.wf _ (List.getElem_mem (h p hp).one)
    rw [← edges_pins hwf] at hps
    obtain ⟨e, he, rfl⟩ := List.mem_map.mp hps
    exact hne e (List.mem_filter.mp ((hE p hp).mem_iff.mp he)).1
  have hfile : ∀ p, p < n → ∃ f : File, ∃ hp : p < n, writePart (gr p) (Mem.ofList ((G p).map c)) ((vals.getD p none).map Mem.ofList) t = .ok f ∧
      ShowsH f c (vals.getD p none) t p (V p) (((ty p)[0]'(h p hp).one).edges.map (HEdge.viewed own)) := by
    intro p hp
    have hok : TagOk (vals.getD p none) t (V p).length ((ty p)[0]'(h p hp).one).pins.length := by
      have := hfit p hp (by omega) _ (by
        simp only [List.getElem_map, List.getElem_range]
        exact numEdges_eq (h p hp).core (h p hp).one)
      simp only [List.getElem_map, List.getElem_range] at this
      rw [getD_lt (by omega), ← (h p hp).core.v.nl]
      exact this
    obtain ⟨f, hf, hs⟩ := (h p hp).file (hnep p hp) _ t hok
    exact ⟨f, hp, hf, hs⟩
  obtain ⟨F, hF⟩ := choose_part hfile
  have he := writeVTK_range h hgo ho3 ho4 vals hl t (F := F) (fun p hp => (hF p hp).2.1)
  refine ⟨_, fun p => ((ty p).getD 0 ⟨[], [], []⟩).edges.map (HEdge.viewed own), he, ?_⟩
  have hg0 : ∀ p (hp : p < n), (ty p).getD 0 ⟨[], [], []⟩ = (ty p)[0]'(h p hp).one := fun p hp => getD_lt (h p hp).one _
  have hsh : ∀ p, p < n → ShowsH (F p) c (vals.getD p none) t p (V p) (((ty p).getD 0 ⟨[], [], []⟩).edges.map (HEdge.viewed own)) := by
    intro p hp
    rw [hg0 p hp]
    exact (hF p hp).2.2
  refine ⟨by simp, ?_, ?_, ?_, ?_⟩
  · intro p hp
    have hp' : p < n := by simpa using hp
    simp only [List.getElem_map, List.getElem_range]
    refine ⟨(h p hp').gids, ?_⟩
    rw [(h p hp').edgeViews (by intro hc; cases hc), hg0 p hp']
    rfl
  · intro p hp
    have hp' : p < n := by simpa using hp
    rw [hg0 p hp']
    exact (hE p hp').map _
  · intro p hp
    have hp' : p < n := by simpa using hp
    simp only [List.getElem_map, List.getElem_range]
    exact hsh p hp'
  · simp only [List.length_map, List.length_range]
    have e1 : (List.range n).flatMap (fun p => ((((List.range n).map F).getD p ⟨0, 0, [], [], [], [], [], none, none⟩).cells.map
        (fun cell => cell.map (fun i => (ptsH (V p) (((ty p).getD 0 ⟨[], [], []⟩).edges.map (HEdge.viewed own)))[i]?)))) =
        (List.range n).flatMap (fun p => ((ty p).getD 0 ⟨[], [], []⟩).edges.flatMap (fun e =>
          (e.pins.filter (fun v => decide (own v = p))).map (fun v => [some (Pt.edge e.id), some (Pt.vertex v)]))) := by
      apply List.flatMap_congr
      intro p hp
      have hp' := List.mem_range.mp hp
      rw [getD_range _ hp', (hsh p hp').cells, List.flatMap_map]
      apply List.flatMap_congr
      intro e _
      simp only [HEdge.viewed, List.filter_map, List.map_map]
      congr 1
      apply List.filter_congr
      intro v _
      simp [Function.comp]
    rw [e1]
    refine (List.Perm.flatMap_left _ (fun p hp => ?_) : List.Perm _ ((List.range n).flatMap (fun p => E.flatMap (fun e =>
          (e.pins.filter (fun v => decide (own v = p))).map (fun v => [some (Pt.edge e.id), some (Pt.vertex v)]))))).trans ?_
    · have hp' := List.mem_range.mp hp
      rw [hg0 p hp']
      refine ((hE p hp').flatMap_right _).trans (List.Perm.of_eq ?_)
      rw [filter_flat]
      apply List.flatMap_congr
      intro e _
      by_cases hc : ∃ v ∈ e.pins, own v = p
      · rw [if_pos (by simpa using hc)]
      · rw [if_neg (by simpa using hc)]
        symm
        rw [List.map_eq_nil_iff, List.filter_eq_nil_iff]
        intro v hv ho
        exact hc ⟨v, hv, of_decide_eq_true ho⟩
    · refine (flatMap_swap _ _ _).trans ?_
      refine List.Perm.flatMap_left _ (fun e he => ?_)
      exact split_flat own _ n e.pins (hown e he)

/-- **C61 (hypergraphs as constructed).**  Any number of parts and edge types, coordinates given for the vertices, a tag or
none: writing succeeds with any message orders; the file of every part is a proper grid that shows the part's vertices at
their coordinates and its hyperedges of type 0 at the mean position of all their pins - also of those on other parts -, and a
line for each pin the part owns; the lines of all files are the incidences of the hypergraph, each once. -/
theorem c61_hypergraph (hd : HDist H ins own) (hH : 0 < H.length) (hm : OwnMaps ins own owns) (ho1 : Orders ins.length o1)
    (ho2 : Orders ins.length o2) (ho3 : Orders ins.length o3) (ho4 : Orders ins.length o4) :
    ∃ gs, setupAll ins (some c) owns o1 o2 = .ok gs ∧ ∀ vals t, TagsFit gs vals t →
      ∃ fs es, writeVTK gs (vals.map (Option.map Mem.ofList)) t o3 o4 = .ok fs ∧
        FilesH H[0] own c vals t gs fs (fun p => (ins.getD p ⟨true, [], [], []⟩).verts) es := by
  obtain ⟨gr, GH, e, hpf⟩ := Io.setup_full hd.dist (hdist_uniform hd) hm ho1 ho2 (by intro hc; cases hc) (some c)
  refine ⟨_, e, fun vals t hfit => ?_⟩
  have hget : ∀ p (hp : p < ins.length), ins.getD p ⟨true, [], [], []⟩ = ins[p] := fun p hp => getD_lt hp _
  have hone : ∀ p, p < ins.length → 0 < (ins.getD p ⟨true, [], [], []⟩).types.length := by
    intro p hp; rw [hget p hp, hd.types p hp]; exact hH
  have hv : ∀ p, p < ins.length → VPart (gr p) true (ins.getD p ⟨true, [], [], []⟩).verts (GH p) (ins.getD p ⟨true, [], [], []⟩).types own c p := by
    intro p hp
    have hf := (hpf p hp).1
    have hhy : (ins.getD p ⟨true, [], [], []⟩).hyper = true := by rw [hget p hp]; exact hd.hyper _ (List.getElem_mem hp)
    have hc := hf.rep.core
    rw [hhy] at hc
    refine ⟨hc, hone p hp, hf.rep.owners, hf.rep.rank, hf.loc, ?_, hf.cval c rfl⟩
    intro v hv ho
    obtain ⟨h1, h2⟩ := (hf.rep.mem_ghosts v).mp hv
    rw [hget p hp] at h1 h2
    obtain ⟨h3, h4⟩ := hd.dist.pins p hp v h1
    exact h2 (by simpa [ho] using h4)
  refine filesH_of hv ?_ ho3 ho4 ?_ (hd.nonempty _ (List.getElem_mem hH)) (fun e he v hv => (hd.pins _ (List.getElem_mem hH) e he v hv).1) vals t hfit
  · intro p hp v hvg
    obtain ⟨h1, -⟩ := ((hpf p hp).1.rep.mem_ghosts v).mp hvg
    rw [hget p hp] at h1
    obtain ⟨h3, h4⟩ := hd.dist.pins p hp v h1
    exact ⟨h3, by rw [hget _ h3]; exact h4⟩
  · intro p hp
    have := hd.edges p hp 0 (by rw [hd.types p hp]; exact hH) hH
    simp only [hget p hp]
    exact this

/-- **C61 (after migrations).**  The same for a hypergraph with one edge type after any sequence of migrations, with the
vertices where they were moved. -/
theorem c61_after_migration (h : Start es ins own owns o1 o2) (rs : List Round)
    (hr : RoundsOk (allVerts ins) ins.length true own rs) (ho3 : Orders ins.length o3) (ho4 : Orders ins.length o4) :
    ∃ gs0 gs, setupAll ins (some c) owns o1 o2 = .ok gs0 ∧ migrateRounds gs0 rs = .ok gs ∧ ∀ vals t, TagsFit gs vals t →
      ∃ fs vs es', writeVTK gs (vals.map (Option.map Mem.ofList)) t o3 o4 = .ok fs ∧
        (∀ p, p < ins.length → (vs p).Nodup ∧ ∀ v, v ∈ vs p ↔ v ∈ allVerts ins ∧ placeAll own rs v = p) ∧
        FilesH es (placeAll own rs) c vals t gs fs vs es' := by
  obtain ⟨hG, gs0, gs, e0, e1, gr, I, GH, rfl, hdn⟩ := run_spec h (some c) rs hr
  refine ⟨_, _, e0, e1, fun vals t hfit => ?_⟩
  have hty : ∀ p, p < ins.length → ∃ e, (I p).types = [e] ∧ e.edges.Perm ((startG es ins own (some c)).on (placeAll own rs) p) := by
    intro p hp
    rcases (hdn p hp).inv.shape with ⟨-, e, he, hperm⟩ | ⟨-, he, -⟩
    · exact ⟨e, he, hperm⟩
    · have := (hdn p hp).one
      rw [he] at this; simp at this
  have hgh : ∀ p, p < ins.length → ∀ v ∈ GH p, v ∉ (I p).verts ∧ v ∈ allVerts ins := by
    intro p hp v hv
    obtain ⟨h1, h2⟩ := ((hdn p hp).inv.rep.mem_ghosts v).mp hv
    refine ⟨h2, ?_⟩
    obtain ⟨e, he, hperm⟩ := hty p hp
    have hwf := (hdn p hp).inv.rep.core.wf e (by rw [he]; simp)
    unfold Input.allPins at h1
    rw [he] at h1
    simp only [List.map_cons, List.map_nil, List.flatten_cons, List.flatten_nil, List.append_nil] at h1
    obtain ⟨E, hE, hvE⟩ := (edges_getElem_pins hwf v).mp h1
    exact hG.pins E (GG.mem_on.mp (hperm.mem_iff.mp hE)).1 v hvE
  have hv : ∀ p, p < ins.length → VPart (gr p) true (I p).verts (GH p) (I p).types (placeAll own rs) c p := by
    intro p hp
    have hd := hdn p hp
    have hc := hd.inv.rep.core
    rw [hd.hyper] at hc
    obtain ⟨ez, hz⟩ := hd.pv hG
    refine ⟨hc, by rw [hd.one]; omega, hd.inv.rep.owners, hd.inv.rep.rank, fun v hv => ((hd.inv.verts v).mp hv).2, ?_,
      fun v hv => hz.coord c rfl v hv⟩
    intro v hv ho
    obtain ⟨h1, h2⟩ := hgh p hp v hv
    exact h1 ((hd.inv.verts v).mpr ⟨h2, ho⟩)
  obtain ⟨fs, es', h1, h2⟩ := filesH_of hv (E := es) (by
    intro p hp v hvg
    obtain ⟨-, h2⟩ := hgh p hp v hvg
    have := hG.own v h2
    exact ⟨this, ((hdn _ this).inv.verts v).mpr ⟨h2, rfl⟩⟩) ho3 ho4 (by
    intro p hp
    obtain ⟨e, he, hperm⟩ := hty p hp
    simp only [he, List.getElem_cons_zero]
    exact hperm) hG.ne (fun e he v hv => hG.own v (hG.pins e he v hv)) vals t hfit
  exact ⟨fs, _, es', h1, fun p hp => ⟨(hdn p hp).nodup, (hdn p hp).inv.verts⟩, h2⟩

/-- **C61 (traditional graphs, partial).**  Writing succeeds; every part's file has a point per vertex and a line per edge of
type 0 between the numbers of its ends; it is a proper grid exactly if all ends belong to the part.  (Missing: the other
parts, where it is false, `c61_dangling`: the file has no points for ghosts.) -/
theorem c61_traditional_partial (hd : Dist ins own) (hu : Uniform ins false T) (hT : 0 < T) (hm : OwnMaps ins own owns)
    (hs : ∀ i ∈ ins, Io.SourcesLocal i) (ho1 : Orders ins.length o1)
    (ho2 : Orders ins.length o2) (ho3 : Orders ins.length o3) (ho4 : Orders ins.length o4) :
    ∃ gs, setupAll ins (some c) owns o1 o2 = .ok gs ∧ ∀ vals t, TagsFit gs vals t →
      ∃ fs, writeVTK gs (vals.map (Option.map Mem.ofList)) t o3 o4 = .ok fs ∧ fs.length = gs.length ∧
        ∀ p (h : p < gs.length) (h' : p < fs.length), ∃ vs ghosts es, gs[p].localGids = .ok vs ∧ Io.ghostGids gs[p] = .ok ghosts ∧
          gs[p].edgeViews 0 = .ok es ∧ ShowsT fs[p] c (vals.getD p none) t p vs ghosts es ∧
          (fs[p].WF ↔ ∀ e ∈ es, ∀ x ∈ e.pins, x.2 = (p : Int)) := by
  obtain ⟨gr, GH, e, hpf⟩ := Io.setup_full hd hu hm ho1 ho2 (fun _ => hs) (some c)
  refine ⟨_, e, fun vals t hfit => ?_⟩
  obtain ⟨hl, hfit⟩ := hfit
  simp only [List.length_map, List.length_range] at hl hfit
  have hget : ∀ p (hp : p < ins.length), ins.getD p ⟨true, [], [], []⟩ = ins[p] := fun p hp => getD_lt hp _
  have hv : ∀ p, p < ins.length → VPart (gr p) false (ins.getD p ⟨true, [], [], []⟩).verts (GH p) (ins.getD p ⟨true, [], [], []⟩).types own c p := by
    intro p hp
    have hf := (hpf p hp).1
    have hhy : (ins.getD p ⟨true, [], [], []⟩).hyper = false := by rw [hget p hp]; exact hu.hyper _ (List.getElem_mem hp)
    have hc := hf.rep.core
    rw [hhy] at hc
    refine ⟨hc, by rw [hget p hp, hu.types _ (List.getElem_mem hp)]; exact hT, hf.rep.owners, hf.rep.rank, hf.loc, ?_, hf.cval c rfl⟩
    intro v hv ho
    obtain ⟨h1, h2⟩ := (hf.rep.mem_ghosts v).mp hv
    rw [hget p hp] at h1 h2
    obtain ⟨h3, h4⟩ := hd.pins p hp v h1
    exact h2 (by simpa [ho] using h4)
  have hsrc : ∀ p (hp : p < ins.length), ∀ x ∈ ((ins.getD p ⟨true, [], [], []⟩).types[0]'(hv p hp).one).pins,
      ∃ u ∈ (ins.getD p ⟨true, [], [], []⟩).verts, ∃ w, u ≠ w ∧ x = [u, w] := by
    intro p hp
    have hi : ins.getD p ⟨true, [], [], []⟩ ∈ ins := by rw [hget p hp]; exact List.getElem_mem hp
    exact hs _ hi _ (List.getElem_mem _)
  have hfile : ∀ p, p < ins.length → ∃ f : File, ∃ hp : p < ins.length,
      writePart (gr p) (Mem.ofList ((GH p).map c)) ((vals.getD p none).map Mem.ofList) t = .ok f ∧
      ShowsT f c (vals.getD p none) t p (ins.getD p ⟨true, [], [], []⟩).verts (GH p)
        ((Io.canon false (ins.getD p ⟨true, [], [], []⟩).verts ((ins.getD p ⟨true, [], [], []⟩).types[0]'(hv p hp).one)).map (HEdge.viewed own)) ∧
      (f.WF ↔ ∀ e ∈ (Io.canon false (ins.getD p ⟨true, [], [], []⟩).verts ((ins.getD p ⟨true, [], [], []⟩).types[0]'(hv p hp).one)).map (HEdge.viewed own),
        ∀ x ∈ e.pins, x.2 = (p : Int)) := by
    intro p hp
    have hok : TagOk (vals.getD p none) t (ins.getD p ⟨true, [], [], []⟩).verts.length ((ins.getD p ⟨true, [], [], []⟩).types[0]'(hv p hp).one).pins.length := by
      have := hfit p hp (by omega) _ (by
        simp only [List.getElem_map, List.getElem_range]
        exact numEdges_eq (hv p hp).core (hv p hp).one)
      simp only [List.getElem_map, List.getElem_range] at this
      rw [getD_lt (by omega), ← (hv p hp).core.v.nl]
      exact this
    obtain ⟨f, h1, h2⟩ := (hv p hp).fileT (hsrc p hp) (Mem.ofList ((GH p).map c)) _ t hok
    exact ⟨f, hp, h1, h2⟩
  obtain ⟨F, hF⟩ := choose_part hfile
  have he := writeVTK_range hv (by
    intro p hp v hvg
    obtain ⟨h1, -⟩ := ((hpf p hp).1.rep.mem_ghosts v).mp hvg
    rw [hget p hp] at h1
    obtain ⟨h3, h4⟩ := hd.pins p hp v h1
    exact ⟨h3, by rw [hget _ h3]; exact h4⟩) ho3 ho4 vals hl t (F := F) (fun p hp => (hF p hp).2.1)
  refine ⟨_, he, by simp, ?_⟩
  intro p hp hp'
  have hp2 : p < ins.length := by simpa using hp
  simp only [List.getElem_map, List.getElem_range]
  obtain ⟨h0, -, h2, h3⟩ := hF p hp2
  exact ⟨_, _, _, (hv p hp2).gids, (hpf p hp2).1.ghostGids, (hv p hp2).edgeViews (fun _ => hsrc p hp2), h2, h3⟩

end

end Verif.Vtk
