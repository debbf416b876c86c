import Verif.Vtk.XmlProps
/-!
# C87 for constructed and migrated graphs: the pictures that lie on the disk show the hypergraph, as C61 says
-/
namespace Verif.Vtk
open Verif.Agi Verif.Part.Text Verif.Names

/-- the index and the files of the parts on the disk, each with its name, show the grids `fs`, part by part, as a reader of VTK files sees them -/
structure IsPicture (fs : List File) (D : (List Char × List Char) × List (List Char × List Char)) : Prop where
  len : D.2.length = fs.length
  names : (D.2.map Prod.fst).Nodup ∧ D.1.1 ∉ D.2.map Prod.fst
  grids : ∀ p (h1 : p < D.2.length) (h2 : p < fs.length), ∃ z, Document D.2[p].2 z ∧ IsGrid fs[p] z
  index : ∃ names arrs x, Document D.1.2 x ∧ IsIndex names arrs x ∧ names.map (resolve D.1.1) = D.2.map Prod.fst ∧
    ∀ f ∈ fs, (valueArrays f).map Prod.fst = arrs

/-- a prefix whose pictures can be read: short enough, without markup, at the root or without a directory -/
structure GoodPrefix (pre : List Char) (n : Nat) : Prop where
  short : ∀ r < n, pre.length + (dec r).length ≤ 251
  quotable : Quotable pre
  place : '/' ∉ pre ∨ pre.head? = some '/'

theorem isPicture_of {gs : List Graph} {vals : List (Option (List Int))} {t : TagOn} {o1 o2 : Nat → List Nat} {fs : List File} {hyper : Bool}
    (h : writeVTK gs (vals.map (Option.map Mem.ofList)) t o1 o2 = .ok fs) (hne : 0 < gs.length) (hl : fs.length = gs.length)
    (hg : ∀ g ∈ gs, g.isHyper = hyper) (ht : ∀ a ∈ vals, ∀ b ∈ vals, a.isSome = b.isSome) {pre : List Char} (hp : GoodPrefix pre gs.length) :
    ∃ D, vtkDisk gs (vals.map (Option.map Mem.ofList)) t o1 o2 pre = .ok D ∧ IsPicture fs D := by
  obtain ⟨idx, text, parts, names, arrs, x, e, hx, hi, h1, h2, h3, h4, h5⟩ := c87_picture_partial h hne hl
    (fun g h1 g' h2 => by rw [hg g h1, hg g' h2]) (by
      intro a ha b hb
      obtain ⟨a', ha', rfl⟩ := List.mem_map.mp ha
      obtain ⟨b', hb', rfl⟩ := List.mem_map.mp hb
      have := ht a' ha' b' hb'
      cases a' <;> cases b' <;> simp_all) hp.short hp.quotable hp.place
  refine ⟨_, e, h2, ⟨h3, h4⟩, fun p h6 h7 => (h5 p h6 h7).1, names, arrs, x, hx, hi, h1, ?_⟩
  intro f hf
  obtain ⟨p, hp', rfl⟩ := List.getElem_of_mem hf
  exact (h5 p (by omega) hp').2

/-- **C87 (hypergraphs as constructed, partial).**  Any number of parts and edge types, coordinates for the vertices, tags on all parts or on none, any
message orders, a good prefix: `writeVTK` leaves a picture on the disk - well-formed index and files, the index leading to the files - whose grids show every
vertex, hyperedge and pin of the hypergraph as C61 says.  Missing as in `c87_picture_partial`, and tags on some of the parts (`c87_some_tags`). -/
theorem c87_hypergraph_partial (hd : HDist H ins own) (hn : 0 < ins.length) (hH : 0 < H.length) (hm : OwnMaps ins own owns) (ho1 : Orders ins.length o1)
    (ho2 : Orders ins.length o2) (ho3 : Orders ins.length o3) (ho4 : Orders ins.length o4) {pre : List Char} (hp : GoodPrefix pre ins.length) :
    ∃ gs, setupAll ins (some c) owns o1 o2 = .ok gs ∧ ∀ vals t, TagsFit gs vals t → (∀ a ∈ vals, ∀ b ∈ vals, a.isSome = b.isSome) →
      ∃ D fs es, vtkDisk gs (vals.map (Option.map Mem.ofList)) t o3 o4 pre = .ok D ∧ IsPicture fs D ∧
        FilesH H[0] own c vals t gs fs (fun p => (ins.getD p ⟨true, [], [], []⟩).verts) es := by
  obtain ⟨gs, e, h⟩ := c61_hypergraph (c := c) hd hH hm ho1 ho2 ho3 ho4
  obtain ⟨gr, GH, e', hpf⟩ := Io.setup_full hd.dist (hdist_uniform hd) hm ho1 ho2 (by intro hc; cases hc) (some c)
  obtain rfl := Outcome.ok.inj (e'.symm.trans e)
  refine ⟨_, e, fun vals t hfit ht => ?_⟩
  obtain ⟨fs, es, hw, hF⟩ := h vals t hfit
  obtain ⟨D, hD, hP⟩ := isPicture_of (hyper := true) hw (by simpa using hn) hF.len (by
    intro g hg
    obtain ⟨p, hp', rfl⟩ := List.mem_map.mp hg
    have hp' := List.mem_range.mp hp'
    rw [(hpf p hp').1.rep.core.hyp, getD_lt hp', hd.hyper _ (List.getElem_mem hp')]) ht (by simpa using hp)
  exact ⟨D, fs, es, hD, hP, hF⟩

/-- **C87 (after migrations, partial).**  The same for a hypergraph with one edge type after any sequence of migrations. -/
theorem c87_after_migration_partial (h : Start es ins own owns o1 o2) (hn : 0 < ins.length) (rs : List Round)
    (hr : RoundsOk (allVerts ins) ins.length true own rs) (ho3 : Orders ins.length o3) (ho4 : Orders ins.length o4) {pre : List Char}
    (hp : GoodPrefix pre ins.length) :
    ∃ gs0 gs, setupAll ins (some c) owns o1 o2 = .ok gs0 ∧ migrateRounds gs0 rs = .ok gs ∧ ∀ vals t, TagsFit gs vals t →
      (∀ a ∈ vals, ∀ b ∈ vals, a.isSome = b.isSome) →
      ∃ D fs vs es', vtkDisk gs (vals.map (Option.map Mem.ofList)) t o3 o4 pre = .ok D ∧ IsPicture fs D ∧
        (∀ p, p < ins.length → (vs p).Nodup ∧ ∀ v, v ∈ vs p ↔ v ∈ allVerts ins ∧ placeAll own rs v = p) ∧
        FilesH es (placeAll own rs) c vals t gs fs vs es' := by
  obtain ⟨gs0, gs, e0, e1, hw⟩ := c61_after_migration (c := c) h rs hr ho3 ho4
  obtain ⟨-, gs0', gs', f0, f1, gr, I, GH, rfl, hdn⟩ := run_spec h (some c) rs hr
  obtain rfl := Outcome.ok.inj (f0.symm.trans e0)
  obtain rfl := Outcome.ok.inj (f1.symm.trans e1)
  refine ⟨_, _, e0, e1, fun vals t hfit ht => ?_⟩
  obtain ⟨fs, vs, es', hw, hv, hF⟩ := hw vals t hfit
  obtain ⟨D, hD, hP⟩ := isPicture_of (hyper := true) hw (by simpa using hn) hF.len (by
    intro g hg
    obtain ⟨p, hp', rfl⟩ := List.mem_map.mp hg
    have hp' := List.mem_range.mp hp'
    rw [(hdn p hp').inv.rep.core.hyp, (hdn p hp').hyper]) ht (by simpa using hp)
  exact ⟨D, fs, vs, es', hD, hP, hv, hF⟩

/-- **C87 (traditional graphs, partial).**  The picture is there and can be read, also where a grid has lines to points it does not have
(`c61_traditional_partial`). -/
theorem c87_traditional_partial (hd : Dist ins own) (hu : Uniform ins false T) (hn : 0 < ins.length) (hT : 0 < T) (hm : OwnMaps ins own owns)
    (hs : ∀ i ∈ ins, Io.SourcesLocal i) (ho1 : Orders ins.length o1)
    (ho2 : Orders ins.length o2) (ho3 : Orders ins.length o3) (ho4 : Orders ins.length o4) {pre : List Char} (hp : GoodPrefix pre ins.length) :
    ∃ gs, setupAll ins (some c) owns o1 o2 = .ok gs ∧ ∀ vals t, TagsFit gs vals t → (∀ a ∈ vals, ∀ b ∈ vals, a.isSome = b.isSome) →
      ∃ D fs, vtkDisk gs (vals.map (Option.map Mem.ofList)) t o3 o4 pre = .ok D ∧ IsPicture fs D ∧ fs.length = gs.length ∧
        ∀ p (h : p < gs.length) (h' : p < fs.length), ∃ vs ghosts es, gs[p].localGids = .ok vs ∧ Io.ghostGids gs[p] = .ok ghosts ∧
          gs[p].edgeViews 0 = .ok es ∧ ShowsT fs[p] c (vals.getD p none) t p vs ghosts es ∧
          (fs[p].WF ↔ ∀ e ∈ es, ∀ x ∈ e.pins, x.2 = (p : Int)) := by
  obtain ⟨gs, e, h⟩ := c61_traditional_partial (c := c) hd hu hT hm hs ho1 ho2 ho3 ho4
  obtain ⟨gr, GH, e', hpf⟩ := Io.setup_full hd hu hm ho1 ho2 (fun _ => hs) (some c)
  obtain rfl := Outcome.ok.inj (e'.symm.trans e)
  refine ⟨_, e, fun vals t hfit ht => ?_⟩
  obtain ⟨fs, hw, hl, hF⟩ := h vals t hfit
  obtain ⟨D, hD, hP⟩ := isPicture_of (hyper := false) hw (by simpa using hn) hl (by
    intro g hg
    obtain ⟨p, hp', rfl⟩ := List.mem_map.mp hg
    have hp' := List.mem_range.mp hp'
    rw [(hpf p hp').1.rep.core.hyp, getD_lt hp', hu.hyper _ (List.getElem_mem hp')]) ht (by simpa using hp)
  exact ⟨D, fs, hD, hP, hl, hF⟩

/-! ## the hypotheses are met -/

theorem sample_prefix : GoodPrefix "/tmp/pic".toList 2 := ⟨by decide +kernel, by unfold Quotable; decide, Or.inr (by decide)⟩

example : ∃ gs, setupAll sampleWorld (some lineCo) sampleOwns twoOrder flipOrder = .ok gs ∧ ∀ vals t, TagsFit gs vals t →
    (∀ a ∈ vals, ∀ b ∈ vals, a.isSome = b.isSome) →
    ∃ D fs es, vtkDisk gs (vals.map (Option.map Mem.ofList)) t flipOrder twoOrder "/tmp/pic".toList = .ok D ∧ IsPicture fs D ∧
      FilesH sampleHG[0] sampleOwn lineCo vals t gs fs (fun p => (sampleWorld.getD p ⟨true, [], [], []⟩).verts) es :=
  c87_hypergraph_partial sampleWorld_dist (by decide) (by decide) sampleStart.maps orders_two.1 orders_two.2 orders_two.2 orders_two.1 sample_prefix

example : ∃ gs0 gs, setupAll sampleWorld (some lineCo) sampleOwns twoOrder flipOrder = .ok gs0 ∧
    migrateRounds gs0 sampleRounds = .ok gs ∧ ∀ vals t, TagsFit gs vals t → (∀ a ∈ vals, ∀ b ∈ vals, a.isSome = b.isSome) →
      ∃ D fs vs es', vtkDisk gs (vals.map (Option.map Mem.ofList)) t flipOrder twoOrder "/tmp/pic".toList = .ok D ∧ IsPicture fs D ∧
        (∀ p, p < 2 → (vs p).Nodup ∧ ∀ v, v ∈ vs p ↔ v ∈ allVerts sampleWorld ∧ placeAll sampleOwn sampleRounds v = p) ∧
        FilesH [⟨100, [1, 2], 1⟩, ⟨101, [1], 1⟩, ⟨102, [2, 3], 1⟩] (placeAll sampleOwn sampleRounds) lineCo vals t gs fs vs es' :=
  c87_after_migration_partial sampleStart (by decide) sampleRounds Io.sampleRounds_ok orders_two.2 orders_two.1 sample_prefix

example : ∃ gs, setupAll Io.fileT (some lineCo) sampleOwns twoOrder flipOrder = .ok gs ∧ ∀ vals t, TagsFit gs vals t →
    (∀ a ∈ vals, ∀ b ∈ vals, a.isSome = b.isSome) →
      ∃ D fs, vtkDisk gs (vals.map (Option.map Mem.ofList)) t flipOrder twoOrder "/tmp/pic".toList = .ok D ∧ IsPicture fs D ∧ fs.length = gs.length ∧
        ∀ p (h : p < gs.length) (h' : p < fs.length), ∃ vs ghosts es, gs[p].localGids = .ok vs ∧ Io.ghostGids gs[p] = .ok ghosts ∧
          gs[p].edgeViews 0 = .ok es ∧ ShowsT fs[p] lineCo (vals.getD p none) t p vs ghosts es ∧
          (fs[p].WF ↔ ∀ e ∈ es, ∀ x ∈ e.pins, x.2 = (p : Int)) :=
  c87_traditional_partial (T := 2) Io.fileT_dist ⟨by decide, by decide⟩ (by decide) (by decide) fileT_maps Io.fileT_sources
    orders_two.1 orders_two.2 orders_two.2 orders_two.1 sample_prefix

/-- the tags of the picture of `sample_picture` are on all parts -/
example : ∀ a ∈ [some [(7 : Int)], some [8, 9]], ∀ b ∈ [some [(7 : Int)], some [8, 9]], a.isSome = b.isSome := by decide

/-! ## where it fails: tags on some of the parts -/

theorem arrays_part {gs : List Graph} {tags : List (Option (Mem Int))} {t : TagOn} {o1 o2 : Nat → List Nat} {fs : List File}
    (h : writeVTK gs tags t o1 o2 = .ok fs) {p : Nat} (hp : p < fs.length) :
    ∃ (h1 : p < gs.length) (h2 : p < tags.length), (valueArrays fs[p]).map Prod.fst = indexArrays gs[p].isHyper (tagged gs[p] tags[p] t) := by
  obtain ⟨gcs, -, ew⟩ := bind_ok_iff.mp h
  obtain ⟨hlen, hget⟩ := mapM_inv ew
  simp only [List.length_zip] at hlen
  refine ⟨by omega, by omega, ?_⟩
  have h3 : p < (gs.zip (gcs.zip tags)).length := by simp only [List.length_zip]; omega
  have := writePart_arrays (hget p h3 hp)
  simpa using this

/-- **C87 is false if a tag on the vertices is given on some parts only**: the files of two such parts have different arrays, so no index announces exactly
the arrays of all files - whatever the graph. -/
theorem c87_some_tags {gs : List Graph} {tags : List (Option (Mem Int))} {o1 o2 : Nat → List Nat} {fs : List File}
    (h : writeVTK gs tags .vtx o1 o2 = .ok fs) {p q : Nat} (hp : p < fs.length) (hq : q < fs.length)
    (ht : (tags[p]?.getD none).isSome ≠ (tags[q]?.getD none).isSome) :
    (valueArrays fs[p]).map Prod.fst ≠ (valueArrays fs[q]).map Prod.fst ∧ ∀ D, ¬ IsPicture fs D := by
  have key : (valueArrays fs[p]).map Prod.fst ≠ (valueArrays fs[q]).map Prod.fst := by
    obtain ⟨p1, p2, ep⟩ := arrays_part h hp
    obtain ⟨q1, q2, eq⟩ := arrays_part h hq
    rw [List.getElem?_eq_getElem p2, List.getElem?_eq_getElem q2, Option.getD_some, Option.getD_some] at ht
    rw [ep, eq]
    unfold indexArrays tagged
    intro hc
    have hm : (tagArr ∈ indexArrays gs[p].isHyper (tagged gs[p] tags[p] .vtx)) ↔ (tagArr ∈ indexArrays gs[q].isHyper (tagged gs[q] tags[q] .vtx)) := by
      unfold indexArrays tagged; rw [hc]
    have hi : ∀ hy tg, tagArr ∈ indexArrays hy tg ↔ tg = true := by
      intro hy tg
      have n1 : tagArr ≠ partArr := fun e => absurd (congrArg Arr.name e) (by decide)
      have n2 : tagArr ≠ kindArr := fun e => absurd (congrArg Arr.name e) (by decide)
      cases hy <;> cases tg <;> simp [indexArrays, n1, n2]
    rw [hi, hi] at hm
    unfold tagged at hm
    apply ht
    rw [Bool.eq_iff_iff]
    simpa using hm
  refine ⟨key, fun D hD => ?_⟩
  obtain ⟨names, arrs, x, -, -, -, ha⟩ := hD.index
  exact key ((ha _ (List.getElem_mem hp)).trans (ha _ (List.getElem_mem hq)).symm)

/-- the sample with a tag on part 0 only -/
example : ((written sampleWorld (some lineCo) sampleOwns [some (Mem.ofList [7]), none] .vtx) >>= fun fs => return fs.map (fun f => f.tag)) =
    .ok [some [7, -1, -1], none] := by decide +kernel

end Verif.Vtk
