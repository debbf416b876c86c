import Verif.Vtk.XmlLemmas
import Verif.Vtk.VtkWitness
import Verif.Io.NameProps
import Mathlib.Data.List.TakeWhile
/-!
# C87: the files of `writeVTK` are XML that says what C61 says, and the index leads to the files of the parts
-/
namespace Verif.Vtk
open Verif.Agi Verif.Part.Text Verif.Names

/-! ## the files of the parts -/

theorem isArray_of {a : Arr} {ws : List (List Char)} {as : List (List Char × List Char)} (h : Attrs a as) : IsArray a ws (.data "DataArray".toList as ws) :=
  ⟨as, h, rfl⟩

theorem points_reads (f : File) {rest : List Char} {xs : List Xml} (h : Reads rest xs) : ∃ p, IsArray pointArr (f.points.map pointWords).flatten p ∧
    Reads (pointsText f rest) (.elem "Points".toList [] [p] :: xs) := by
  refine ⟨_, isArray_of (as := [("NumberOfComponents".toList, "3".toList), ("type".toList, "Float64".toList), ("format".toList, "ascii".toList), ("Name".toList, "Points".toList)]) (by unfold Attrs; decide), ?_⟩
  unfold pointsText
  have hb : Reads (nl ++ ("<DataArray NumberOfComponents=\"3\" type=\"Float64\" format=\"ascii\" Name=\"Points\">".toList ++
      ((nl ++ (f.points.map pointLine).flatten ++ nl) ++ ("</DataArray>".toList ++ nl)))) [.data "DataArray".toList [("NumberOfComponents".toList, "3".toList), ("type".toList, "Float64".toList), ("format".toList, "ascii".toList), ("Name".toList, "Points".toList)] (f.points.map pointWords).flatten] :=
    reads_nl (reads_data (by decide) (by decide) (by decide) (reads_attrs (by decide))
      (safe_append (safe_append safe_nl (safe_flatten safe_point _)) safe_nl) (words_points _) (reads_nl (t := []) .nil))
  have := reads_elem (o := "<Points>".toList) (c := "</Points>".toList) (name := "Points".toList) (at_ := []) (attrs := []) (by decide) (by decide) (by decide) .nil hb (reads_nl h)
  simpa only [List.append_assoc] using this

/-- an array and the end of its line -/
theorem array_reads {o s : List Char} {a : Arr} {as : List (List Char × List Char)} {ws : List (List Char)} {rest : List Char} {xs : List Xml}
    (ho : o = ['<'] ++ "DataArray".toList ++ attrText as ++ ['>']) (hk : attrsOk as = true) (ha : Attrs a as) (hs : Safe s) (hw : words s = ws)
    (h : Reads rest xs) : ∃ x, IsArray a ws x ∧ Reads (o ++ (s ++ ("</DataArray>".toList ++ (nl ++ rest)))) (x :: xs) :=
  ⟨_, isArray_of ha, reads_data ho (by decide) (by decide) (reads_attrs hk) hs hw (reads_nl h)⟩

theorem words_pairs_nl (l : List Nat) : words (nl ++ pairLines l ++ nl) = (l.map Int.ofNat).map int := by
  rw [List.append_assoc, nl, words_space _ _ (by decide), words_pairs]
  simp [words, wordsFrom, Char.isWhitespace]

theorem words_spaces_nl (l : List Nat) : words (nl ++ spaceLines l ++ nl) = (l.map Int.ofNat).map int := by
  rw [List.append_assoc, nl, words_space _ _ (by decide), words_spaceLines]
  simp [words, wordsFrom, Char.isWhitespace]

theorem cells_reads (f : File) {rest : List Char} {xs : List Xml} (h : Reads rest xs) : ∃ c1 c2 c3,
    IsArray ⟨"Int32".toList, "connectivity".toList, none⟩ ((f.connectivity.map Int.ofNat).map int) c1 ∧
    IsArray ⟨"Int32".toList, "offsets".toList, none⟩ ((f.offsets.map Int.ofNat).map int) c2 ∧
    IsArray ⟨"UInt8".toList, "types".toList, none⟩ ((f.types.map Int.ofNat).map int) c3 ∧
    Reads (cellsText f rest) (.elem "Cells".toList [] [c1, c2, c3] :: xs) := by
  obtain ⟨c3, h3, r3⟩ := array_reads (o := "<DataArray type=\"UInt8\" Name=\"types\" format=\"ascii\">".toList) (s := nl ++ spaceLines f.types ++ nl)
    (a := ⟨"UInt8".toList, "types".toList, none⟩) (as := [("type".toList, "UInt8".toList), ("Name".toList, "types".toList), ("format".toList, "ascii".toList)])
    (by decide) (by decide) (by unfold Attrs; decide) (safe_append (safe_append safe_nl (safe_spaceLines _)) safe_nl) (words_spaces_nl _) (.nil)
  obtain ⟨c2, h2, r2⟩ := array_reads (o := "<DataArray type=\"Int32\" Name=\"offsets\" format=\"ascii\">".toList) (s := nl ++ spaceLines f.offsets ++ nl)
    (a := ⟨"Int32".toList, "offsets".toList, none⟩) (as := [("type".toList, "Int32".toList), ("Name".toList, "offsets".toList), ("format".toList, "ascii".toList)])
    (by decide) (by decide) (by unfold Attrs; decide) (safe_append (safe_append safe_nl (safe_spaceLines _)) safe_nl) (words_spaces_nl _) r3
  obtain ⟨c1, h1, r1⟩ := array_reads (o := "<DataArray type=\"Int32\" Name=\"connectivity\" format=\"ascii\">".toList) (s := nl ++ pairLines f.connectivity ++ nl)
    (a := ⟨"Int32".toList, "connectivity".toList, none⟩) (as := [("type".toList, "Int32".toList), ("Name".toList, "connectivity".toList), ("format".toList, "ascii".toList)])
    (by decide) (by decide) (by unfold Attrs; decide) (safe_append (safe_append safe_nl (safe_pairs _)) safe_nl) (words_pairs_nl _) r2
  refine ⟨c1, c2, c3, h1, h2, h3, ?_⟩
  have := reads_elem (o := "<Cells>".toList) (c := "</Cells>".toList) (name := "Cells".toList) (at_ := []) (attrs := []) (by decide) (by decide) (by decide) .nil (reads_nl r1) (reads_nl h)
  unfold cellsText
  simpa only [List.append_assoc, List.append_nil, List.nil_append] using this

theorem tag_reads (v : Option (List Int)) {rest : List Char} {xs : List Xml} (h : Reads rest xs) : ∃ vs,
    List.Forall₂ (fun a x => ∃ ws, ShowsInts a.2 ws ∧ IsArray a.1 ws x) (match v with | some l => [(tagArr, l)] | none => []) vs ∧
      Reads (tagText v rest) (vs ++ xs) := by
  cases v with
  | none => exact ⟨[], .nil, h⟩
  | some l =>
    obtain ⟨x, hx, r⟩ := array_reads (o := "<DataArray type=\"Int32\" Name=\"Tag\" NumberOfComponents=\"1\" format=\"ascii\">".toList) (s := nl ++ lines l)
      (a := tagArr) (as := [("type".toList, "Int32".toList), ("Name".toList, "Tag".toList), ("NumberOfComponents".toList, "1".toList), ("format".toList, "ascii".toList)])
      (by decide) (by decide) (by unfold Attrs; decide) (safe_append safe_nl (safe_lines _)) (words_lines_int _) h
    exact ⟨[x], .cons ⟨_, showsInts _, hx⟩ .nil, r⟩

theorem vorE_reads (v : Option (List Nat)) {rest : List Char} {xs : List Xml} (h : Reads rest xs) : ∃ vs,
    List.Forall₂ (fun a x => ∃ ws, ShowsInts a.2 ws ∧ IsArray a.1 ws x) (match v with | some l => [(kindArr, l.map Int.ofNat)] | none => []) vs ∧
      Reads (vorEText v rest) (vs ++ xs) := by
  cases v with
  | none => exact ⟨[], .nil, h⟩
  | some l =>
    obtain ⟨x, hx, r⟩ := array_reads (o := "<DataArray type=\"Int32\" Name=\"VorE\" NumberOfComponents=\"1\" format=\"ascii\">".toList) (s := nl ++ lines (l.map Int.ofNat))
      (a := kindArr) (as := [("type".toList, "Int32".toList), ("Name".toList, "VorE".toList), ("NumberOfComponents".toList, "1".toList), ("format".toList, "ascii".toList)])
      (by decide) (by decide) (by unfold Attrs; decide) (safe_append safe_nl (safe_lines _)) (words_lines_int _) h
    exact ⟨[x], .cons ⟨_, showsInts _, hx⟩ .nil, r⟩

/-- an element that ends here -/
theorem ends {o c name body t : List Char} {attrs : List (List Char × List Char)} {kids xs : List Xml} (ho : o = ['<'] ++ name ++ attrText attrs ++ ['>'])
    (hc : c = ['<', '/'] ++ name ++ ['>']) (hn : IsName name) (ha : attrsOk attrs = true) (hb : Reads body kids) (ht : Reads t xs) :
    Reads (o ++ (body ++ (c ++ t))) (.elem name attrs kids :: xs) := reads_elem ho hc hn (reads_attrs ha) hb ht

theorem tagText_append (v : Option (List Int)) (a b : List Char) : tagText v a ++ b = tagText v (a ++ b) := by
  cases v with
  | none => rfl
  | some l => unfold tagText; simp only [List.append_assoc]

theorem vorEText_append (v : Option (List Nat)) (a b : List Char) : vorEText v a ++ b = vorEText v (a ++ b) := by
  cases v with
  | none => rfl
  | some l => unfold vorEText; simp only [List.append_assoc]

theorem pointData_reads (f : File) {rest : List Char} {xs : List Xml} (h : Reads rest xs) : ∃ vs,
    List.Forall₂ (fun a x => ∃ ws, ShowsInts a.2 ws ∧ IsArray a.1 ws x) (valueArrays f) vs ∧
      Reads (pointDataText f rest) (.elem "PointData".toList [] vs :: xs) := by
  obtain ⟨v3, h3, r3⟩ := tag_reads f.tag (rest := []) (xs := []) .nil
  obtain ⟨v2, h2, r2⟩ := vorE_reads f.vorE r3
  obtain ⟨v1, h1, r1⟩ := array_reads (o := "<DataArray type=\"Int32\" Name=\"Part\" NumberOfComponents=\"1\" format=\"ascii\">".toList) (s := nl ++ lines f.part)
      (a := partArr) (as := [("type".toList, "Int32".toList), ("Name".toList, "Part".toList), ("NumberOfComponents".toList, "1".toList), ("format".toList, "ascii".toList)])
      (by decide) (by decide) (by unfold Attrs; decide) (safe_append safe_nl (safe_lines _)) (words_lines_int _) r2
  rw [List.append_nil] at r1
  refine ⟨v1 :: (v2 ++ v3), ?_, ?_⟩
  · unfold valueArrays
    rw [List.append_assoc]
    exact .cons ⟨_, showsInts _, h1⟩ (List.rel_append h2 h3)
  · have := ends (o := "<PointData>".toList) (c := "</PointData>".toList) (name := "PointData".toList) (attrs := []) (by decide) (by decide) (by decide) (by decide) (reads_nl r1) (reads_nl h)
    unfold pointDataText
    simpa only [List.append_assoc, vorEText_append, tagText_append, List.nil_append] using this

theorem pointsText_append (f : File) (a b : List Char) : pointsText f a ++ b = pointsText f (a ++ b) := by
  unfold pointsText; simp only [List.append_assoc]

theorem cellsText_append (f : File) (a b : List Char) : cellsText f a ++ b = cellsText f (a ++ b) := by
  unfold cellsText; simp only [List.append_assoc]

theorem pointDataText_append (f : File) (a b : List Char) : pointDataText f a ++ b = pointDataText f (a ++ b) := by
  unfold pointDataText; simp only [List.append_assoc, vorEText_append, tagText_append]

theorem piece_open (f : File) : pieceOpen f = ['<'] ++ "Piece".toList ++
    attrText [("NumberOfPoints".toList, int f.numPoints), ("NumberOfCells".toList, int f.numCells)] ++ ['>'] := by
  unfold pieceOpen
  generalize int f.numPoints = a
  generalize int f.numCells = b
  simp [attrText]

theorem piece_attrs (f : File) : ReadsAttrs (attrText [("NumberOfPoints".toList, int f.numPoints), ("NumberOfCells".toList, int f.numCells)])
    [("NumberOfPoints".toList, int f.numPoints), ("NumberOfCells".toList, int f.numCells)] := by
  have h : ∀ i : Int, ∀ c ∈ int i, c ≠ '"' ∧ c ≠ '<' ∧ c ≠ '&' := by
    intro i c hc
    obtain ⟨-, h1, h2, h3⟩ := (int_plain i).1 c hc
    exact ⟨h3, h1, h2⟩
  refine .cons (n := "NumberOfPoints".toList) (by decide) (h f.numPoints) ?_ (.cons (n := "NumberOfCells".toList) (by decide) (h f.numCells) (by simp) .nil)
  intro a ha
  rw [List.mem_singleton.mp ha]
  show "NumberOfCells".toList ≠ "NumberOfPoints".toList
  decide

/-- **C87 (files of the parts).**  Whatever its numbers, the `.vtu` file of a part is well-formed XML, and it is the unstructured grid `f` with the arrays
C61 speaks of. -/
theorem c87_grid (f : File) : ∃ x, Document (vtuText f) x ∧ IsGrid f x := by
  obtain ⟨vs, hvs, r4⟩ := pointData_reads f (rest := []) (xs := []) .nil
  obtain ⟨c1, c2, c3, h1, h2, h3, r3⟩ := cells_reads f r4
  obtain ⟨p, hp, r2⟩ := points_reads f r3
  refine ⟨_, ?_, int f.numPoints, int f.numCells, _, _, _, _, p, c1, c2, c3, vs, int_spells _, int_spells _, showsPoints _, showsInts _, showsInts _, showsInts _, hp, h1, h2, h3, hvs, rfl⟩
  have e1 := reads_elem (o := pieceOpen f) (c := "</Piece>".toList) (t := nl) (xs := []) (piece_open f) (by decide) (by decide) (piece_attrs f) (reads_nl r2) (reads_nl (t := []) .nil)
  have e2 := ends (o := "<UnstructuredGrid>".toList) (c := "</UnstructuredGrid>".toList) (name := "UnstructuredGrid".toList) (attrs := []) (t := nl) (xs := []) (by decide) (by decide)
    (by decide) (by decide) (reads_nl e1) (reads_nl (t := []) .nil)
  have e3 := ends (o := "<VTKFile type=\"UnstructuredGrid\">".toList) (c := "</VTKFile>".toList) (name := "VTKFile".toList) (attrs := [("type".toList, "UnstructuredGrid".toList)]) (t := nl) (xs := [])
    (by decide) (by decide) (by decide) (by decide) (reads_nl e2) (reads_nl (t := []) .nil)
  unfold Document vtuText
  simpa only [List.append_assoc, pointsText_append, cellsText_append, pointDataText_append, List.nil_append] using e3

/-! ## the index -/

/-- a name that can stand in the index -/
def Quotable (n : List Char) : Prop := ∀ c ∈ n, c ≠ '"' ∧ c ≠ '<' ∧ c ≠ '&'

theorem sources_reads (names : List (List Char)) (hq : ∀ n ∈ names, Quotable n) {rest : List Char} {xs : List Xml} (h : Reads rest xs) :
    Reads (sourcesText names rest) (names.map (fun n => Xml.elem "Piece".toList [("Source".toList, n)] []) ++ xs) := by
  induction names with
  | nil => exact h
  | cons n ns ih =>
    refine reads_empty (name := "Piece".toList) (at_ := attrText [("Source".toList, n)]) ?_ (by decide) (.cons (n := "Source".toList) (by decide) (hq n (by simp)) (by simp) .nil)
      (reads_nl (ih (fun m hm => hq m (by simp [hm]))))
    unfold sourceText
    simp [attrText]

theorem sourcesText_append (names : List (List Char)) (a b : List Char) : sourcesText names a ++ b = sourcesText names (a ++ b) := by
  induction names with
  | nil => rfl
  | cons n ns ih => simp only [sourcesText, List.append_assoc, ih]

theorem announce_reads {o : List Char} {a : Arr} {as : List (List Char × List Char)} {rest : List Char} {xs : List Xml}
    (ho : o = ['<'] ++ "PDataArray".toList ++ attrText as ++ ['/', '>']) (hk : attrsOk as = true) (ha : Attrs a as)
    (h : Reads rest xs) : ∃ x, Announces a x ∧ Reads (o ++ (nl ++ rest)) (x :: xs) :=
  ⟨_, ⟨as, ha, rfl⟩, reads_empty ho (by decide) (reads_attrs hk) (reads_nl h)⟩

/-- the arrays of an index -/
def indexArrays (hyper tagged : Bool) : List Arr := [partArr] ++ (if hyper then [kindArr] else []) ++ (if tagged then [tagArr] else [])

theorem pPointData_reads (hyper tagged : Bool) {rest : List Char} {xs : List Xml} (h : Reads rest xs) : ∃ vs, List.Forall₂ Announces (indexArrays hyper tagged) vs ∧
    Reads (pPointDataText hyper tagged rest) (.elem "PPointData".toList [] vs :: xs) := by
  obtain ⟨v3, h3, r3⟩ : ∃ vs, List.Forall₂ Announces (if tagged then [tagArr] else []) vs ∧
      Reads ((if tagged then "<PDataArray type=\"Int32\" Name=\"Tag\" NumberOfComponents=\"1\" format=\"ascii\"/>".toList ++ nl else []) ++ []) vs := by
    cases tagged with
    | false => exact ⟨[], .nil, .nil⟩
    | true =>
      obtain ⟨x, hx, r⟩ := announce_reads (o := "<PDataArray type=\"Int32\" Name=\"Tag\" NumberOfComponents=\"1\" format=\"ascii\"/>".toList) (a := tagArr)
        (as := [("type".toList, "Int32".toList), ("Name".toList, "Tag".toList), ("NumberOfComponents".toList, "1".toList), ("format".toList, "ascii".toList)])
        (by decide) (by decide) (by unfold Attrs; decide) .nil
      exact ⟨[x], .cons hx .nil, by simpa only [if_true, List.append_nil] using r⟩
  rw [List.append_nil] at r3
  obtain ⟨v2, h2, r2⟩ : ∃ vs, List.Forall₂ Announces (if hyper then [kindArr] else []) vs ∧
      Reads ((if hyper then "<PDataArray type=\"Int32\" Name=\"VorE\" NumberOfComponents=\"1\" format=\"ascii\"/>".toList ++ nl else []) ++
        (if tagged then "<PDataArray type=\"Int32\" Name=\"Tag\" NumberOfComponents=\"1\" format=\"ascii\"/>".toList ++ nl else [])) (vs ++ v3) := by
    cases hyper with
    | false => exact ⟨[], .nil, r3⟩
    | true =>
      obtain ⟨x, hx, r⟩ := announce_reads (o := "<PDataArray type=\"Int32\" Name=\"VorE\" NumberOfComponents=\"1\" format=\"ascii\"/>".toList) (a := kindArr)
        (as := [("type".toList, "Int32".toList), ("Name".toList, "VorE".toList), ("NumberOfComponents".toList, "1".toList), ("format".toList, "ascii".toList)])
        (by decide) (by decide) (by unfold Attrs; decide) r3
      refine ⟨[x], .cons hx .nil, ?_⟩
      show Reads _ (x :: v3)
      simpa only [if_true, List.append_assoc] using r
  obtain ⟨v1, h1, r1⟩ := announce_reads (o := "<PDataArray type=\"Int32\" Name=\"Part\" NumberOfComponents=\"1\" format=\"ascii\"/>".toList) (a := partArr)
    (as := [("type".toList, "Int32".toList), ("Name".toList, "Part".toList), ("NumberOfComponents".toList, "1".toList), ("format".toList, "ascii".toList)])
    (by decide) (by decide) (by unfold Attrs; decide) r2
  refine ⟨v1 :: (v2 ++ v3), ?_, ?_⟩
  · unfold indexArrays
    rw [List.append_assoc]
    exact .cons h1 (List.rel_append h2 h3)
  · have := ends (o := "<PPointData>".toList) (c := "</PPointData>".toList) (name := "PPointData".toList) (attrs := []) (by decide) (by decide) (by decide) (by decide) (reads_nl r1) (reads_nl h)
    unfold pPointDataText
    simpa only [List.append_assoc] using this

theorem index_reads (names : List (List Char)) (hq : ∀ n ∈ names, Quotable n) (hyper tagged : Bool) :
    ∃ x, Document (pvtuText names hyper tagged) x ∧ IsIndex names (indexArrays hyper tagged) x := by
  have r4 := sources_reads names hq (rest := []) (xs := []) .nil
  obtain ⟨vs, hvs, r3⟩ := pPointData_reads hyper tagged r4
  obtain ⟨p, hp, r2⟩ := announce_reads (o := "<PDataArray NumberOfComponents=\"3\" type=\"Float64\" format=\"ascii\" Name=\"Points\"/>".toList) (a := pointArr)
    (as := [("NumberOfComponents".toList, "3".toList), ("type".toList, "Float64".toList), ("format".toList, "ascii".toList), ("Name".toList, "Points".toList)])
    (by decide) (by decide) (by unfold Attrs; decide) (rest := []) (xs := []) .nil
  refine ⟨_, ?_, p, vs, hp, hvs, rfl⟩
  have e1 := ends (o := "<PPoints>".toList) (c := "</PPoints>".toList) (name := "PPoints".toList) (attrs := []) (by decide) (by decide)
    (by decide) (by decide) (reads_nl r2) (reads_nl r3)
  have e2 := ends (o := "<PUnstructuredGrid GhostLevel=\"0\">".toList) (c := "</PUnstructuredGrid>".toList) (name := "PUnstructuredGrid".toList)
    (attrs := [("GhostLevel".toList, "0".toList)]) (t := nl) (xs := []) (by decide) (by decide) (by decide) (by decide) (reads_nl e1) (reads_nl (t := []) .nil)
  have e3 := ends (o := "<VTKFile type=\"PUnstructuredGrid\">".toList) (c := "</VTKFile>".toList) (name := "VTKFile".toList) (attrs := [("type".toList, "PUnstructuredGrid".toList)]) (t := nl) (xs := [])
    (by decide) (by decide) (by decide) (by decide) (reads_nl e2) (reads_nl (t := []) .nil)
  unfold Document pvtuText
  have hp' : ∀ a b, pPointDataText hyper tagged a ++ b = pPointDataText hyper tagged (a ++ b) := by
    intro a b; unfold pPointDataText; simp only [List.append_assoc]
  simp only [List.append_assoc, hp', sourcesText_append, List.nil_append, List.append_nil] at e3 ⊢
  exact e3

/-! ## which arrays -/

theorem writePart_arrays {g : Graph} {gc : Mem Coord} {tag : Option (Mem Int)} {t : TagOn} {f : File} (h : writePart g gc tag t = .ok f) :
    (valueArrays f).map Prod.fst = indexArrays g.isHyper (tagged g tag t) := by
  unfold writePart at h
  obtain ⟨nc, -, h⟩ := bind_ok_iff.mp h
  obtain ⟨np, -, h⟩ := bind_ok_iff.mp h
  obtain ⟨ps, -, h⟩ := bind_ok_iff.mp h
  obtain ⟨conn, -, h⟩ := bind_ok_iff.mp h
  obtain ⟨ms, -, h⟩ := bind_ok_iff.mp h
  obtain ⟨pd, -, h⟩ := bind_ok_iff.mp h
  obtain ⟨ve, h1, h⟩ := bind_ok_iff.mp h
  obtain ⟨td, h2, h⟩ := bind_ok_iff.mp h
  have := Outcome.ok.inj h
  subst this
  have a1 : ve.isSome = g.isHyper := by
    unfold vorE at h1
    by_cases hh : g.isHyper = true
    · rw [if_pos hh] at h1
      obtain ⟨vs, -, h1⟩ := bind_ok_iff.mp h1
      obtain ⟨es, -, h1⟩ := bind_ok_iff.mp h1
      rw [← Outcome.ok.inj h1, hh]; rfl
    · rw [if_neg hh] at h1
      rw [← Outcome.ok.inj h1]
      simpa using hh
  have a2 : td.isSome = tagged g tag t := by
    unfold tagData at h2
    cases tag with
    | none => rw [← Outcome.ok.inj h2]; rfl
    | some d =>
      dsimp only at h2
      by_cases hc : t ≠ .none ∧ (t = .vtx ∨ g.isHyper = true)
      · rw [if_pos hc] at h2
        obtain ⟨vs, -, h2⟩ := bind_ok_iff.mp h2
        have : tagged g (some d) t = true := by simpa [tagged] using hc
        rw [this]
        by_cases hh : g.isHyper = true
        · rw [if_pos hh] at h2
          obtain ⟨es, -, h2⟩ := bind_ok_iff.mp h2
          rw [← Outcome.ok.inj h2]; rfl
        · rw [if_neg hh] at h2
          rw [← Outcome.ok.inj h2]; rfl
      · rw [if_neg hc] at h2
        rw [← Outcome.ok.inj h2]
        have : tagged g (some d) t = false := by
          cases hx : tagged g (some d) t with
          | false => rfl
          | true => exact absurd (by simpa [tagged] using hx) hc
        rw [this]; rfl
  unfold valueArrays indexArrays
  dsimp only
  rw [← a1, ← a2]
  cases ve <;> cases td <;> rfl

theorem tagged_congr {g g' : Graph} {a b : Option (Mem Int)} (t : TagOn) (h : g.isHyper = g'.isHyper) (ht : a.isSome = b.isSome) : tagged g a t = tagged g' b t := by
  unfold tagged
  rw [h, ht]

/-! ## names -/

theorem dirOf_none {pre : List Char} (h : '/' ∉ pre) : dirOf pre = [] := by
  unfold dirOf
  rw [List.reverse_eq_nil_iff, List.dropWhile_eq_nil_iff]
  intro c hc
  have : c ≠ '/' := fun e => h (e ▸ List.mem_reverse.mp hc)
  simpa using this

theorem dirOf_some {pre : List Char} (h : '/' ∈ pre) : dirOf pre ≠ [] := by
  unfold dirOf
  rw [Ne, List.reverse_eq_nil_iff, List.dropWhile_eq_nil_iff]
  intro hc
  have := hc '/' (List.mem_reverse.mpr h)
  simp at this

/-- **C87 (the picture).**  When all parts have written their numbers (C61 says when), the disk has an index and a file for every part.  The files are
well-formed XML and say what C61 speaks of; the index is well-formed XML, announces exactly the arrays of values the files have, and every name in it,
looked up from where the index is, is that of a file, part by part.  Missing: prefixes with `"`, `<` or `&` in them, and relative ones with a directory
(`c87_markup`, `c87_directory`). -/
theorem c87_picture_partial {gs : List Graph} {tags : List (Option (Mem Int))} {t : TagOn} {o1 o2 : Nat → List Nat} {fs : List File}
    (h : writeVTK gs tags t o1 o2 = .ok fs) (hne : 0 < gs.length) (hl : fs.length = gs.length) (hg : ∀ g ∈ gs, ∀ g' ∈ gs, g.isHyper = g'.isHyper)
    (ht : ∀ a ∈ tags, ∀ b ∈ tags, a.isSome = b.isSome) {pre : List Char} (hp : ∀ r < gs.length, pre.length + (dec r).length ≤ 251)
    (hq : Quotable pre) (hd : '/' ∉ pre ∨ pre.head? = some '/') :
    ∃ idx text parts names arrs x, vtkDisk gs tags t o1 o2 pre = .ok ((idx, text), parts) ∧ Document text x ∧ IsIndex names arrs x ∧
      names.map (resolve idx) = parts.map Prod.fst ∧ parts.length = fs.length ∧ (parts.map Prod.fst).Nodup ∧ idx ∉ parts.map Prod.fst ∧
      ∀ p (h1 : p < parts.length) (h2 : p < fs.length), (∃ z, Document parts[p].2 z ∧ IsGrid fs[p] z) ∧ (valueArrays fs[p]).map Prod.fst = arrs := by
  obtain ⟨names, idx, en, ei, hnl, hnames, hnd, hni⟩ := c69_picture pre gs.length hp hne
  obtain ⟨gcs, eg, ew⟩ := bind_ok_iff.mp h
  obtain ⟨hlen, hget⟩ := mapM_inv ew
  have htl : 0 < tags.length := by
    simp only [List.length_zip] at hlen
    omega
  have hshape : ∀ n ∈ names, ∃ r, n = pre ++ dec r ++ ['.', 'v', 't', 'u'] := by
    intro n hn
    obtain ⟨k, hk, rfl⟩ := List.getElem_of_mem hn
    obtain ⟨a, ha, hka⟩ := hnames k (by omega)
    rw [List.getElem?_eq_getElem hk] at hka
    refine ⟨k, ?_⟩
    rw [Option.some.inj hka]
    exact (sprintf_ok ha).1
  have hqn : ∀ n ∈ names, Quotable n := by
    intro n hn c hc
    obtain ⟨r, rfl⟩ := hshape n hn
    rcases List.mem_append.mp hc with h1 | h1
    · rcases List.mem_append.mp h1 with h2 | h2
      · exact hq c h2
      · obtain ⟨-, h3, h4, h5⟩ := digit_plain (dec_digits r c h2)
        exact ⟨h5, h3, h4⟩
    · simp only [List.mem_cons, List.not_mem_nil, or_false] at h1
      rcases h1 with rfl | rfl | rfl | rfl <;> decide
  obtain ⟨x, hx, hidx⟩ := index_reads names hqn gs[0].isHyper (tagged gs[0] tags[0] t)
  have hres : ∀ n ∈ names, resolve idx n = n := by
    intro n hn
    obtain ⟨r, rfl⟩ := hshape n hn
    unfold resolve
    rcases hd with h1 | h1
    · have : dirOf idx = [] := by
        apply dirOf_none
        rw [(sprintf_ok ei).1]
        intro hc
        rcases List.mem_append.mp hc with h2 | h2
        · exact h1 h2
        · revert h2; decide
      rw [this]
      split <;> rfl
    · rw [if_pos]
      cases pre with
      | nil => cases h1
      | cons c l => simpa using h1
  have hzip : (names.zip (fs.map vtuText)).map Prod.fst = names := by
    rw [List.map_fst_zip]
    simp only [List.length_map]
    omega
  refine ⟨idx, pvtuText names gs[0].isHyper (tagged gs[0] tags[0] t), names.zip (fs.map vtuText), names, _, x, ?_, hx, hidx, ?_, ?_, ?_, ?_, ?_⟩
  · unfold vtkDisk
    have en' : (List.range gs.length).mapM (vtuName pre) = .ok names := en
    rw [h, Outcome.bind_ok, en, Outcome.bind_ok, en', Outcome.bind_ok, ei, Outcome.bind_ok, rd_ok hne, Outcome.bind_ok, rd_ok htl, Outcome.bind_ok]
    rfl
  · rw [hzip]
    conv => rhs; rw [← List.map_id names]
    exact List.map_congr_left hres
  · simp only [List.length_zip, List.length_map]; omega
  · rw [hzip]; exact hnd
  · rw [hzip]; exact hni
  · intro p h1 h2
    constructor
    · have : (names.zip (fs.map vtuText))[p].2 = vtuText fs[p] := by simp
      rw [this]
      exact c87_grid _
    · have h3 : p < (gs.zip (gcs.zip tags)).length := by omega
      have h4 := writePart_arrays (hget p h3 h2)
      rw [h4]
      have hzp : (gs.zip (gcs.zip tags))[p] ∈ gs.zip (gcs.zip tags) := List.getElem_mem h3
      generalize (gs.zip (gcs.zip tags))[p] = y at hzp ⊢
      obtain ⟨g, gc, tag⟩ := y
      obtain ⟨m1, m2⟩ := List.of_mem_zip hzp
      obtain ⟨-, m3⟩ := List.of_mem_zip m2
      have e1 := hg g m1 gs[0] (List.getElem_mem hne)
      rw [tagged_congr t e1 (ht tag m3 tags[0] (List.getElem_mem htl))]
      show indexArrays g.isHyper _ = _
      rw [e1]

/-- non-vacuity: the sample hypergraph of C61 on two parts, with a tag on the vertices -/
theorem sample_picture : ((do
    let gs ← setupAll sampleWorld (some lineCo) sampleOwns twoOrder flipOrder
    let fs ← writeVTK gs [some (Mem.ofList [7]), some (Mem.ofList [8, 9])] .vtx flipOrder twoOrder
    return (gs.length, gs.map Graph.isHyper, fs.length)) : Outcome (Nat × List Bool × Nat)) = .ok (2, [true, true], 2) := by decide +kernel

example : ∃ gs fs, setupAll sampleWorld (some lineCo) sampleOwns twoOrder flipOrder = .ok gs ∧
    writeVTK gs [some (Mem.ofList [7]), some (Mem.ofList [8, 9])] .vtx flipOrder twoOrder = .ok fs ∧ 0 < gs.length ∧ fs.length = gs.length ∧
    (∀ g ∈ gs, ∀ g' ∈ gs, g.isHyper = g'.isHyper) ∧
    ∃ D, vtkDisk gs [some (Mem.ofList [7]), some (Mem.ofList [8, 9])] .vtx flipOrder twoOrder "/tmp/pic".toList = .ok D := by
  obtain ⟨gs, e1, h⟩ := bind_ok_iff.mp sample_picture
  obtain ⟨fs, e2, h⟩ := bind_ok_iff.mp h
  have h3 := Outcome.ok.inj h
  simp only [Prod.mk.injEq] at h3
  obtain ⟨l1, l2, l3⟩ := h3
  have hu : ∀ g ∈ gs, g.isHyper = true := by
    intro g hg
    have := List.mem_map_of_mem (f := Graph.isHyper) hg
    rw [l2] at this
    simpa using this
  refine ⟨gs, fs, e1, e2, by omega, by omega, fun g hg g' hg' => by rw [hu g hg, hu g' hg'], ?_⟩
  obtain ⟨idx, text, parts, -, -, -, e, -⟩ := c87_picture_partial e2 (by omega) (by omega) (fun g hg g' hg' => by rw [hu g hg, hu g' hg'])
    (by decide) (pre := "/tmp/pic".toList) (by rw [l1]; decide +kernel) (by unfold Quotable; decide) (Or.inr (by decide))
  exact ⟨_, e⟩

/-- the texts of a part with one vertex and an edge, and of its index -/
example : vtuText ⟨2, 1, [some (1, -1 / 2, 0), none], [1, 0], [2], [3], [0, 0], some [0, 1], none⟩ =
    ("<VTKFile type=\"UnstructuredGrid\">\n<UnstructuredGrid>\n<Piece NumberOfPoints=\"2\" NumberOfCells=\"1\">\n<Points>\n" ++
     "<DataArray NumberOfComponents=\"3\" type=\"Float64\" format=\"ascii\" Name=\"Points\">\n 1.000000 -0.500000 0.000000\n -nan -nan -nan\n\n</DataArray>\n</Points>\n" ++
     "<Cells>\n<DataArray type=\"Int32\" Name=\"connectivity\" format=\"ascii\">\n1 0\n\n</DataArray>\n" ++
     "<DataArray type=\"Int32\" Name=\"offsets\" format=\"ascii\">\n 2\n\n</DataArray>\n" ++
     "<DataArray type=\"UInt8\" Name=\"types\" format=\"ascii\">\n 3\n\n</DataArray>\n</Cells>\n" ++
     "<PointData>\n<DataArray type=\"Int32\" Name=\"Part\" NumberOfComponents=\"1\" format=\"ascii\">\n0\n0\n</DataArray>\n" ++
     "<DataArray type=\"Int32\" Name=\"VorE\" NumberOfComponents=\"1\" format=\"ascii\">\n0\n1\n</DataArray>\n</PointData>\n" ++
     "</Piece>\n</UnstructuredGrid>\n</VTKFile>\n").toList := by decide +kernel

example : pvtuText ["g0.vtu".toList] true false =
    ("<VTKFile type=\"PUnstructuredGrid\">\n<PUnstructuredGrid GhostLevel=\"0\">\n<PPoints>\n" ++
     "<PDataArray NumberOfComponents=\"3\" type=\"Float64\" format=\"ascii\" Name=\"Points\"/>\n</PPoints>\n<PPointData>\n" ++
     "<PDataArray type=\"Int32\" Name=\"Part\" NumberOfComponents=\"1\" format=\"ascii\"/>\n" ++
     "<PDataArray type=\"Int32\" Name=\"VorE\" NumberOfComponents=\"1\" format=\"ascii\"/>\n</PPointData>\n" ++
     "<Piece Source=\"g0.vtu\"/>\n</PUnstructuredGrid>\n</VTKFile>\n").toList := by decide +kernel

/-! ## where it fails -/

theorem attrs_markup {t : List Char} {as : List (List Char × List Char)} (h : ReadsAttrs t as) : '&' ∉ t := by
  induction h with
  | nil => simp
  | @cons n v t as hn hv _ _ ih =>
    have h1 : '&' ∉ n := fun hc => by have := hn.2 _ hc; revert this; decide
    have h2 : '&' ∉ v := fun hc => (hv _ hc).2.2 rfl
    simp [h1, h2, ih]

theorem reads_markup {t : List Char} {xs : List Xml} (h : Reads t xs) : '&' ∉ t := by
  have hname : ∀ n, IsName n → '&' ∉ n := fun n hn hc => by have := hn.2 _ hc; revert this; decide
  induction h with
  | nil => simp
  | @space c t xs hc _ ih =>
    have : '&' ≠ c := by rintro rfl; revert hc; decide
    simp [this, ih]
  | elem hn ha _ _ ih1 ih2 => simp [hname _ hn, attrs_markup ha, ih1, ih2]
  | @data name at_ s t attrs xs hn ha hs _ ih =>
    have : '&' ∉ s := fun hc => (hs _ hc).2 rfl
    simp [hname _ hn, attrs_markup ha, ih, this]
  | empty hn ha _ ih => simp [hname _ hn, attrs_markup ha, ih]

theorem mem_sources {names : List (List Char)} {n rest : List Char} {c : Char} (hn : n ∈ names) (hc : c ∈ n) : c ∈ sourcesText names rest := by
  induction names with
  | nil => cases hn
  | cons m ms ih =>
    unfold sourcesText sourceText
    rcases List.mem_cons.mp hn with rfl | h
    · simp only [List.mem_append]; exact Or.inl (Or.inl (Or.inr hc))
    · simp only [List.mem_append]; exact Or.inr (Or.inr (ih h))

/-- **C87 is false for prefixes with `&`**: the index of such a picture is not XML, whatever the graph. -/
theorem c87_markup (names : List (List Char)) (hyper tagged : Bool) {n : List Char} (hn : n ∈ names) (hc : '&' ∈ n) :
    ¬ ∃ x, Document (pvtuText names hyper tagged) x := by
  rintro ⟨x, hx⟩
  refine reads_markup hx ?_
  unfold pvtuText pPointDataText
  simp only [List.mem_append]
  have := mem_sources (rest := "</PUnstructuredGrid>".toList ++ (nl ++ ("</VTKFile>".toList ++ nl))) hn hc
  simp only [this, or_true]

/-- **C87 is false for relative prefixes with a directory**: no name in the index, looked up from where the index is, is that of the part's file. -/
theorem c87_directory {pre idx n : List Char} {r : Nat} (hi : pvtuName pre = .ok idx) (hn : vtuName pre r = .ok n) (hs : '/' ∈ pre)
    (hr : pre.head? ≠ some '/') : resolve idx n ≠ n := by
  have e1 := (sprintf_ok hi).1
  have e2 := (sprintf_ok hn).1
  have h1 : n.head? ≠ some '/' := by
    rw [e2]
    cases pre with
    | nil => cases hs
    | cons c l => simpa using hr
  unfold resolve
  rw [if_neg h1]
  have h2 : dirOf idx ≠ [] := dirOf_some (by rw [e1]; exact List.mem_append_left _ hs)
  intro he
  have := congrArg List.length he
  rw [List.length_append] at this
  exact h2 (List.length_eq_zero_iff.mp (by omega))

example : pvtuName "out/a".toList = .ok "out/a.pvtu".toList ∧ vtuName "out/a".toList 0 = .ok "out/a0.vtu".toList ∧
    resolve "out/a.pvtu".toList "out/a0.vtu".toList = "out/out/a0.vtu".toList := by decide +kernel

end Verif.Vtk
