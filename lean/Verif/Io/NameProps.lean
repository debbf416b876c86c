/-
C69: files of a saved graph and of a picture, and the directories they are in.
C70: the texts of the reports.
-/
import Verif.Io.NameLemmas
import Mathlib.Data.List.Nodup
import Mathlib.Data.List.Induction

namespace Verif.Names
open Verif

/-! ### C69: file names and directories -/

/-- Two saves share a file only if they have the same prefix and are of the same part. -/
theorem c69_own_file (pre pre' : List Char) (r r' : Nat) (a : List Char)
    (h : bgdName pre r = .ok a) (h' : bgdName pre' r' = .ok a) : pre = pre' ∧ r = r' := by
  have e := (sprintf_ok h).1.symm.trans (sprintf_ok h').1
  have e2 := List.append_cancel_right e
  simp only [List.append_assoc, List.singleton_append] at e2
  have no : ∀ n, '_' ∉ dec n := fun n => Nat.underscore_not_in_toDigits
  obtain ⟨h1, h2⟩ := split_last (no r) (no r') e2
  exact ⟨h1, dec_inj h2⟩

example : bgdName ['o', 'u', 't', '/', 'g'] 12
    = .ok ['o', 'u', 't', '/', 'g', '_', '1', '2', '.', 'b', 'g', 'd'] := by decide +kernel

/-- Saving makes the directories on the way to the file, those and no others, and so can open it.
The root and the working directory exist. -/
theorem c69_directories (pre : List Char) (r : Nat) (fs : Fs) (hroot : ∀ b, fs b [] = true)
    (hl : pre.length + (dec r).length ≤ 250) :
    ∃ name fs', bgdName pre r = .ok name ∧ saveOpen pre r fs = .ok (name, fs') ∧
      ∀ b cs, fs' b cs = true ↔ fs b cs = true ∨
        (b = absolute name ∧ cs ≠ [] ∧ cs <+: (comps name).dropLast) := by
  have hb : bgdName pre r = .ok (pre ++ ['_'] ++ dec r ++ ['.', 'b', 'g', 'd']) := by
    unfold bgdName sprintf
    rw [if_pos]
    simp only [List.length_append, List.length_cons, List.length_nil]
    omega
  have e : pre ++ ['_'] ++ dec r ++ ['.', 'b', 'g', 'd']
      = (pre ++ ['_'] ++ dec r ++ ['.', 'b', 'g']) ++ ['d'] := by simp
  obtain ⟨fs', h1, h2⟩ := mkdirR_file (fs := fs) (path := pre ++ ['_'] ++ dec r ++ ['.', 'b', 'g'])
    (c := 'd') (by decide) hroot (by
      simp only [List.length_append, List.length_cons, List.length_nil]; omega)
  rw [← e] at h1 h2
  refine ⟨_, fs', hb, ?_, h2⟩
  unfold saveOpen
  rw [hb, Outcome.bind_ok, h1, Outcome.bind_ok, if_pos]
  rw [h2]
  by_cases hd : (comps (pre ++ ['_'] ++ dec r ++ ['.', 'b', 'g', 'd'])).dropLast = []
  · left; rw [hd]; exact hroot _
  · right; exact ⟨rfl, hd, List.prefix_refl _⟩

/-- What the components of a path are: none is empty, none has a slash, and together they are the
path without its slashes. -/
theorem c69_comps (path : List Char) : (∀ c ∈ comps path, c ≠ [] ∧ '/' ∉ c) ∧
    (comps path).flatten = path.filter (· ≠ '/') := by
  refine ⟨?_, ?_⟩
  swap
  · have key : ∀ path : List Char, (compSplit path).1.flatten ++ (compSplit path).2
        = path.filter (· ≠ '/') := by
      intro path
      induction path using List.reverseRecOn with
      | nil => simp [compSplit]
      | append_singleton l a ih =>
        rw [compSplit_snoc, List.filter_append, ← ih]
        generalize compSplit l = S
        obtain ⟨d, cur⟩ := S
        by_cases ha : a = '/'
        · by_cases hc : cur = [] <;> simp [compStep, ha, hc]
        · simp [compStep, ha]
    rw [← key path]
    simp only [comps]
    by_cases hcur : (compSplit path).2 = []
    · rw [if_pos hcur, hcur, List.append_nil]
    · rw [if_neg hcur]
      simp
  have key : ∀ path : List Char, (∀ c ∈ (compSplit path).1, c ≠ [] ∧ '/' ∉ c) ∧
      '/' ∉ (compSplit path).2 := by
    intro path
    induction path using List.reverseRecOn with
    | nil => simp [compSplit]
    | append_singleton l a ih =>
      rw [compSplit_snoc]
      generalize compSplit l = S at ih
      obtain ⟨d, cur⟩ := S
      obtain ⟨i1, i2⟩ := ih
      simp only [compStep]
      by_cases ha : a = '/'
      · by_cases hc : cur = []
        · simp only [ha, hc, if_true]
          exact ⟨i1, by simp⟩
        · simp only [ha, if_true, if_neg hc]
          refine ⟨?_, by simp⟩
          intro c hcm
          rcases List.mem_append.1 hcm with hcm | hcm
          · exact i1 c hcm
          · rw [List.mem_singleton.1 hcm]; exact ⟨hc, i2⟩
      · simp only [if_neg ha]
        refine ⟨i1, ?_⟩
        intro hm
        rcases List.mem_append.1 hm with hm | hm
        · exact i2 hm
        · exact ha (List.mem_singleton.1 hm).symm
  intro c hc
  obtain ⟨k1, k2⟩ := key path
  simp only [comps] at hc
  by_cases hcur : (compSplit path).2 = []
  · rw [if_pos hcur] at hc; exact k1 c hc
  · rw [if_neg hcur] at hc
    rcases List.mem_append.1 hc with hc | hc
    · exact k1 c hc
    · rw [List.mem_singleton.1 hc]; exact ⟨hcur, k2⟩

/-- Saving to `a/b/g` on an empty disk makes `a` and `a/b`. -/
example : (match saveOpen ['a', '/', 'b', '/', 'g'] 3 (fun _ cs => cs = []) with
    | .ok (_, fs) => (fs false [['a']], fs false [['a'], ['b']], fs true [['a']],
        fs false [['a'], ['b'], ['g', '_', '3', '.', 'b', 'g', 'd']])
    | _ => (false, false, true, true)) = (true, true, false, false) := by decide +kernel

/-- A prefix and rank that take more than 250 characters overrun the array. -/
theorem c69_long_prefix (pre : List Char) (r : Nat) (fs : Fs)
    (hl : 250 < pre.length + (dec r).length) :
    bgdName pre r = .ub ∧ saveOpen pre r fs = .ub := by
  have h : bgdName pre r = .ub := by
    unfold bgdName sprintf
    rw [if_neg]
    simp only [List.length_append, List.length_cons, List.length_nil]
    omega
  exact ⟨h, by unfold saveOpen; rw [h]; rfl⟩

example : 250 < (List.replicate 250 'x').length + (dec 0).length := by
  rw [List.length_replicate]; decide

/-- The arrays for the names of a picture hold 255 characters and no more. -/
theorem c69_long_picture (pre : List Char) (r : Nat) : (251 < pre.length + (dec r).length → vtuName pre r = .ub) ∧
    (250 < pre.length → pvtuName pre = .ub) := by
  constructor
  · intro h
    unfold vtuName sprintf
    rw [if_neg]
    simp only [List.length_append, List.length_cons, List.length_nil]
    omega
  · intro h
    unfold pvtuName sprintf
    rw [if_neg]
    simp only [List.length_append, List.length_cons, List.length_nil]
    omega

example : 250 < (List.replicate 251 'x').length := by rw [List.length_replicate]; decide

/-- The parts of one picture write different files, none of them the index, and the index lists
exactly these files, in the order of the parts. -/
theorem c69_picture (pre : List Char) (peers : Nat)
    (hl : ∀ r < peers, pre.length + (dec r).length ≤ 251) (hp : 0 < peers) :
    ∃ names index, pieces pre peers = .ok names ∧ pvtuName pre = .ok index ∧
      names.length = peers ∧ (∀ r < peers, ∃ a, vtuName pre r = .ok a ∧ names[r]? = some a) ∧
      names.Nodup ∧ index ∉ names := by
  have hm : pieces pre peers = .ok ((List.range peers).map
      (fun r => pre ++ dec r ++ ['.', 'v', 't', 'u'])) := by
    have := mapM_sprintf 256 (fun r => pre ++ dec r ++ ['.', 'v', 't', 'u']) (List.range peers)
    rw [if_pos] at this
    · exact this
    · intro r hr
      have := hl r (List.mem_range.1 hr)
      simp only [List.length_append, List.length_cons, List.length_nil]
      omega
  have hi : pvtuName pre = .ok (pre ++ ['.', 'p', 'v', 't', 'u']) := by
    unfold pvtuName sprintf
    rw [if_pos]
    have := hl 0 hp
    have h0 := dec_length_pos 0
    simp only [List.length_append, List.length_cons, List.length_nil]
    omega
  refine ⟨_, _, hm, hi, by simp, ?_, ?_, ?_⟩
  · intro r hr
    refine ⟨pre ++ dec r ++ ['.', 'v', 't', 'u'], ?_, by simp [hr]⟩
    unfold vtuName sprintf
    rw [if_pos]
    have := hl r hr
    simp only [List.length_append, List.length_cons, List.length_nil]
    omega
  · refine List.Nodup.map_on ?_ List.nodup_range
    intro x _ y _ hxy
    exact dec_inj (List.append_cancel_left (List.append_cancel_right hxy))
  · intro hmem
    obtain ⟨r, _, hr⟩ := List.mem_map.1 hmem
    rw [List.append_assoc] at hr
    have e := List.append_cancel_left hr
    have hd : ∀ c ∈ dec r, c.isDigit = true := fun c hc =>
      Nat.isDigit_of_mem_toDigits (by omega) (by omega) hc
    obtain ⟨c, l, hcl⟩ : ∃ c l, dec r = c :: l := by
      cases hx : dec r with
      | nil => exact absurd hx Nat.toDigits_ne_nil
      | cons c l => exact ⟨c, l, rfl⟩
    rw [hcl, List.cons_append, List.cons.injEq] at e
    have := hd c (by rw [hcl]; simp)
    rw [e.1] at this
    revert this
    decide

example : ∀ r < 3, ['p', 'i', 'c'].length + (dec r).length ≤ 251 := by decide +kernel

/-- Pictures with different prefixes can share files: part 10 of `g` and part 0 of `g1`. -/
theorem c69_picture_clash : ∃ pre pre' r r' a, pre ≠ pre' ∧
    vtuName pre r = .ok a ∧ vtuName pre' r' = .ok a :=
  ⟨['g'], ['g', '1'], 10, 0, ['g', '1', '0', '.', 'v', 't', 'u'], by decide, by decide +kernel,
    by decide +kernel⟩

/-! ### C70: reports -/

/-- The line of a report: its title, and for each edge type the type and the count. -/
def lineOf (title : List Char) (counts : List Nat) : List Char :=
  title ++ (counts.zipIdx).flatMap fun c =>
    "Type ".toList ++ (toString c.2).toList ++ ": ".toList ++ (toString c.1).toList ++ " ".toList

theorem statLine_eq (title : List Char) (counts : List Nat) (ht : title.length + 1 ≤ 100) :
    statLine title counts = if (lineOf title counts).length + 1 ≤ 100
      then .ok (lineOf title counts) else .ub := by
  have e : entry = fun c : Nat × Nat => "Type ".toList ++ (toString c.2).toList ++ ": ".toList ++
      (toString c.1).toList ++ " ".toList := by
    funext c
    have h1 : "Type ".toList = ['T', 'y', 'p', 'e', ' '] := by decide
    have h2 : ": ".toList = [':', ' '] := by decide
    have h3 : " ".toList = [' '] := by decide
    rw [h1, h2, h3]
    simp only [entry, dec, Nat.toString_eq_repr, Nat.toList_repr]
  unfold statLine lineOf
  rw [statFold _ _ ht, e]

/-- `printStats` prints the number of vertices, and the numbers of edges and (for a hypergraph) of
pins of every type, if the lines have at most 99 characters; otherwise it overruns its array. -/
theorem c70_stats (hyper : Bool) (verts : Nat) (edges pins : List Nat) :
    printStats hyper verts edges pins =
      if (lineOf "Edges: ".toList edges).length ≤ 99 ∧
          (hyper = true → (lineOf "Pins: ".toList pins).length ≤ 99) then
        .ok (("Vertices: ".toList ++ (toString verts).toList) :: lineOf "Edges: ".toList edges ::
          (if hyper then [lineOf "Pins: ".toList pins] else []))
      else .ub := by
  have hE : ['E', 'd', 'g', 'e', 's', ':', ' '] = "Edges: ".toList := by decide
  have hP : ['P', 'i', 'n', 's', ':', ' '] = "Pins: ".toList := by decide
  have hV : ['V', 'e', 'r', 't', 'i', 'c', 'e', 's', ':', ' '] = "Vertices: ".toList := by decide
  have hD : dec verts = (toString verts).toList := by
    simp only [dec, Nat.toString_eq_repr, Nat.toList_repr]
  unfold printStats
  rw [statLine_eq _ _ (by decide), statLine_eq _ _ (by decide), hE, hP, hV, hD]
  clear hE hP hV hD
  generalize lineOf "Edges: ".toList edges = E
  generalize lineOf "Pins: ".toList pins = P
  generalize "Vertices: ".toList ++ (toString verts).toList = V
  by_cases h1 : E.length ≤ 99
  · rw [if_pos (show E.length + 1 ≤ 100 by omega), Outcome.bind_ok]
    cases hyper
    · simp [h1]
    · by_cases h2 : P.length ≤ 99
      · rw [if_pos (show P.length + 1 ≤ 100 by omega)]
        simp [h1, h2]
      · rw [if_neg (show ¬ P.length + 1 ≤ 100 by omega)]
        simp [h2]
  · rw [if_neg (by omega), Outcome.bind_ub, if_neg (fun h => h1 h.1)]

/-- With at most three edge types it always fits (the counts are 64-bit numbers). -/
theorem c70_three_types_partial (hyper : Bool) (verts : Nat) (edges pins : List Nat)
    (he : edges.length ≤ 3) (hp : pins.length ≤ 3) (h64 : ∀ n ∈ edges ++ pins, n < 2 ^ 63) :
    ∃ ls, printStats hyper verts edges pins = .ok ls := by
  have bound : ∀ (title : List Char) (counts : List Nat), counts.length ≤ 3 →
      (∀ n ∈ counts, n < 2 ^ 63) → title.length ≤ 7 → (lineOf title counts).length ≤ 99 := by
    intro title counts hc hn ht
    have hz : ∀ c ∈ counts.zipIdx, c.1 < 2 ^ 63 ∧ c.2 < 3 := by
      intro c hcm
      have h1 := List.mem_zipIdx hcm
      refine ⟨hn _ ?_, by omega⟩
      have := h1.2.2
      simp only [Nat.sub_zero] at this
      rw [this]
      exact List.getElem_mem _
    have hlen : ∀ l : List (Nat × Nat), (∀ c ∈ l, c.1 < 2 ^ 63 ∧ c.2 < 3) →
        (l.flatMap fun c => "Type ".toList ++ (toString c.2).toList ++ ": ".toList ++
          (toString c.1).toList ++ " ".toList).length ≤ 28 * l.length := by
      intro l
      induction l with
      | nil => intro _; simp
      | cons c l ih =>
        intro hl
        have ⟨a1, a2⟩ := hl c (by simp)
        have i := ih (fun x hx => hl x (by simp [hx]))
        have d1 : (dec c.1).length ≤ 19 := (dec_length_le (by omega)).2 (by omega)
        have d2 : (dec c.2).length ≤ 1 := (dec_length_le (by omega)).2 (by omega)
        have h1 : ("Type ".toList).length = 5 := by decide
        have h2 : (": ".toList).length = 2 := by decide
        have h3 : (" ".toList).length = 1 := by decide
        have e1 : (toString c.1).toList = dec c.1 := by
          simp only [dec, Nat.toString_eq_repr, Nat.toList_repr]
        have e2 : (toString c.2).toList = dec c.2 := by
          simp only [dec, Nat.toString_eq_repr, Nat.toList_repr]
        rw [List.flatMap_cons, List.length_append]
        have hh : ("Type ".toList ++ (toString c.2).toList ++ ": ".toList ++ (toString c.1).toList
            ++ " ".toList).length ≤ 28 := by
          simp only [List.length_append, e1, e2, h1, h2, h3]
          omega
        simp only [List.length_cons]
        omega
    have := hlen _ hz
    rw [List.length_zipIdx] at this
    unfold lineOf
    rw [List.length_append]
    omega
  rw [c70_stats, if_pos]
  · exact ⟨_, rfl⟩
  · refine ⟨bound _ _ he (fun n hn => h64 n (by simp [hn])) (by decide), fun _ =>
      bound _ _ hp (fun n hn => h64 n (by simp [hn])) (by decide)⟩

example : ∀ n ∈ [12, 30, 9] ++ [24, 100, 9], n < 2 ^ 63 := by decide

/-- A graph with seven edge types of ten thousand edges each can not be reported: the line has 105
characters. `loadFromFile` makes this report. -/
theorem c70_seven_types_ub : printStats false 100000 (List.replicate 7 10000) [] = .ub := by
  decide +kernel

/-- `evaluatePartition` labels its lines with the name it is given. With an edge type, a name of more
than five characters overruns the array of the label. -/
theorem c70_labels (name : List Char) (types : Nat) (h0 : 0 < types) (h7 : types ≤ 7) :
    evalLabels name types = if name.length ≤ 5 then
      .ok ("PARTITION ".toList ++ name, (List.range types).map fun i =>
        "PARTITION ".toList ++ name ++ ": Edges type ".toList ++ (toString i).toList)
      else .ub := by
  have hP : ['P', 'A', 'R', 'T', 'I', 'T', 'I', 'O', 'N', ' '] = "PARTITION ".toList := by decide
  have hE : [':', ' ', 'E', 'd', 'g', 'e', 's', ' ', 't', 'y', 'p', 'e', ' ']
      = ": Edges type ".toList := by decide
  have hPl : ("PARTITION ".toList).length = 10 := by decide
  have hEl : (": Edges type ".toList).length = 13 := by decide
  have hD : ∀ i, dec i = (toString i).toList := by
    intro i
    simp only [dec, Nat.toString_eq_repr, Nat.toList_repr]
  unfold evalLabels
  rw [hP, hE]
  by_cases h : name.length ≤ 5
  · rw [if_pos h]
    have e1 : sprintf 100 ("PARTITION ".toList ++ name) = .ok ("PARTITION ".toList ++ name) := by
      unfold sprintf
      rw [if_pos]
      rw [List.length_append]
      omega
    rw [e1, Outcome.bind_ok, mapM_sprintf, if_pos, Outcome.bind_ok]
    · simp only [hD]
    · intro i hi
      have := List.mem_range.1 hi
      have d2 : (dec i).length ≤ 1 := (dec_length_le (by omega)).2 (by omega)
      simp only [List.length_append, hPl, hEl]
      omega
  · rw [if_neg h]
    unfold sprintf
    by_cases h' : ("PARTITION ".toList ++ name).length + 1 ≤ 100
    · rw [if_pos h', Outcome.bind_ok]
      have := mapM_sprintf 30 (fun i => "PARTITION ".toList ++ name ++ ": Edges type ".toList ++ dec i)
        (List.range types)
      rw [if_neg] at this
      · unfold sprintf at this
        rw [this]; rfl
      · intro hh
        have h1 := hh 0 (List.mem_range.2 h0)
        have d2 := dec_length_pos 0
        simp only [List.length_append, hPl, hEl] at h1
        omega
    · rw [if_neg h']; rfl

/-- The name `before` is too long. -/
example : evalLabels ['b', 'e', 'f', 'o', 'r', 'e'] 1 = .ub := by decide +kernel

/-- A path that begins with a slash is looked up from the root, any other from the working directory; `mkdir_r` makes the
directories on that side only. -/
theorem c69_start (path : List Char) : absolute ('/' :: path) = true ∧ (∀ c, c ≠ '/' → absolute (c :: path) = false) := by
  refine ⟨by simp [absolute], fun c hc => by simp [absolute, hc]⟩

/-- a save to `/a/g` makes `/a` and not `a` -/
example : ∃ name fs, saveOpen ['/', 'a', '/', 'g'] 0 (fun _ cs => cs == []) = .ok (name, fs) ∧
    fs true [['a']] = true ∧ fs false [['a']] = false := by
  refine ⟨_, _, rfl, ?_, ?_⟩ <;> decide +kernel

end Verif.Names
