import Verif.Part.TextLemmas
/-!
# C86: the texts of the balancer fit their arrays
-/
namespace Verif.Part.Text
open Verif.Names

/-- what is written for one criterion -/
theorem double_length {ws : List Rat} {P : Nat} (hl : ws.length ≤ P) (hP : P < 1000000) (h : ∀ w ∈ ws, 0 ≤ w) : (double 4 (imbalance ws) ++ [' ']).length ≤ 12 := by
  rw [List.length_append]
  cases hi : imbalance ws with
  | none => decide
  | some r =>
    obtain ⟨h0, h1⟩ := imbalance_le h hi
    have h2 : |r| ≤ (P : Rat) := by
      rw [abs_of_nonneg h0]
      exact le_trans h1 (by exact_mod_cast hl)
    have h3 := fixed_length (k := 4) (by omega) (M := P) (d := 6) h2 (by omega) (by omega)
    rw [if_neg (not_lt.mpr h0)] at h3
    show (fixed 4 r).length + 1 ≤ 12
    omega

theorem flatten_length {ts : List (List Char)} {c : Nat} (h : ∀ t ∈ ts, t.length ≤ c) : ts.flatten.length ≤ ts.length * c := by
  induction ts with
  | nil => simp
  | cons t ts ih =>
    have h1 := h t (by simp)
    have h2 := ih (fun x hx => h x (by simp [hx]))
    rw [List.flatten_cons, List.length_append, List.length_cons, Nat.add_mul]
    omega

theorem lists_map (k : Nat) (hk : 0 < k) (xs : List Rat) : Lists k xs (xs.map (fun x => fixed k x ++ [' '])).flatten := by
  induction xs with
  | nil => rfl
  | cons x xs ih => exact ⟨fixed k x, _, by simp, fixed_spells hk x, ih⟩

/-- **C86 (imbalances).**  `getImbalances` into the 100 characters of its callers: for vertices and up to seven edge types on fewer than a million
parts, none with a negative weight, the text fits; and if no total is zero it shows the imbalance of every criterion, in order, to four
digits.  Missing: more parts, and negative weights; the text can overrun the array there (`c86_million_ub`, `c86_negative_ub`). -/
theorem c86_imbalances_partial (crit : List (List Rat)) (hc : crit.length ≤ 8) (P : Nat) (hP : P < 1000000) (hl : ∀ ws ∈ crit, ws.length = P)
    (h0 : ∀ ws ∈ crit, ∀ w ∈ ws, 0 ≤ w) :
    ∃ t, getImbalances crit = .ok t ∧ ((∀ ws ∈ crit, 0 < ws.sum) → ∃ xs, crit.map imbalance = xs.map some ∧ Lists 4 xs t) := by
  have hlen : (crit.map (fun ws => double 4 (imbalance ws) ++ [' '])).flatten.length + 1 ≤ 100 := by
    have := flatten_length (ts := crit.map (fun ws => double 4 (imbalance ws) ++ [' '])) (c := 12) (by
      intro t ht
      obtain ⟨ws, hw, rfl⟩ := List.mem_map.mp ht
      exact double_length (le_of_eq (hl ws hw)) hP (h0 ws hw))
    rw [List.length_map] at this
    omega
  refine ⟨_, by unfold getImbalances; rw [build_eq 100 (by omega), if_pos hlen], fun hs => ?_⟩
  refine ⟨crit.map (fun ws => mpiMax ws / (ws.sum / ws.length)), ?_, ?_⟩
  · rw [List.map_map]
    refine List.map_congr_left fun ws hw => ?_
    obtain ⟨m, r, e, -, -, -⟩ := c39_imbalance ws (hs ws hw)
    rw [e]
    unfold imbalance divD at e
    dsimp only at e
    split at e
    · cases e
    · exact e.symm
  · have e : crit.map (fun ws => double 4 (imbalance ws) ++ [' ']) = (crit.map (fun ws => mpiMax ws / (ws.sum / ws.length))).map (fun x => fixed 4 x ++ [' ']) := by
      rw [List.map_map]
      refine List.map_congr_left fun ws hw => ?_
      obtain ⟨m, r, e, -, -, -⟩ := c39_imbalance ws (hs ws hw)
      unfold imbalance divD at e
      dsimp only at e
      split at e
      · cases e
      · rename_i hz
        unfold imbalance divD
        dsimp only
        rw [if_neg hz]
        rfl
    rw [e]
    exact lists_map 4 (by omega) _

example : getImbalances [[3, 1, 2], [2, 2, 2], [0, 0, 0], [1, 0, 6]] = .ok "1.5000 1.0000 -nan 2.5714 ".toList := by decide +kernel

/-- all the weight on one of `n + 1` parts -/
theorem imbalance_one (n : Nat) : imbalance (1 :: List.replicate n 0) = some ((n : Rat) + 1) := by
  have hmax : mpiMax (1 :: List.replicate n 0) = 1 := by
    obtain ⟨h1, h2⟩ := mpiMax_spec (1 :: List.replicate n 0) (by simp)
    rcases List.mem_cons.mp h1 with h | h
    · exact h
    · have h3 := h2 1 (by simp)
      rw [(List.mem_replicate.mp h).2] at h3
      norm_num at h3
  have hs : (1 :: List.replicate n (0 : Rat)).sum = 1 := by simp
  unfold imbalance divD
  dsimp only
  rw [hmax, hs, List.length_cons, List.length_replicate]
  have hn : ((n : Rat) + 1) ≠ 0 := by positivity
  push_cast
  rw [if_neg (by simpa using hn)]
  congr 1
  field_simp

/-- **C86 is false from a million parts on**: seven edge types, everything on one part; eight times `1000000.0000 ` are 104 characters. -/
theorem c86_million_ub : getImbalances (List.replicate 8 (1 :: List.replicate 999999 0)) = .ub := by
  unfold getImbalances
  rw [List.map_replicate, imbalance_one, build_eq 100 (by omega)]
  have e : ((999999 : Nat) : Rat) + 1 = 1000000 := by norm_num
  rw [e, if_neg]
  have : (fixed 4 1000000).length = 12 := by decide +kernel
  simp [double, this]

/-- **C86 is false with negative weights**: three parts, one criterion. -/
theorem c86_negative_ub : getImbalances [[10 ^ 100, -(10 ^ 100), 1 / 100000]] = .ub := by decide +kernel

/-! ## the log entry of balance -/

/-- a number of type `int` -/
def Int32 (i : Int) : Prop := i.natAbs ≤ 2 ^ 31

theorem int32_length {i : Int} (h : Int32 i) : (int i).length ≤ 11 := int_length (d := 10) (by omega) (lt_of_le_of_lt h (by norm_num))

/-- **C86 (log entry).**  With the log open, the entry of `balance` fits the 1000 characters of its array if there are not too many criteria and
tolerances (25 of each are possible) and none of the numbers is a million or more.  Missing: longer lists, which `addPriority` accepts
(`c86_log_ub`). -/
theorem c86_log_partial (p : Params) (hp : ∀ i ∈ p.priorities, Int32 i) (ht : ∀ x ∈ p.tolerances, |x| < 1000000)
    (hn : 12 * p.priorities.length + 16 * p.tolerances.length ≤ 750) (h1 : Int32 p.maxIterations) (h2 : Int32 p.maxIterationsPerType)
    (h3 : |p.stepFactor| < 1000000) (h4 : Int32 p.sidesType) (h5 : Int32 p.selectionType) : balanceLog p = .ok (logPieces p).flatten := by
  have hf : ∀ x : Rat, |x| < 1000000 → (fixed 6 x).length ≤ 15 := by
    intro x hx
    have := fixed_length (k := 6) (by omega) (x := x) (M := 1000000) (d := 7) (by exact_mod_cast hx.le) (by omega) (by omega)
    split at this <;> omega
  have hpr : (p.priorities.map (fun i => ' ' :: int i)).flatten.length ≤ 12 * p.priorities.length := by
    have := flatten_length (ts := p.priorities.map (fun i => ' ' :: int i)) (c := 12) (by
      intro t ht
      obtain ⟨i, hi, rfl⟩ := List.mem_map.mp ht
      have := int32_length (hp i hi)
      rw [List.length_cons]; omega)
    rw [List.length_map] at this
    omega
  have htl : (p.tolerances.map (fun x => ' ' :: fixed 6 x)).flatten.length ≤ 16 * p.tolerances.length := by
    have := flatten_length (ts := p.tolerances.map (fun x => ' ' :: fixed 6 x)) (c := 16) (by
      intro t hm
      obtain ⟨x, hx, rfl⟩ := List.mem_map.mp hm
      have := hf x (ht x hx)
      rw [List.length_cons]; omega)
    rw [List.length_map] at this
    omega
  have l1 := int32_length h1
  have l2 := int32_length h2
  have l3 := hf _ h3
  have l4 := int32_length h4
  have l5 := int32_length h5
  have l6 : (int (if p.countGhosts then 1 else 0)).length = 1 := by cases p.countGhosts <;> decide
  have c1 : "balance() : \n".toList.length = 13 := by decide
  have c2 : " priorities :".toList.length = 13 := by decide
  have c3 : " tolerances :".toList.length = 13 := by decide
  have c4 : " maxIterations : ".toList.length = 17 := by decide
  have c5 : " maxIterationsPerType : ".toList.length = 24 := by decide
  have c6 : " step_factor : ".toList.length = 15 := by decide
  have c7 : " sides_edge_type : ".toList.length = 19 := by decide
  have c8 : " selection_edge_type : ".toList.length = 23 := by decide
  have c9 : " countGhosts : ".toList.length = 15 := by decide
  unfold balanceLog
  rw [build_eq 1000 (by omega), if_pos]
  unfold logPieces
  by_cases hz : 0 < p.tolerances.length
  · rw [if_pos hz]
    simp only [List.flatten_append, List.flatten_cons, List.flatten_nil, List.length_append, List.length_cons, List.length_nil, c1, c2, c3, c4, c5, c6, c7, c8, c9, l6]
    omega
  · rw [if_neg hz]
    simp only [List.flatten_append, List.flatten_cons, List.flatten_nil, List.length_append, List.length_cons, List.length_nil, c1, c2, c4, c5, c6, c7, c8, c9, l6]
    omega

/-- what the entry looks like -/
example : balanceLog ⟨[-1, 0], [11 / 10], 1000, 100, 1 / 10, 0, 0, false⟩ = .ok
    ("balance() : \n priorities : -1 0\n tolerances : 1.100000\n maxIterations : 1000\n maxIterationsPerType : 100\n" ++
     " step_factor : 0.100000\n sides_edge_type : 0\n selection_edge_type : 0\n countGhosts : 0\n").toList := by decide +kernel

/-- **C86 is false for long lists**: 450 criteria overrun the log entry. -/
theorem c86_log_ub : balanceLog ⟨List.replicate 450 0, [], 1000, 100, 1 / 10, 0, 0, false⟩ = .ub := by decide +kernel

/-! ## the numbers in the texts -/

theorem dec_head (n : Nat) (h : (dec n).head? = some '0') : dec n = ['0'] := by
  by_cases h0 : n = 0
  · subst h0; decide
  · exfalso
    have hp : 0 < n := Nat.pos_of_ne_zero h0
    induction n using Nat.strong_induction_on with
    | _ n ih =>
      unfold dec at h ih
      by_cases hn : n < 10
      · rw [Nat.toDigits_of_lt_base hn] at h
        have : n = 1 ∨ n = 2 ∨ n = 3 ∨ n = 4 ∨ n = 5 ∨ n = 6 ∨ n = 7 ∨ n = 8 ∨ n = 9 := by omega
        rcases this with h1 | h1 | h1 | h1 | h1 | h1 | h1 | h1 | h1 <;> subst h1 <;> revert h <;> decide
      · rw [Nat.toDigits_of_base_le (by omega) (by omega)] at h
        have hq : 0 < n / 10 := Nat.div_pos (by omega) (by omega)
        refine ih (n / 10) (Nat.div_lt_self hp (by omega)) ?_ (by omega) hq
        rw [List.head?_append] at h
        cases hh : (Nat.toDigits 10 (n / 10)).head? with
        | none =>
          rw [List.head?_eq_none_iff] at hh
          have := dec_length_pos (n / 10)
          unfold dec at this
          rw [hh] at this
          simp at this
        | some c =>
          rw [hh] at h
          simpa using h

theorem int_spells (i : Int) : SpellsInt i (int i) := by
  refine ⟨dec i.natAbs, ?_, dec_digits _, ?_, ?_, dec_head _⟩
  · unfold int
    split <;> simp
  · unfold value dec
    exact Nat.ofDigitChars_ten_toDigits
  · intro hc
    have := dec_length_pos i.natAbs
    rw [hc] at this
    simp at this

theorem row_map {α : Type} {Q : α → List Char → Prop} {f : α → List Char} (h : ∀ x, Q x (f x)) (xs : List α) :
    Row Q xs (xs.map (fun x => ' ' :: f x)).flatten := by
  induction xs with
  | nil => rfl
  | cons x xs ih => exact ⟨f x, _, by simp, h x, ih⟩

/-- what the log entry of `balance` says: every parameter, by name, in this order -/
def LogShows (p : Params) (t : List Char) : Prop :=
  ∃ ps ts mi mt sf se st, Row SpellsInt p.priorities ps ∧ Row (Spells 6) p.tolerances ts ∧ SpellsInt p.maxIterations mi ∧
    SpellsInt p.maxIterationsPerType mt ∧ Spells 6 p.stepFactor sf ∧ SpellsInt p.sidesType se ∧ SpellsInt p.selectionType st ∧
    t = "balance() : \n".toList ++ " priorities :".toList ++ ps ++ ['\n'] ++
      (if p.tolerances = [] then [] else " tolerances :".toList ++ ts ++ ['\n']) ++
      " maxIterations : ".toList ++ mi ++ ['\n'] ++ " maxIterationsPerType : ".toList ++ mt ++ ['\n'] ++ " step_factor : ".toList ++ sf ++ ['\n'] ++
      " sides_edge_type : ".toList ++ se ++ ['\n'] ++ " selection_edge_type : ".toList ++ st ++ ['\n'] ++
      " countGhosts : ".toList ++ (if p.countGhosts then ['1'] else ['0']) ++ ['\n']

/-- **C86 (contents of the log entry).**  Whenever the log entry of `balance` fits, it shows the parameters. -/
theorem c86_log_shows (p : Params) {t : List Char} (h : balanceLog p = .ok t) : LogShows p t := by
  refine ⟨_, _, _, _, _, _, _, row_map int_spells p.priorities, row_map (fixed_spells (by omega)) p.tolerances, int_spells _, int_spells _,
    fixed_spells (by omega) _, int_spells _, int_spells _, ?_⟩
  unfold balanceLog at h
  rw [build_eq 1000 (by omega)] at h
  split at h
  · cases h
    unfold logPieces
    have hg : int (if p.countGhosts then 1 else 0) = if p.countGhosts then ['1'] else ['0'] := by cases p.countGhosts <;> decide
    rw [hg]
    generalize "balance() : \n".toList = k1
    generalize " priorities :".toList = k2
    generalize " tolerances :".toList = k3
    generalize " maxIterations : ".toList = k4
    generalize " maxIterationsPerType : ".toList = k5
    generalize " step_factor : ".toList = k6
    generalize " sides_edge_type : ".toList = k7
    generalize " selection_edge_type : ".toList = k8
    generalize " countGhosts : ".toList = k9
    by_cases h0 : p.tolerances = []
    · rw [h0]
      simp only [List.length_nil, lt_irrefl, if_true, if_false, List.flatten_append, List.flatten_cons, List.flatten_nil, List.append_assoc,
        List.nil_append, List.append_nil, List.cons_append, List.map_nil]
    · have : 0 < p.tolerances.length := List.length_pos_iff.mpr h0
      rw [if_pos this, if_neg h0]
      simp only [List.flatten_append, List.flatten_cons, List.flatten_nil, List.append_assoc, List.nil_append, List.append_nil, List.cons_append]
  · cases h

example : LogShows ⟨[-1, 0], [11 / 10], 1000, 100, 1 / 10, 0, 0, false⟩
    ("balance() : \n priorities : -1 0\n tolerances : 1.100000\n maxIterations : 1000\n maxIterationsPerType : 100\n" ++
     " step_factor : 0.100000\n sides_edge_type : 0\n selection_edge_type : 0\n countGhosts : 0\n").toList := c86_log_shows _ (by decide +kernel)

/-- **C86 (contents of the message at the end of a criterion).** -/
theorem c86_done_shows (dim steps : Int) (secs : Rat) (verbosity rc : Int) {t : List Char} (h : doneMessage dim steps secs verbosity rc = .ok t) :
    ∃ d n s, SpellsInt dim d ∧ SpellsInt steps n ∧ Spells 6 secs s ∧
      t = "Completed diffusion for ".toList ++ (if dim = -1 then "vertices ".toList else "edge type ".toList ++ d ++ [' ']) ++ "in ".toList ++ n ++
        " steps and ".toList ++ s ++ " seconds".toList ++
        (if 2 ≤ verbosity then " due to ".toList ++
          (if rc = 0 then "max iterations".toList else if rc = 1 then "target tolerance reached".toList else if rc = 2 then "stagnation".toList
            else if rc = 3 then "nothing was migrated".toList else []) else []) ++ ".\n".toList := by
  refine ⟨_, _, _, int_spells _, int_spells _, fixed_spells (by omega) _, ?_⟩
  unfold doneMessage at h
  rw [build_eq 200 (by omega)] at h
  split at h
  · cases h
    unfold donePieces
    have hr : reason rc = if rc = 0 then "max iterations".toList else if rc = 1 then "target tolerance reached".toList
        else if rc = 2 then "stagnation".toList else if rc = 3 then "nothing was migrated".toList else [] := by
      unfold reason
      by_cases h0 : rc = 0
      · subst h0; rfl
      · by_cases h1 : rc = 1
        · subst h1; rfl
        · by_cases h2 : rc = 2
          · subst h2; rfl
          · by_cases h3 : rc = 3
            · subst h3; rfl
            · rw [if_neg h1, if_neg h2, if_neg h3, if_neg h0, if_neg h0, if_neg h1, if_neg h2, if_neg h3]
    rw [hr]
    generalize (if rc = 0 then "max iterations".toList else if rc = 1 then "target tolerance reached".toList
        else if rc = 2 then "stagnation".toList else if rc = 3 then "nothing was migrated".toList else []) = w
    generalize "Completed diffusion for ".toList = k1
    generalize "in ".toList = k2
    generalize " steps and ".toList = k3
    generalize " seconds".toList = k4
    generalize " due to ".toList = k5
    generalize ".\n".toList = k6
    generalize (if dim = -1 then "vertices ".toList else "edge type ".toList ++ int dim ++ [' ']) = v
    by_cases hv : 2 ≤ verbosity
    · rw [if_pos hv, if_pos hv]
      simp only [List.flatten_cons, List.flatten_nil, List.append_assoc, List.nil_append, List.append_nil, List.cons_append]
    · rw [if_neg hv, if_neg hv]
      simp only [List.flatten_cons, List.flatten_nil, List.append_assoc, List.nil_append, List.append_nil, List.cons_append]
  · cases h

example : doneMessage (-1) 12 (3 / 2) 2 1 = .ok
    "Completed diffusion for vertices in 12 steps and 1.500000 seconds due to target tolerance reached.\n".toList := by decide +kernel

/-! ## the other texts -/

/-- **C86 (end of a criterion).**  The message of `balance` at the end of a criterion always fits its 200 characters (the seconds have at most 70
digits). -/
theorem c86_done (dim steps : Int) (secs : Rat) (verbosity rc : Int) (h1 : Int32 dim) (h2 : Int32 steps) (h3 : 0 ≤ secs) (h4 : secs < 10 ^ 69) :
    doneMessage dim steps secs verbosity rc = .ok (donePieces dim steps secs verbosity rc).flatten := by
  have l1 := int32_length h1
  have l2 := int32_length h2
  have l3 := fixed_length (k := 6) (by omega) (x := secs) (M := 10 ^ 69) (d := 70) (by rw [abs_of_nonneg h3]; exact_mod_cast h4.le) (by norm_num) (by omega)
  rw [if_neg (not_lt.mpr h3)] at l3
  have l4 : (reason rc).length ≤ 24 := by
    unfold reason
    split
    · decide
    · split
      · decide
      · split
        · decide
        · split <;> decide
  have c1 : "Completed diffusion for ".toList.length = 24 := by decide
  have c2 : "vertices ".toList.length = 9 := by decide
  have c3 : "edge type ".toList.length = 10 := by decide
  have c4 : "in ".toList.length = 3 := by decide
  have c5 : " steps and ".toList.length = 11 := by decide
  have c6 : " seconds".toList.length = 8 := by decide
  have c7 : " due to ".toList.length = 8 := by decide
  have c8 : ".\n".toList.length = 2 := by decide
  have l5 : (if dim = -1 then "vertices ".toList else "edge type ".toList ++ int dim ++ [' ']).length ≤ 22 := by
    split
    · omega
    · simp only [List.length_append, List.length_cons, List.length_nil, c3]; omega
  unfold doneMessage
  rw [build_eq 200 (by omega), if_pos]
  unfold donePieces
  by_cases hv : 2 ≤ verbosity
  · rw [if_pos hv]
    simp only [List.flatten_append, List.flatten_cons, List.flatten_nil, List.length_append, List.length_nil, c1, c4, c5, c6, c7, c8]
    omega
  · rw [if_neg hv]
    simp only [List.flatten_append, List.flatten_cons, List.flatten_nil, List.length_append, List.length_nil, c1, c4, c5, c6, c8]
    omega

example : doneMessage 0 12 (5 / 4) 2 2 = .ok "Completed diffusion for edge type 0 in 12 steps and 1.250000 seconds due to stagnation.\n".toList := by decide +kernel

/-- **C86 (parameters for Zoltan).**  The number of parts and the tolerance fit, for every tolerance below 10^90; the texts show them. -/
theorem c86_zoltan_partial (target : Int) (tol : Rat) (h1 : Int32 target) (h2 : |tol| < 10 ^ 90) :
    ∃ a b, zoltanParams target tol = .ok (a, b) ∧ a = int target ∧ Spells 6 tol b := by
  have l1 := int32_length h1
  have l2 := fixed_length (k := 6) (by omega) (x := tol) (M := 10 ^ 90) (d := 91) (by exact_mod_cast h2.le) (by norm_num) (by omega)
  have l3 : (fixed 6 tol).length ≤ 99 := by split at l2 <;> omega
  refine ⟨int target, fixed 6 tol, ?_, rfl, fixed_spells (by omega) tol⟩
  unfold zoltanParams sprintf
  rw [if_pos (by omega), Outcome.bind_ok, if_pos (by omega)]
  rfl

/-- **C86 is false for a huge tolerance.** -/
theorem c86_zoltan_ub : zoltanParams 4 (10 ^ 93) = .ub := by decide +kernel

/-- **C86 (log entries of construction).**  Both kinds of graph, both functions: the text fits its 45 characters. -/
theorem c86_construct (graph hyper : Bool) :
    constructLog (if graph then "constructGraph: ".toList else "constructVerts: ".toList) hyper =
      .ok ((if graph then "constructGraph: " else "constructVerts: ") ++ (if hyper then "Creating hypergraph\n" else "Creating traditional graph\n")).toList := by
  cases graph <;> cases hyper <;> decide +kernel

end Verif.Part.Text
