/-
C68: the log lists the calls made, each indented by the calls it is inside of, and keeping a log
changes nothing else.

True of every history that never leaves a reported call unended and balances no weights over
several processes (`c68_indented_partial`); exactly what happens with unended calls is
`c68_log_partial`; a process without a log writes nothing (`c68_closed`).  False otherwise: after
balancing weights the next operation aborts (`c68_weights_abort`), balancing with part weights
aborts by itself (`c68_part_weights_abort`), and long names overrun the program's arrays
(`c68_long_name`, `c68_long_file`).
-/
import Verif.Log.LogRun
import Mathlib.Tactic.FinCases

namespace Verif.Log
open Verif

/-! ### Helpers -/

theorem effect_closed (op : Op) {s c : Sys} (h : Ready s) (hc : c.file = false)
    (hg : c.graphs = s.graphs) (hp : c.peers = s.peers) (hs : op.short)
    (hw : op.noWeights s.peers) :
    op.run s = match op.run c with
      | .ok c' => .ok (logged s c'.graphs (op.calls c.peers c.graphs) (op.unended c.peers c.graphs))
      | .fail => .fail
      | .ub => .ub := by
  rw [run_eq op h hs hw, run_eq op (s := c) (by intro hf; simp [hc] at hf) hs (by rw [hp]; exact hw),
    hg, hp]
  cases op.effect s.peers s.graphs with
  | fail => rfl
  | ub => rfl
  | ok gs => rfl

theorem run_closed (op : Op) {c c' : Sys} (hc : c.file = false) (hs : op.short)
    (hw : op.noWeights c.peers) (h : op.run c = .ok c') :
    c' = { c with graphs := c'.graphs } := by
  rw [run_eq op (s := c) (by intro hf; simp [hc] at hf) hs hw] at h
  cases he : op.effect c.peers c.graphs with
  | fail => rw [he] at h; simp [mapO] at h
  | ub => rw [he] at h; simp [mapO] at h
  | ok gs =>
    rw [he] at h
    simp only [mapO, Outcome.ok.injEq] at h
    subst h
    simp [logged, hc]

theorem log_general : ∀ (ops : List Op) (d : Nat) (txt : List String) (c : Sys), c.file = false →
    (∀ op ∈ ops, op.short) → (∀ op ∈ ops, op.noWeights c.peers) →
    runAll ops { c with file := true, depth := d, text := txt }
      = match runAll ops c with
        | .ok c' => .ok { c' with file := true, depth := ((d + histUnended ops c : Nat) : Int),
                                  text := txt ++ histLines d ops c }
        | .fail => .fail
        | .ub => .ub
  | [], d, txt, c, _, _, _ => by simp [runAll, histUnended, histLines]
  | op :: ops, d, txt, c, hc, hs, hw => by
      have h1 : Ready { c with file := true, depth := (d : Int), text := txt } := by
        intro _; simp
      have e := effect_closed op (c := c) h1 hc rfl rfl (hs op (by simp)) (hw op (by simp))
      unfold runAll histUnended histLines
      rw [e]
      cases hr : op.run c with
      | fail => rfl
      | ub => rfl
      | ok c' =>
        have hcc := run_closed op hc (hs op (by simp)) (hw op (by simp)) hr
        simp only [Outcome.bind_ok]
        have e2 : logged { c with file := true, depth := (d : Int), text := txt } c'.graphs
            (op.calls c.peers c.graphs) (op.unended c.peers c.graphs)
            = { c' with file := true, depth := ((d + op.unended c.peers c.graphs : Nat) : Int),
                        text := txt ++ Call.linesAll d (op.calls c.peers c.graphs) } := by
          rw [hcc]
          simp [logged]
        have hf' : c'.file = false := by rw [hcc]; exact hc
        have hp' : c'.peers = c.peers := by rw [hcc]
        rw [e2, log_general ops _ _ c' hf' (fun o ho => hs o (by simp [ho]))
          (fun o ho => by rw [hp']; exact hw o (by simp [ho]))]
        cases runAll ops c' with
        | fail => rfl
        | ub => rfl
        | ok c'' =>
          simp only [List.append_assoc]
          rw [show d + (op.unended c.peers c.graphs + histUnended ops c')
            = d + op.unended c.peers c.graphs + histUnended ops c' by omega]

theorem histLines_quiet : ∀ (ops : List Op) (d : Nat) (c : Sys), histUnended ops c = 0 →
    histLines d ops c = Call.linesAll d (histCalls ops c)
  | [], d, c, _ => by simp [histLines, histCalls, Call.linesAll]
  | op :: ops, d, c, h => by
      unfold histUnended at h
      unfold histLines histCalls
      rw [linesAll_append]
      congr 1
      cases hr : op.run c with
      | fail => simp [Call.linesAll]
      | ub => simp [Call.linesAll]
      | ok c' =>
        rw [hr] at h
        simp only at h ⊢
        rw [show op.unended c.peers c.graphs = 0 by omega]
        exact histLines_quiet ops d c' (by omega)

theorem runAll_append : ∀ (a b : List Op) (s : Sys), runAll (a ++ b) s = runAll a s >>= runAll b
  | [], b, s => by simp [runAll]
  | op :: a, b, s => by
      simp only [List.cons_append, runAll]
      cases op.run s with
      | fail => rfl
      | ub => rfl
      | ok s' => simp only [Outcome.bind_ok]; exact runAll_append a b s'

/-- Below zero, nothing can be reported. -/
theorem logOpen_neg {cap : Nat} {msg : String} {s : Sys} (hf : s.file = true) (hd : s.depth < 0)
    (hc : msg.length + 1 ≤ cap) : logOpen cap msg s = .fail := by
  simp [logOpen, hf, logFunction, hd]
  omega

theorem run_neg (op : Op) {s c : Sys} (hf : s.file = true) (hd : s.depth < 0) (hs : op.short)
    (hg : c.graphs = s.graphs) (hu : op.run c ≠ .ub) : op.run s = .fail := by
  cases op with
  | constructGraph g hyper =>
    simp only [Op.run, constructGraph]
    rw [logOpen_neg hf hd (by cases hyper <;> decide), Outcome.bind_fail]
  | constructVerts g hyper =>
    simp only [Op.run, constructVerts]
    rw [logOpen_neg hf hd (by cases hyper <;> decide), Outcome.bind_fail]
  | constructEdges g =>
    simp only [Op.run, constructEdges] at hu ⊢
    by_cases h7 : (s.graphs g).types = 7
    · rw [if_pos h7]
    · rw [if_neg h7]
      by_cases h8 : 7 < (s.graphs g).types
      · exact absurd (by rw [if_neg (show ¬ (c.graphs g).types = 7 by rw [hg]; exact h7),
          if_pos (show 7 < (c.graphs g).types by rw [hg]; exact h8)]) hu
      · rw [if_neg h8]
        have hl := digit_length (show (s.graphs g).types < 7 by omega)
        have hm : ("constructEdges: " ++ toString (s.graphs g).types ++ "\n").length + 1 ≤ 45 := by
          rw [String.length_append, String.length_append, hl]
          decide
        rw [logOpen_neg (s := setGraph g _ s) hf hd hm, Outcome.bind_fail]
  | constructGhosts =>
    simp only [Op.run, constructGhosts]
    rw [logOpen_neg hf hd (by decide), Outcome.bind_fail]
  | loadFromFile g hyper nt =>
    simp only [Op.run, loadFromFile, constructVerts]
    rw [logOpen_neg hf hd (by cases hyper <;> decide), Outcome.bind_fail, Outcome.bind_fail]
  | removeEdges g t =>
    simp only [Op.run, removeEdges] at hu ⊢
    by_cases h7 : 7 ≤ t
    · exact absurd (by rw [if_pos h7]) hu
    · rw [if_neg h7]
      have hl := digit_length (show t < 7 by omega)
      have hm : ("destroyEdges " ++ toString t ++ "\n").length + 1 ≤ 45 := by
        rw [String.length_append, String.length_append, hl]
        decide
      rw [logOpen_neg hf hd hm, Outcome.bind_fail]
  | destroyGraph g =>
    simp only [Op.run, destroyGraph]
    rw [logOpen_neg hf hd (by decide), Outcome.bind_fail]
  | setOriginalOwners g =>
    simp only [Op.run, setOriginalOwners]
    rw [logOpen_neg hf hd (by decide), Outcome.bind_fail]
  | resetOwnership g =>
    simp only [Op.run, resetOwnership]
    rw [logOpen_neg hf hd (by decide), Outcome.bind_fail]
  | getPartition g =>
    simp only [Op.run, getPartition]
    rw [logOpen_neg hf hd (by decide), Outcome.bind_fail]
  | migrate g hyper nt =>
    simp only [Op.run, migrate, constructVerts]
    rw [logOpen_neg hf hd (by cases hyper <;> decide), Outcome.bind_fail, Outcome.bind_fail]
  | repartition g hyper nt =>
    simp only [Op.run, repartition, setOriginalOwners]
    rw [logOpen_neg hf hd (by decide), Outcome.bind_fail, Outcome.bind_fail]
  | createAPFGraph g prim sec =>
    have hm : ("createAPFGraph " ++ toString prim ++ " with edge " ++ toString sec ++ "\n").length + 1
        ≤ 50 := by
      simp only [String.length_append]
      have h1 : ("createAPFGraph ").length = 15 := by decide
      have h2 : (" with edge ").length = 11 := by decide
      have h3 : ("\n").length = 1 := by decide
      have : (toString prim).length + (toString sec).length ≤ 22 := hs
      omega
    simp only [Op.run, createAPFGraph, logLine]
    rw [logOpen_neg hf hd hm, Outcome.bind_fail, Outcome.bind_fail]
  | createSerendipityGraph g name order =>
    have hm : ("createSerendipityGraph " ++ name ++ " with order " ++ toString order ++ "\n").length
        + 1 ≤ 50 := by
      simp only [String.length_append]
      have h1 : ("createSerendipityGraph ").length = 23 := by decide
      have h2 : (" with order ").length = 12 := by decide
      have h3 : ("\n").length = 1 := by decide
      have : name.length + (toString order).length ≤ 13 := hs
      omega
    simp only [Op.run, createSerendipityGraph, logLine]
    rw [logOpen_neg hf hd hm, Outcome.bind_fail, Outcome.bind_fail]
  | createBinGraph g file =>
    have hm : ("createBinGraph " ++ file ++ "\n").length + 1 ≤ 256 := by
      simp only [String.length_append]
      have h1 : ("createBinGraph ").length = 15 := by decide
      have h3 : ("\n").length = 1 := by decide
      have : file.length ≤ 239 := hs
      omega
    simp only [Op.run, createBinGraph, logLine]
    rw [logOpen_neg hf hd hm, Outcome.bind_fail, Outcome.bind_fail]
  | balance b =>
    simp only [Op.run, balance, logLine]
    rw [logOpen_neg hf hd (by decide), Outcome.bind_fail, Outcome.bind_fail]
  | balanceWeights =>
    simp only [Op.run, balanceWeights, logLine]
    rw [logOpen_neg hf hd (by decide), Outcome.bind_fail, Outcome.bind_fail]

/-- The part weight balancer ends one call more than it reports. -/
theorem partWeightBalancer_depth (w : Nat) (old : Bool) {s : Sys} (hf : s.file = true)
    (hp : s.peers ≠ 1) : partWeightBalancer w old s = .fail ∨
      ∃ s', partWeightBalancer w old s = .ok s' ∧ s'.file = true ∧ s'.peers = s.peers ∧
        s'.depth = s.depth - 1 := by
  by_cases hd : s.depth < 0
  · left
    unfold partWeightBalancer
    cases old
    · simp only [Bool.false_eq_true, if_false, Outcome.bind_ok, constructVerts]
      rw [logOpen_neg (s := setGraph w freshGraph s) hf hd (by decide), Outcome.bind_fail,
        Outcome.bind_fail]
    · simp only [if_true, destroyGraph]
      rw [logOpen_neg hf hd (by decide), Outcome.bind_fail, Outcome.bind_fail]
  · right
    have key : ∀ s1 : Sys, s1.file = true → s1.peers = s.peers → s1.depth = s.depth →
        ∃ s', (do
          let s := setGraph w freshGraph s1
          let s ← constructVerts w false s
          let s ← constructEdges w s
          let s ← constructGhosts s
          weightBalancer s) = .ok s' ∧ s'.file = true ∧ s'.peers = s.peers ∧
          s'.depth = s.depth - 1 := by
      intro s1 hf1 hp1 hd1
      have h1 : Ready (setGraph w freshGraph s1) := by
        intro _
        show (0 : Int) ≤ s1.depth
        omega
      simp only []
      rw [constructVerts_eq w false h1, Outcome.bind_ok,
        constructEdges_eq w (logged_zero h1 _ _) (by simp [upd]), Outcome.bind_ok, logged_seq,
        constructGhosts_eq (logged_zero h1 _ _), Outcome.bind_ok, logged_seq, weightBalancer]
      have hp2 : ¬ s1.peers = 1 := by rw [hp1]; exact hp
      rw [if_neg (show ¬ (logged (setGraph w freshGraph s1) _ _ 0).peers = 1 from hp2)]
      refine ⟨_, rfl, ?_, ?_, ?_⟩
      · simp [logged, setGraph, endFunction, hf1]
      · simp [logged, setGraph, endFunction, hf1, hp1]
      · simp [logged, setGraph, endFunction, hf1, hd1]
    have hr : Ready s := by intro _; omega
    unfold partWeightBalancer
    cases old
    · simp only [Bool.false_eq_true, if_false, Outcome.bind_ok]
      exact key s hf rfl rfl
    · have hdg := run_eq (.destroyGraph w) hr trivial trivial
      simp only [Op.run, Op.effect, mapO, Op.unended] at hdg
      simp only [if_true]
      rw [hdg, Outcome.bind_ok]
      exact key _ hf rfl (by simp [logged])

theorem migrations_depth (g : Nat) (hyper : Bool) (nt n : Nat) {s : Sys} (hf : s.file = true) :
    migrations g hyper nt n s = .fail ∨
      ∃ s', migrations g hyper nt n s = .ok s' ∧ s'.file = true ∧ s'.peers = s.peers ∧
        s'.depth = s.depth := by
  by_cases hd : s.depth < 0
  · cases n with
    | zero => exact .inr ⟨s, rfl, hf, rfl, rfl⟩
    | succ n =>
      left
      simp only [migrations, migrate, constructVerts]
      rw [logOpen_neg hf hd (by cases hyper <;> decide)]
      rfl
  · have hr : Ready s := by intro _; omega
    rw [migrations_eq g hyper nt n hr]
    have hm : ∀ n gs, movesE g nt n gs ≠ .ub := by
      intro n
      induction n with
      | zero => intro gs; simp [movesE]
      | succ n ih => intro gs; unfold movesE; split <;> simp [ih]
    cases he : movesE g nt n s.graphs with
    | fail => exact .inl rfl
    | ub => exact absurd he (hm _ _)
    | ok gs => exact .inr ⟨_, rfl, hf, rfl, by simp [logged]⟩

theorem criteria_depth (g : Nat) (hyper : Bool) (nt w : Nat) : ∀ (ms : List Nat) (old : Bool)
    {s : Sys}, s.file = true → s.peers ≠ 1 → criteria g hyper nt w true old ms s = .fail ∨
      ∃ s', criteria g hyper nt w true old ms s = .ok s' ∧ s'.file = true ∧ s'.peers = s.peers ∧
        s'.depth = s.depth - ms.length
  | [], old, s, hf, _ => .inr ⟨s, rfl, hf, rfl, by simp⟩
  | m :: ms, old, s, hf, hp => by
      simp only [criteria, if_true]
      rcases partWeightBalancer_depth w old hf hp with h | ⟨s1, h, hf1, hp1, hd1⟩
      · rw [h]; exact .inl rfl
      · rw [h, Outcome.bind_ok]
        rcases migrations_depth g hyper nt m hf1 with h | ⟨s2, h, hf2, hp2, hd2⟩
        · rw [h]; exact .inl rfl
        · rw [h, Outcome.bind_ok]
          rcases criteria_depth g hyper nt w ms (old || true) hf2 (by rw [hp2, hp1]; exact hp) with
            h | ⟨s3, h, hf3, hp3, hd3⟩
          · rw [h]; exact .inl rfl
          · refine .inr ⟨s3, h, hf3, by rw [hp3, hp2, hp1], ?_⟩
            rw [hd3, hd2, hd1, List.length_cons]
            omega

theorem balance_pw_fail (b : Balance) {s : Sys} (hf : s.file = true) (hd0 : 0 ≤ s.depth)
    (hp : s.peers ≠ 1) (hpw : b.pw = true) (hs : b.params.length ≤ 986)
    (hd : s.depth + (if (s.graphs b.g).orig then 1 else 0) < b.rest.length + 1) :
    balance b s = .fail := by
  have h : Ready s := fun _ => hd0
  have hm : ("balance() : \n" ++ b.params).length + 1 ≤ 1000 := by
    rw [String.length_append]
    have : ("balance() : \n").length = 13 := by decide
    omega
  unfold balance
  rw [logLine_eq h (by decide), Outcome.bind_ok]
  have h1 := logged_zero h s.graphs [leaf "makeBalancer\n"]
  unfold balancerRun
  rw [logOpen_eq _ h1 hm, Outcome.bind_ok,
    if_neg (show ¬ (inside (logged s s.graphs [leaf "makeBalancer\n"] 0)
        ("balance() : \n" ++ b.params)).peers = 1 from hp),
    setOriginalOwners_eq b.g (inside_ready h1 _), Outcome.bind_ok, hpw]
  generalize hx : logged (inside (logged s s.graphs [leaf "makeBalancer\n"] 0)
    ("balance() : \n" ++ b.params)) _ [leaf "setOriginalOwners\n"] _ = s1
  have hf1 : s1.file = true := by rw [← hx]; exact hf
  have hp1 : s1.peers = s.peers := by rw [← hx]; rfl
  have hd1 : s1.depth = s.depth + 1 + (if (s.graphs b.g).orig then 1 else 0) := by
    rw [← hx]
    by_cases ho : (s.graphs b.g).orig = true <;> simp [logged, inside, hf, ho]
  rcases criteria_depth b.g b.hyper b.nt b.w (b.first :: b.rest) false hf1 (by rw [hp1]; exact hp)
    with h' | ⟨s2, h', hf2, hp2, hd2⟩
  · rw [h']; rfl
  · rw [h', Outcome.bind_ok]
    simp only [logEnd, Outcome.bind_ok, if_pos hf2]
    rw [if_pos ⟨trivial, by show s2.peers ≠ 1; rw [hp2, hp1]; exact hp⟩, destroyGraph,
      logOpen_neg (s := endFunction s2) hf2 (by
        show s2.depth - 1 < 0
        rw [hd2, hd1, List.length_cons]
        omega) (by decide), Outcome.bind_fail]

/-- Doing nothing to the log. -/
def Keeps (p : Sys → Outcome Sys) : Prop :=
  ∀ s s', s.file = false → p s = .ok s' → s'.file = false ∧ s'.text = s.text

theorem Keeps.bind {p q : Sys → Outcome Sys} (hp : Keeps p) (hq : Keeps q) :
    Keeps (fun s => p s >>= q) := by
  intro s s' hf h
  cases h1 : p s with
  | fail => simp [h1] at h
  | ub => simp [h1] at h
  | ok s1 =>
    have h : p s >>= q = .ok s' := h
    rw [h1, Outcome.bind_ok] at h
    obtain ⟨a, b⟩ := hp s s1 hf h1
    obtain ⟨c, d⟩ := hq s1 s' a h
    exact ⟨c, d.trans b⟩

theorem keeps_ok (f : Sys → Sys) (hf : ∀ s, (f s).file = s.file) (ht : ∀ s, (f s).text = s.text) :
    Keeps (fun s => .ok (f s)) := by
  intro s s' h0 h
  simp only [Outcome.ok.injEq] at h
  subst h
  exact ⟨(hf s).trans h0, ht s⟩

theorem keeps_open (cap : Nat) (msg : String) : Keeps (logOpen cap msg) := by
  intro s s' h0 h
  simp only [logOpen, h0, Bool.false_eq_true, if_false, Outcome.ok.injEq] at h
  subst h
  exact ⟨h0, rfl⟩

theorem keeps_end : Keeps logEnd := by
  intro s s' h0 h
  simp only [logEnd, h0, Bool.false_eq_true, if_false, Outcome.ok.injEq] at h
  subst h
  exact ⟨h0, rfl⟩

theorem keeps_if (c : Sys → Prop) [DecidablePred c] {p q : Sys → Outcome Sys} (hp : Keeps p)
    (hq : Keeps q) : Keeps (fun s => if c s then p s else q s) := by
  intro s s' h0 h
  by_cases hc : c s
  · simp only [if_pos hc] at h; exact hp s s' h0 h
  · simp only [if_neg hc] at h; exact hq s s' h0 h

theorem keeps_id : Keeps (fun s => .ok s) := keeps_ok id (fun _ => rfl) (fun _ => rfl)
theorem keeps_fail : Keeps (fun _ => .fail) := by intro s s' _ h; simp at h
theorem keeps_ub : Keeps (fun _ => .ub) := by intro s s' _ h; simp at h

/-- Changing a graph first. -/
theorem Keeps.graph {p : Sys → Outcome Sys} (hp : Keeps p) (g : Nat) (f : GraphSt → GraphSt) :
    Keeps (fun s => p (setGraph g (f (s.graphs g)) s)) := fun s s' h0 h => hp (setGraph g (f (s.graphs g)) s) s' h0 h

theorem keeps_set (g : Nat) (f : GraphSt → GraphSt) :
    Keeps (fun s => .ok (setGraph g (f (s.graphs g)) s)) := keeps_ok _ (fun _ => rfl) (fun _ => rfl)

theorem keeps_destroyData (g : Nat) : Keeps (destroyData g) :=
  (keeps_open _ _).bind (keeps_end.graph g (fun x => { x with orig := false }))
theorem keeps_constructVerts (g : Nat) (hyper : Bool) : Keeps (constructVerts g hyper) :=
  (keeps_open _ _).bind ((keeps_destroyData g).bind (keeps_end.graph g (fun x => { x with types := 0 })))
theorem keeps_constructEdges (g : Nat) : Keeps (constructEdges g) := by
  intro s s' h0 h
  unfold constructEdges at h
  split at h
  · simp at h
  · split at h
    · simp at h
    · exact ((keeps_open _ _).bind keeps_end) (setGraph g _ s) s' h0 h
theorem keeps_constructGhosts : Keeps constructGhosts := (keeps_open _ _).bind keeps_end
theorem keeps_edgesLoop (g : Nat) : ∀ n, Keeps (edgesLoop g n)
  | 0 => keeps_id
  | n + 1 => (keeps_constructEdges g).bind (keeps_edgesLoop g n)
theorem keeps_loadFromFile (g : Nat) (hyper : Bool) (nt : Nat) : Keeps (loadFromFile g hyper nt) :=
  (keeps_constructVerts g hyper).bind ((keeps_edgesLoop g nt).bind keeps_constructGhosts)
theorem keeps_migrate (g : Nat) (hyper : Bool) (nt : Nat) : Keeps (migrate g hyper nt) := by
  intro s s' h0 h
  rw [migrate_load] at h
  exact ((keeps_loadFromFile g hyper nt).bind (keeps_if (fun s => (s.graphs g).orig = true)
    keeps_fail (keeps_set g (fun x => { x with orig := true })))) s s' h0 h
theorem keeps_destroyGraph (g : Nat) : Keeps (destroyGraph g) :=
  (keeps_open _ _).bind ((keeps_destroyData g).bind keeps_end)
theorem keeps_setOriginalOwners (g : Nat) : Keeps (setOriginalOwners g) :=
  (keeps_open _ _).bind (keeps_if (fun s => (s.graphs g).orig = true) keeps_id
    (keeps_end.graph g (fun x => { x with orig := true })))
theorem keeps_logLine (cap : Nat) (msg : String) : Keeps (logLine cap msg) :=
  (keeps_open _ _).bind keeps_end
theorem keeps_weightBalancer : Keeps weightBalancer :=
  keeps_if (fun s => s.peers = 1) keeps_id keeps_end
theorem keeps_partWeightBalancer (w : Nat) (old : Bool) : Keeps (partWeightBalancer w old) :=
  (keeps_if (fun _ => old = true) (keeps_destroyGraph w) keeps_id).bind
    (((keeps_constructVerts w false).bind ((keeps_constructEdges w).bind
      (keeps_constructGhosts.bind keeps_weightBalancer))).graph w (fun _ => freshGraph))
theorem keeps_migrations (g : Nat) (hyper : Bool) (nt : Nat) : ∀ n, Keeps (migrations g hyper nt n)
  | 0 => keeps_id
  | n + 1 => (keeps_migrate g hyper nt).bind (keeps_migrations g hyper nt n)
theorem keeps_criteria (g : Nat) (hyper : Bool) (nt w : Nat) (pw : Bool) :
    ∀ (ms : List Nat) (old : Bool), Keeps (criteria g hyper nt w pw old ms)
  | [], _ => keeps_id
  | m :: ms, old => (keeps_if (fun _ => pw = true) (keeps_partWeightBalancer w old) keeps_id).bind
      ((keeps_migrations g hyper nt m).bind (keeps_criteria g hyper nt w pw ms _))
theorem keeps_balancerRun (b : Balance) : Keeps (balancerRun b) :=
  (keeps_open _ _).bind (keeps_if (fun s => s.peers = 1) keeps_id
    ((keeps_setOriginalOwners b.g).bind ((keeps_criteria _ _ _ _ _ _ _).bind keeps_end)))
theorem keeps_balance (b : Balance) : Keeps (balance b) :=
  (keeps_logLine _ _).bind ((keeps_balancerRun b).bind
    (keeps_if (fun s => b.pw = true ∧ s.peers ≠ 1) (keeps_destroyGraph b.w) keeps_id))

theorem keeps_run (op : Op) : Keeps op.run := by
  cases op with
  | constructGraph g hyper =>
    exact (keeps_open _ _).bind ((keeps_constructVerts g hyper).bind ((keeps_constructEdges g).bind
      (keeps_constructGhosts.bind keeps_end)))
  | constructVerts g hyper => exact keeps_constructVerts g hyper
  | constructEdges g => exact keeps_constructEdges g
  | constructGhosts => exact keeps_constructGhosts
  | loadFromFile g hyper nt => exact keeps_loadFromFile g hyper nt
  | removeEdges g t =>
    exact keeps_if (fun _ => 7 ≤ t) keeps_ub ((keeps_open _ _).bind
      (keeps_set g (fun x => if t + 1 = x.types then { x with types := x.types - 1 } else x)))
  | destroyGraph g => exact keeps_destroyGraph g
  | setOriginalOwners g => exact keeps_setOriginalOwners g
  | resetOwnership g =>
    exact (keeps_open _ _).bind (((keeps_setOriginalOwners g).bind keeps_end).graph g
      (fun x => { x with orig := false }))
  | getPartition g =>
    exact (keeps_open _ _).bind (keeps_if (fun s => (s.graphs g).orig = true) keeps_end keeps_fail)
  | migrate g hyper nt => exact keeps_migrate g hyper nt
  | repartition g hyper nt => exact (keeps_setOriginalOwners g).bind (keeps_migrate g hyper nt)
  | createAPFGraph g _ _ => exact (keeps_logLine _ _).bind (keeps_set g (fun _ => ⟨1, false⟩))
  | createSerendipityGraph g _ _ => exact (keeps_logLine _ _).bind (keeps_set g (fun _ => ⟨1, false⟩))
  | createBinGraph g _ => exact (keeps_logLine _ _).bind (keeps_set g (fun _ => ⟨1, false⟩))
  | balance b => exact keeps_balance b
  | balanceWeights => exact (keeps_logLine _ _).bind keeps_weightBalancer

theorem keeps_runAll : ∀ ops, Keeps (runAll ops)
  | [] => keeps_id
  | op :: ops => (keeps_run op).bind (keeps_runAll ops)

theorem peers_kept : ∀ (ops : List Op) (x y : Sys), x.file = false → (∀ o ∈ ops, o.short) →
    (∀ o ∈ ops, o.noWeights x.peers) → runAll ops x = .ok y → y.peers = x.peers
  | [], x, y, _, _, _, h => by simp only [runAll, Outcome.ok.injEq] at h; rw [← h]
  | o :: ops, x, y, hx, hs, hw, h => by
      simp only [runAll] at h
      cases h2 : o.run x with
      | fail => simp [h2] at h
      | ub => simp [h2] at h
      | ok z =>
        rw [h2, Outcome.bind_ok] at h
        have hz := run_closed o hx (hs o (by simp)) (hw o (by simp)) h2
        have hzp : z.peers = x.peers := by rw [hz]
        have hzf : z.file = false := by rw [hz]; exact hx
        rw [← hzp]
        exact peers_kept ops z y hzf (fun o ho => hs o (by simp [ho]))
          (fun o ho => by rw [hzp]; exact hw o (by simp [ho])) h

/-! ### The properties -/

/-- On rank 0, for any history of operations that balances no weights over several processes: the
history ends as it does without a log, in the same state, and the log holds the calls made, each
operation's inside the calls that were left unended before it. -/
theorem c68_log_partial (s : Sys) (hr : s.rank = 0) (ops : List Op)
    (hs : ∀ op ∈ ops, op.short) (hw : ∀ op ∈ ops, op.noWeights s.peers) :
    runAll ops (openLog s)
      = match runAll ops (closeLog s) with
        | .ok c => .ok { c with file := true, depth := histUnended ops (closeLog s),
                                text := histLines 0 ops (closeLog s) }
        | .fail => .fail
        | .ub => .ub := by
  have h := log_general ops 0 [] (closeLog s) rfl hs hw
  have e : ({ closeLog s with file := true, depth := ((0 : Nat) : Int), text := [] } : Sys)
      = openLog s := by
    simp [closeLog, openLog, hr]
  rw [e] at h
  simp only [Nat.zero_add, List.nil_append] at h
  exact h

/-- If moreover every call reported was reported as ended, the log is the calls made, indented by
the calls they are inside of. -/
theorem c68_indented_partial (s c : Sys) (hr : s.rank = 0) (ops : List Op)
    (hs : ∀ op ∈ ops, op.short) (hw : ∀ op ∈ ops, op.noWeights s.peers)
    (hq : histUnended ops (closeLog s) = 0) (hok : runAll ops (closeLog s) = .ok c) :
    ∃ s', runAll ops (openLog s) = .ok s' ∧ s'.graphs = c.graphs ∧
      s'.text = Call.linesAll 0 (histCalls ops (closeLog s)) := by
  have h := c68_log_partial s hr ops hs hw
  rw [hok] at h
  refine ⟨_, h, rfl, ?_⟩
  exact histLines_quiet ops 0 _ hq

/-- A process that is not rank 0, or has closed its log, writes nothing, whatever it does. -/
theorem c68_closed (s s' : Sys) (hc : s.file = false) (ops : List Op) :
    (runAll ops s = .ok s' → s'.text = s.text) ∧
    (s.rank ≠ 0 → runAll ops (openLog s) = .ok s' → s'.text = s.text) := by
  refine ⟨fun h => (keeps_runAll ops s s' hc h).2, fun hr h => ?_⟩
  have e : openLog s = s := by simp [openLog, hr]
  rw [e] at h
  exact (keeps_runAll ops s s' hc h).2

/-- Balancing weights over several processes with every earlier call ended: the next reported
operation, whichever it is, aborts, though without a log it goes through. -/
theorem c68_weights_abort (s c : Sys) (hr : s.rank = 0) (hp : s.peers ≠ 1) (ops : List Op) (op : Op)
    (hs : ∀ o ∈ ops, o.short) (hw : ∀ o ∈ ops, o.noWeights s.peers)
    (hq : histUnended ops (closeLog s) = 0) (hso : op.short)
    (hok : runAll (ops ++ [.balanceWeights, op]) (closeLog s) = .ok c) :
    runAll (ops ++ [.balanceWeights, op]) (openLog s) = .fail := by
  rw [runAll_append] at hok ⊢
  have h := c68_log_partial s hr ops hs hw
  cases h1 : runAll ops (closeLog s) with
  | fail => rw [h1] at hok; simp at hok
  | ub => rw [h1] at hok; simp at hok
  | ok c1 =>
    rw [h1] at h hok
    rw [h, Outcome.bind_ok, hq]
    rw [Outcome.bind_ok] at hok
    simp only [runAll] at hok ⊢
    have hpeers : c1.peers = s.peers := peers_kept ops (closeLog s) c1 rfl hs hw h1
    have hf1 : c1.file = false := (keeps_runAll ops _ _ rfl h1).1
    have hrd : Ready { c1 with file := true, depth := ((0 : Nat) : Int),
                               text := histLines 0 ops (closeLog s) } := by intro _; simp
    have e1 : ∃ s2, (Op.balanceWeights).run
          { c1 with file := true, depth := ((0 : Nat) : Int), text := histLines 0 ops (closeLog s) }
        = .ok s2 ∧ s2.file = true ∧ s2.depth < 0 ∧ c1.graphs = s2.graphs := by
      simp only [Op.run, balanceWeights]
      rw [logLine_eq hrd (by decide), Outcome.bind_ok, weightBalancer,
        if_neg (show ¬ (logged _ _ _ 0).peers = 1 by
          rw [logged_peers]; show ¬ c1.peers = 1; rw [hpeers]; exact hp)]
      exact ⟨_, rfl, by simp [logged, endFunction], by simp [logged, endFunction],
        by simp [logged, endFunction]⟩
    have e2 : (Op.balanceWeights).run c1 = .ok c1 := by
      have hl : logLine 25 "balanceWeights\n" c1 = .ok c1 := by
        simp [logLine, logOpen, logEnd, hf1]
      simp only [Op.run, balanceWeights]
      rw [hl, Outcome.bind_ok]
      simp [weightBalancer, logEnd, hf1]
    obtain ⟨s2, e1, hf2, hd2, hg2⟩ := e1
    rw [e1, Outcome.bind_ok]
    rw [e2, Outcome.bind_ok] at hok
    rw [run_neg op hf2 hd2 hso hg2 (by intro hu; simp [hu] at hok), Outcome.bind_fail]

/-- Balancing with the part weight balancer over several processes: if fewer calls are unended
before the balancing starts (counting the one left by asking for original owners again) than
criteria are balanced, the program aborts. -/
theorem c68_part_weights_abort (s c : Sys) (hr : s.rank = 0) (hp : s.peers ≠ 1) (ops : List Op)
    (b : Balance) (hs : ∀ o ∈ ops, o.short) (hw : ∀ o ∈ ops, o.noWeights s.peers)
    (hok : runAll ops (closeLog s) = .ok c) (hpw : b.pw = true) (hsb : b.params.length ≤ 986)
    (hq : histUnended ops (closeLog s) + (if (c.graphs b.g).orig then 1 else 0)
      < (b.first :: b.rest).length) :
    runAll (ops ++ [.balance b]) (openLog s) = .fail := by
  rw [runAll_append]
  have h := c68_log_partial s hr ops hs hw
  rw [hok] at h
  rw [h, Outcome.bind_ok]
  simp only [runAll, Op.run]
  rw [balance_pw_fail b rfl (by simp) (by
      have := peers_kept ops (closeLog s) c rfl hs hw hok
      show c.peers ≠ 1
      rw [this]; exact hp) hpw hsb
    (by rw [List.length_cons] at hq; simp only; split at hq <;> simp_all <;> omega)]
  rfl

/-- A serendipity graph whose name and order together take more than 13 characters can not be made
while the log is open: the message overruns its array. -/
theorem c68_long_name (s : Sys) (hf : s.file = true) (g : Nat) (name : String) (order : Nat)
    (hl : 13 < name.length + (toString order).length) :
    (Op.createSerendipityGraph g name order).run s = .ub := by
  have h1 : ("createSerendipityGraph ").length = 23 := by decide
  have h2 : (" with order ").length = 12 := by decide
  have h3 : ("\n").length = 1 := by decide
  simp only [Op.run, createSerendipityGraph, logLine, logOpen, if_pos hf]
  rw [if_pos]
  · rfl
  · simp only [String.length_append]
    omega

/-- So it is for a binary graph whose file name has more than 239 characters. -/
theorem c68_long_file (s : Sys) (hf : s.file = true) (g : Nat) (file : String)
    (hl : 239 < file.length) : (Op.createBinGraph g file).run s = .ub := by
  have h1 : ("createBinGraph ").length = 15 := by decide
  have h3 : ("\n").length = 1 := by decide
  simp only [Op.run, createBinGraph, logLine, logOpen, if_pos hf]
  rw [if_pos]
  · rfl
  · simp only [String.length_append]
    omega

/-! ### Cases -/

/-- Rank 0 of two processes, with no graph in use. -/
def two : Sys := ⟨0, 2, false, 0, [], fun _ => freshGraph⟩

/-- A hypergraph is built, its original owners are kept, and it is migrated. -/
def build : List Op := [.constructGraph 0 true, .setOriginalOwners 0, .migrate 0 true 1]

example : build.all (fun _ => true) = true ∧ (∀ op ∈ build, op.short) ∧
    (∀ op ∈ build, op.noWeights two.peers) := by
  refine ⟨rfl, ?_, ?_⟩ <;> intro op h <;> fin_cases h <;> trivial

example : histUnended build (closeLog two) = 0 := by decide +kernel

example : (match runAll build (openLog two) with
    | .ok s => s.text
    | _ => []) = ["constructGraph: Creating hypergraph\n",
      "  constructVerts: Creating hypergraph\n",
      "    destroyData\n",
      "  constructEdges: 0\n",
      "  constructGhosts\n",
      "setOriginalOwners\n",
      "constructVerts: Creating hypergraph\n",
      "  destroyData\n",
      "constructEdges: 0\n",
      "constructGhosts\n"] := by decide +kernel

/-- Asking for original owners a second time: what follows is listed inside that call. -/
theorem c68_again_witness : (match runAll
      [.constructVerts 0 true, .setOriginalOwners 0, .setOriginalOwners 0, .destroyGraph 0]
      (openLog two) with
    | .ok s => (s.text, s.depth)
    | _ => ([], 0)) = (["constructVerts: Creating hypergraph\n",
      "  destroyData\n",
      "setOriginalOwners\n",
      "setOriginalOwners\n",
      "  destroyGraph\n",
      "    destroyData\n"], 1) := by decide +kernel

/-- So it is after removing edges, and after balancing on one process. -/
theorem c68_remove_witness : (match runAll
      [.constructGraph 0 true, .removeEdges 0 0, .destroyGraph 0,
       .balance ⟨1, true, 1, 2, false, "params\n", 0, []⟩, .destroyGraph 1]
      (openLog { two with peers := 1 }) with
    | .ok s => (s.text.drop 5, s.depth)
    | _ => ([], 0)) = (["destroyEdges 0\n",
      "  destroyGraph\n",
      "    destroyData\n",
      "  makeBalancer\n",
      "  balance() : \nparams\n",
      "    destroyGraph\n",
      "      destroyData\n"], 2) := by decide +kernel

/-- The hypotheses of `c68_weights_abort` are met: two processes balance weights, then one graph is
destroyed. -/
example : histUnended build (closeLog two) = 0 ∧
    (match runAll (build ++ [.balanceWeights, .destroyGraph 0]) (closeLog two) with
      | .ok _ => true
      | _ => false) = true ∧
    (match runAll (build ++ [.balanceWeights, .destroyGraph 0]) (openLog two) with
      | .fail => true
      | _ => false) = true := by decide +kernel

/-- Those of `c68_part_weights_abort` are met by the first balancing of a graph, with part weights:
it goes through without the log and aborts with it. -/
example : histUnended [.constructGraph 0 true] (closeLog two) = 0 ∧
    (match runAll [.constructGraph 0 true, .balance ⟨0, true, 1, 2, true, "", 1, []⟩]
        (closeLog two) with
      | .ok _ => true
      | _ => false) = true ∧
    (match runAll [.constructGraph 0 true, .balance ⟨0, true, 1, 2, true, "", 1, []⟩]
        (openLog two) with
      | .fail => true
      | _ => false) = true := by decide +kernel

/-- A name of fourteen characters, order 2. -/
example : 13 < "mesh_partition".length + (toString 2).length := by decide

end Verif.Log
