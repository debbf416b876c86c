/-
Helpers: what every function of the log model does, in one equation for open and closed logs.
-/
import Verif.Log.LogSpec

namespace Verif.Log
open Verif

abbrev Graphs := Nat → GraphSt

def upd (g : Nat) (x : GraphSt) (gs : Graphs) : Graphs := fun h => if h = g then x else gs h

/-- The state after reporting calls `cs` and leaving the depth changed by `k`. -/
def logged (s : Sys) (gs : Graphs) (cs : List Call) (k : Int) : Sys :=
  { s with
    graphs := gs
    text := if s.file then s.text ++ Call.linesAll s.depth.toNat cs else s.text
    depth := if s.file then s.depth + k else s.depth }

/-- Ready to report. -/
def Ready (s : Sys) : Prop := s.file = true → 0 ≤ s.depth

theorem logged_ready {s : Sys} (h : Ready s) (gs : Graphs) (cs : List Call) (k : Nat) :
    Ready (logged s gs cs k) := by
  intro hf
  have := h hf
  simp only [logged, if_pos (show s.file = true from hf)]
  omega

theorem logged_zero {s : Sys} (h : Ready s) (gs : Graphs) (cs : List Call) :
    Ready (logged s gs cs 0) := logged_ready h gs cs 0

theorem linesAll_append (d : Nat) (a b : List Call) :
    Call.linesAll d (a ++ b) = Call.linesAll d a ++ Call.linesAll d b := by
  induction a with
  | nil => simp [Call.linesAll]
  | cons c cs ih => simp [Call.linesAll, ih]

theorem linesAll_one (d : Nat) (msg : String) (inner : List Call) :
    Call.linesAll d [.mk msg inner]
      = (tab d ++ msg) :: Call.linesAll (d + 1) inner := by
  simp [Call.linesAll, Call.lines, tab, Nat.mul_comm]

@[simp] theorem logged_graphs (s : Sys) (gs : Graphs) (cs : List Call) (k : Int) :
    (logged s gs cs k).graphs = gs := rfl
@[simp] theorem logged_peers (s : Sys) (gs : Graphs) (cs : List Call) (k : Int) :
    (logged s gs cs k).peers = s.peers := rfl
@[simp] theorem logged_file (s : Sys) (gs : Graphs) (cs : List Call) (k : Int) :
    (logged s gs cs k).file = s.file := rfl

/-- Reporting more calls afterwards. -/
theorem logged_seq (s : Sys) (gs gs' : Graphs) (cs cs' : List Call) (k : Int) :
    logged (logged s gs cs 0) gs' cs' k = logged s gs' (cs ++ cs') k := by
  cases hf : s.file <;> simp [logged, hf, linesAll_append]

theorem logged_nil (s : Sys) : logged s s.graphs [] 0 = s := by
  obtain ⟨r, p, f, d, t, gs⟩ := s
  cases f <;> simp [logged, Call.linesAll]

theorem setGraph_logged (s : Sys) (gs : Graphs) (cs : List Call) (k : Int) (g : Nat) (x : GraphSt) :
    setGraph g x (logged s gs cs k) = logged s (upd g x gs) cs k := rfl

theorem setGraph_eq (s : Sys) (g : Nat) (x : GraphSt) :
    setGraph g x s = { s with graphs := upd g x s.graphs } := rfl

/-- The state inside a reported call. -/
def inside (s : Sys) (msg : String) : Sys :=
  { s with
    text := if s.file then s.text ++ [tab s.depth.toNat ++ msg] else s.text
    depth := if s.file then s.depth + 1 else s.depth }

theorem logOpen_eq {cap : Nat} {msg : String} (s : Sys) (h : Ready s)
    (hc : msg.length + 1 ≤ cap) : logOpen cap msg s = .ok (inside s msg) := by
  cases hf : s.file
  · simp [logOpen, inside, hf]
    cases s; simp_all
  · have := h hf
    simp only [logOpen, hf, if_true, logFunction, if_neg (show ¬ cap < msg.length + 1 by omega),
      if_neg (show ¬ s.depth < 0 by omega), inside]

theorem inside_ready {s : Sys} (h : Ready s) (msg : String) : Ready (inside s msg) := by
  intro hf
  have := h hf
  simp only [inside, if_pos (show s.file = true from hf)]
  omega

@[simp] theorem inside_graphs (s : Sys) (msg : String) : (inside s msg).graphs = s.graphs := rfl
@[simp] theorem inside_peers (s : Sys) (msg : String) : (inside s msg).peers = s.peers := rfl
@[simp] theorem inside_file (s : Sys) (msg : String) : (inside s msg).file = s.file := rfl

/-- Ending a call whose inner calls ended. -/
theorem end_inside {s : Sys} (h : Ready s) (msg : String) (gs : Graphs) (inner : List Call)
    (k : Int) : logEnd (logged (inside s msg) gs inner k)
      = .ok (logged s gs [.mk msg inner] k) := by
  cases hf : s.file
  · simp [logEnd, logged, inside, hf]
  · have := h hf
    have e : (s.depth + 1).toNat = s.depth.toNat + 1 := by omega
    simp [logEnd, endFunction, logged, inside, hf, linesAll_one, e]
    omega

/-- Never ending it. -/
theorem stay_inside {s : Sys} (h : Ready s) (msg : String) (gs : Graphs) (inner : List Call)
    (k : Int) : logged (inside s msg) gs inner k = logged s gs [.mk msg inner] (k + 1) := by
  cases hf : s.file
  · simp [logged, inside, hf]
  · have := h hf
    have e : (s.depth + 1).toNat = s.depth.toNat + 1 := by omega
    simp [logged, inside, hf, linesAll_one, e]
    omega

/-- A state that reported nothing yet. -/
theorem as_logged (s : Sys) (gs : Graphs) : ({ s with graphs := gs } : Sys) = logged s gs [] 0 := by
  cases hf : s.file <;> simp [logged, hf, Call.linesAll]

theorem ready_graphs {s : Sys} (h : Ready s) (gs : Graphs) : Ready { s with graphs := gs } := h

theorem destroyData_eq (g : Nat) {s : Sys} (h : Ready s) :
    destroyData g s = .ok (logged s (upd g { s.graphs g with orig := false } s.graphs)
      [leaf "destroyData\n"] 0) := by
  unfold destroyData
  rw [logOpen_eq s h (by decide), Outcome.bind_ok]
  simp only [setGraph_eq, inside_graphs]
  rw [as_logged, end_inside h]
  rfl

theorem constructVerts_eq (g : Nat) (hyper : Bool) {s : Sys} (h : Ready s) :
    constructVerts g hyper s = .ok (logged s (upd g ⟨0, false⟩ s.graphs) [vertsCall hyper] 0) := by
  unfold constructVerts
  rw [logOpen_eq s h (by cases hyper <;> decide), Outcome.bind_ok,
    destroyData_eq g (inside_ready h _), Outcome.bind_ok]
  simp only [setGraph_logged, logged_graphs, inside_graphs]
  rw [end_inside h]
  have e : upd g { (upd g { s.graphs g with orig := false } s.graphs) g with types := 0 }
      (upd g { s.graphs g with orig := false } s.graphs) = upd g ⟨0, false⟩ s.graphs := by
    funext x
    by_cases hx : x = g <;> simp [upd, hx]
  rw [e]
  cases hyper <;> rfl

theorem digit_length {t : Nat} (h : t < 7) : (toString t).length = 1 := by
  have : ∀ t : Fin 7, (toString t.val).length = 1 := by decide
  exact this ⟨t, h⟩

theorem constructEdges_eq (g : Nat) {s : Sys} (h : Ready s) (ht : (s.graphs g).types < 7) :
    constructEdges g s
      = .ok (logged s (upd g { s.graphs g with types := (s.graphs g).types + 1 } s.graphs)
          [edgesCall (s.graphs g).types] 0) := by
  unfold constructEdges
  rw [if_neg (by omega), if_neg (by omega)]
  have hl := digit_length ht
  have h' : Ready (setGraph g { s.graphs g with types := (s.graphs g).types + 1 } s) := h
  have hm : ("constructEdges: " ++ toString (s.graphs g).types ++ "\n").length + 1 ≤ 45 := by
    rw [String.length_append, String.length_append, hl]
    decide
  simp only []
  rw [logOpen_eq _ h' hm, Outcome.bind_ok]
  have := end_inside (s := setGraph g { s.graphs g with types := (s.graphs g).types + 1 } s) h'
    ("constructEdges: " ++ toString (s.graphs g).types ++ "\n")
    (setGraph g { s.graphs g with types := (s.graphs g).types + 1 } s).graphs [] 0
  rw [show logged (inside (setGraph g { s.graphs g with types := (s.graphs g).types + 1 } s)
      ("constructEdges: " ++ toString (s.graphs g).types ++ "\n"))
    (setGraph g { s.graphs g with types := (s.graphs g).types + 1 } s).graphs [] 0
      = inside (setGraph g { s.graphs g with types := (s.graphs g).types + 1 } s)
      ("constructEdges: " ++ toString (s.graphs g).types ++ "\n") from logged_nil _] at this
  rw [this]
  rfl

theorem constructEdges_full (g : Nat) {s : Sys} (ht : (s.graphs g).types = 7) :
    constructEdges g s = .fail := by
  unfold constructEdges
  rw [if_pos ht]

theorem constructGhosts_eq {s : Sys} (h : Ready s) :
    constructGhosts s = .ok (logged s s.graphs [leaf "constructGhosts\n"] 0) := by
  unfold constructGhosts
  rw [logOpen_eq s h (by decide), Outcome.bind_ok]
  have := end_inside h "constructGhosts\n" s.graphs [] 0
  rw [← inside_graphs s "constructGhosts\n", logged_nil] at this
  exact this

theorem edgesLoop_eq (g : Nat) : ∀ (n : Nat) {s : Sys}, Ready s → (s.graphs g).types + n ≤ 7 →
    edgesLoop g n s
      = .ok (logged s (upd g { s.graphs g with types := (s.graphs g).types + n } s.graphs)
          ((List.range' (s.graphs g).types n).map edgesCall) 0)
  | 0, s, _, _ => by
      have e : upd g { s.graphs g with types := (s.graphs g).types + 0 } s.graphs = s.graphs := by
        funext x
        by_cases hx : x = g
        · subst hx; simp [upd]
        · simp [upd, hx]
      rw [e]
      simp [edgesLoop, logged_nil]
  | n + 1, s, h, ht => by
      have h1 := constructEdges_eq g h (by omega)
      unfold edgesLoop
      rw [h1, Outcome.bind_ok, edgesLoop_eq g n (logged_zero h _ _) (by simp [upd]; omega),
        logged_seq]
      congr 2
      · funext x
        by_cases hx : x = g
        · simp [upd, hx]; omega
        · simp [upd, hx]
      · simp [upd, List.range'_succ]

theorem edgesLoop_full (g : Nat) : ∀ (n : Nat) {s : Sys}, Ready s → (s.graphs g).types ≤ 7 →
    7 < (s.graphs g).types + n → edgesLoop g n s = .fail
  | 0, s, _, _, h' => by omega
  | n + 1, s, h, hle, h' => by
      unfold edgesLoop
      by_cases ht : (s.graphs g).types = 7
      · rw [constructEdges_full g ht, Outcome.bind_fail]
      · rw [constructEdges_eq g h (by omega), Outcome.bind_ok]
        exact edgesLoop_full g n (logged_zero h _ _) (by simp [upd]; omega) (by simp [upd]; omega)

/-- The common part of `migrate` and `loadFromFile`. -/
theorem loadFromFile_eq (g : Nat) (hyper : Bool) (nt : Nat) {s : Sys} (h : Ready s) :
    loadFromFile g hyper nt s
      = if nt ≤ 7 then .ok (logged s (upd g ⟨nt, false⟩ s.graphs) (rebuildCalls hyper nt) 0)
        else .fail := by
  unfold loadFromFile
  rw [constructVerts_eq g hyper h, Outcome.bind_ok]
  have h1 := logged_zero h (upd g ⟨0, false⟩ s.graphs) [vertsCall hyper]
  have t0 : ((logged s (upd g ⟨0, false⟩ s.graphs) [vertsCall hyper] 0).graphs g).types = 0 := by
    simp [upd]
  by_cases hn : nt ≤ 7
  · rw [edgesLoop_eq g nt h1 (by omega), Outcome.bind_ok, logged_seq,
      constructGhosts_eq (logged_zero h _ _), logged_seq, if_pos hn]
    congr 2
    · funext x
      by_cases hx : x = g <;> simp [upd, hx]
    · simp [upd, rebuildCalls, List.range_eq_range']
  · rw [edgesLoop_full g nt h1 (by omega) (by omega), Outcome.bind_fail, if_neg hn]

theorem migrate_load (g : Nat) (hyper : Bool) (nt : Nat) (s : Sys) :
    migrate g hyper nt s = loadFromFile g hyper nt s >>= fun s =>
      if (s.graphs g).orig then .fail
      else .ok (setGraph g { s.graphs g with orig := true } s) := by
  unfold migrate loadFromFile
  cases constructVerts g hyper s with
  | fail => rfl
  | ub => rfl
  | ok s1 =>
    simp only [Outcome.bind_ok]
    cases edgesLoop g nt s1 with
    | fail => rfl
    | ub => rfl
    | ok s2 => rfl

theorem migrate_eq (g : Nat) (hyper : Bool) (nt : Nat) {s : Sys} (h : Ready s) :
    migrate g hyper nt s
      = if nt ≤ 7 then .ok (logged s (upd g ⟨nt, true⟩ s.graphs) (rebuildCalls hyper nt) 0)
        else .fail := by
  rw [migrate_load, loadFromFile_eq g hyper nt h]
  by_cases hn : nt ≤ 7
  · rw [if_pos hn, if_pos hn, Outcome.bind_ok]
    have e : (logged s (upd g ⟨nt, false⟩ s.graphs) (rebuildCalls hyper nt) 0).graphs g
        = ⟨nt, false⟩ := by simp [upd]
    have ho : ¬ ((logged s (upd g ⟨nt, false⟩ s.graphs) (rebuildCalls hyper nt) 0).graphs g).orig
        = true := by rw [e]; simp
    rw [if_neg ho, e, setGraph_logged]
    have e2 : upd g (⟨nt, true⟩ : GraphSt) (upd g ⟨nt, false⟩ s.graphs) = upd g ⟨nt, true⟩ s.graphs := by
      funext x
      by_cases hx : x = g <;> simp [upd, hx]
    simp [e2]
  · rw [if_neg hn, if_neg hn, Outcome.bind_fail]

theorem setOriginalOwners_eq (g : Nat) {s : Sys} (h : Ready s) :
    setOriginalOwners g s
      = .ok (logged s (upd g { s.graphs g with orig := true } s.graphs) [leaf "setOriginalOwners\n"]
          (if (s.graphs g).orig then 1 else 0)) := by
  unfold setOriginalOwners
  rw [logOpen_eq s h (by decide), Outcome.bind_ok]
  by_cases ho : (s.graphs g).orig = true
  · rw [if_pos (show ((inside s "setOriginalOwners\n").graphs g).orig = true from ho), if_pos ho]
    have := stay_inside h "setOriginalOwners\n" s.graphs [] 0
    rw [← inside_graphs s "setOriginalOwners\n", logged_nil] at this
    rw [this]
    congr 2
    funext x
    by_cases hx : x = g
    · subst hx; simp [upd, ← ho]
    · simp [upd, hx]
  · rw [if_neg (show ¬ ((inside s "setOriginalOwners\n").graphs g).orig = true from ho), if_neg ho,
      setGraph_eq, as_logged, end_inside h]
    rfl

theorem logLine_eq {cap : Nat} {msg : String} {s : Sys} (h : Ready s) (hc : msg.length + 1 ≤ cap) :
    logLine cap msg s = .ok (logged s s.graphs [leaf msg] 0) := by
  unfold logLine
  rw [logOpen_eq s h hc, Outcome.bind_ok]
  have := end_inside h msg s.graphs [] 0
  rw [← inside_graphs s msg, logged_nil] at this
  exact this

end Verif.Log
