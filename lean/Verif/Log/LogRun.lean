/-
Helpers: every operation, in one equation for open and closed logs.
-/
import Verif.Log.LogLemmas

namespace Verif.Log
open Verif

/-- What `n` migrations do to the graphs. -/
def movesE (g nt : Nat) : Nat → Graphs → Outcome Graphs
  | 0, gs => .ok gs
  | n + 1, gs => if nt ≤ 7 then movesE g nt n (upd g ⟨nt, true⟩ gs) else .fail

/-- What an operation does to the graphs. -/
def Op.effect (peers : Nat) (gs : Graphs) : Op → Outcome Graphs
  | .constructGraph g _ => .ok (upd g ⟨1, false⟩ gs)
  | .constructVerts g _ => .ok (upd g ⟨0, false⟩ gs)
  | .constructEdges g =>
      if (gs g).types < 7 then .ok (upd g { gs g with types := (gs g).types + 1 } gs)
      else if (gs g).types = 7 then .fail else .ub
  | .constructGhosts => .ok gs
  | .loadFromFile g _ nt => if nt ≤ 7 then .ok (upd g ⟨nt, false⟩ gs) else .fail
  | .removeEdges g t =>
      if t < 7 then
        .ok (upd g (if t + 1 = (gs g).types then { gs g with types := (gs g).types - 1 } else gs g) gs)
      else .ub
  | .destroyGraph g => .ok (upd g { gs g with orig := false } gs)
  | .setOriginalOwners g => .ok (upd g { gs g with orig := true } gs)
  | .resetOwnership g => .ok (upd g { gs g with orig := true } gs)
  | .getPartition g => if (gs g).orig then .ok gs else .fail
  | .migrate g _ nt => if nt ≤ 7 then .ok (upd g ⟨nt, true⟩ gs) else .fail
  | .repartition g _ nt => if nt ≤ 7 then .ok (upd g ⟨nt, true⟩ gs) else .fail
  | .createAPFGraph g _ _ => .ok (upd g ⟨1, false⟩ gs)
  | .createSerendipityGraph g _ _ => .ok (upd g ⟨1, false⟩ gs)
  | .createBinGraph g _ => .ok (upd g ⟨1, false⟩ gs)
  | .balance b =>
      if peers = 1 then .ok gs
      else movesE b.g b.nt (b.first + b.rest.sum) (upd b.g { gs b.g with orig := true } gs)
  | .balanceWeights => .ok gs

/-- Applying a function to a finished outcome. -/
def mapO (f : Graphs → Sys) : Outcome Graphs → Outcome Sys
  | .ok a => .ok (f a)
  | .fail => .fail
  | .ub => .ub

theorem migrations_eq (g : Nat) (hyper : Bool) (nt : Nat) : ∀ (n : Nat) {s : Sys}, Ready s →
    migrations g hyper nt n s = mapO (fun gs => logged s gs
      (List.replicate n (rebuildCalls hyper nt)).flatten 0) (movesE g nt n s.graphs)
  | 0, s, _ => by simp [migrations, movesE, mapO, logged_nil]
  | n + 1, s, h => by
      unfold migrations movesE
      rw [migrate_eq g hyper nt h]
      by_cases hn : nt ≤ 7
      · rw [if_pos hn, if_pos hn, Outcome.bind_ok, migrations_eq g hyper nt n (logged_zero h _ _)]
        rw [logged_graphs]
        cases movesE g nt n (upd g ⟨nt, true⟩ s.graphs) with
        | fail => rfl
        | ub => rfl
        | ok gs => simp only [mapO, logged_seq, List.replicate_succ, List.flatten_cons]
      · rw [if_neg hn, if_neg hn, Outcome.bind_fail]; rfl

theorem movesE_add (g nt : Nat) : ∀ (m n : Nat) (gs : Graphs),
    movesE g nt (m + n) gs = movesE g nt m gs >>= movesE g nt n
  | 0, n, gs => by simp [movesE]
  | m + 1, n, gs => by
      rw [show m + 1 + n = (m + n) + 1 by omega]
      unfold movesE
      split
      · rw [movesE_add g nt m n]
      · rfl

theorem criteria_eq (g : Nat) (hyper : Bool) (nt w : Nat) : ∀ (ms : List Nat) (old : Bool) {s : Sys},
    Ready s → criteria g hyper nt w false old ms s = mapO (fun gs => logged s gs
      (List.replicate ms.sum (rebuildCalls hyper nt)).flatten 0) (movesE g nt ms.sum s.graphs)
  | [], old, s, _ => by simp [criteria, movesE, mapO, logged_nil]
  | m :: ms, old, s, h => by
      simp only [criteria, Bool.false_eq_true, if_false, Outcome.bind_ok, List.sum_cons]
      rw [migrations_eq g hyper nt m h, movesE_add]
      cases movesE g nt m s.graphs with
      | fail => rfl
      | ub => rfl
      | ok gs =>
        simp only [mapO, Outcome.bind_ok]
        rw [criteria_eq g hyper nt w ms _ (logged_zero h _ _), logged_graphs]
        cases movesE g nt ms.sum gs with
        | fail => rfl
        | ub => rfl
        | ok gs' => simp only [mapO, logged_seq, ← List.replicate_append_replicate, List.flatten_append]

theorem balance_eq (b : Balance) {s : Sys} (h : Ready s) (hs : b.params.length ≤ 986)
    (hp : b.pw = false ∨ s.peers = 1) :
    balance b s = mapO (fun gs => logged s gs ((Op.balance b).calls s.peers s.graphs)
      ((Op.balance b).unended s.peers s.graphs)) ((Op.balance b).effect s.peers s.graphs) := by
  unfold balance
  rw [logLine_eq h (by decide), Outcome.bind_ok]
  have h1 := logged_zero h s.graphs [leaf "makeBalancer\n"]
  have hm : ("balance() : \n" ++ b.params).length + 1 ≤ 1000 := by
    rw [String.length_append]
    have : ("balance() : \n").length = 13 := by decide
    omega
  have hb : balancerRun b (logged s s.graphs [leaf "makeBalancer\n"] 0)
      = mapO (fun gs => logged s gs ((Op.balance b).calls s.peers s.graphs)
      ((Op.balance b).unended s.peers s.graphs)) ((Op.balance b).effect s.peers s.graphs) := by
    unfold balancerRun
    rw [logOpen_eq _ h1 hm, Outcome.bind_ok]
    by_cases h1p : s.peers = 1
    · rw [if_pos (show (inside (logged s s.graphs [leaf "makeBalancer\n"] 0)
        ("balance() : \n" ++ b.params)).peers = 1 from h1p)]
      have := stay_inside h1 ("balance() : \n" ++ b.params) s.graphs [] 0
      rw [show logged (inside (logged s s.graphs [leaf "makeBalancer\n"] 0)
        ("balance() : \n" ++ b.params)) s.graphs [] 0
        = inside (logged s s.graphs [leaf "makeBalancer\n"] 0) ("balance() : \n" ++ b.params)
        from logged_nil _] at this
      rw [this, logged_seq]
      simp [Op.effect, Op.unended, Op.calls, h1p, mapO]
    · rw [if_neg (show ¬ (inside (logged s s.graphs [leaf "makeBalancer\n"] 0)
        ("balance() : \n" ++ b.params)).peers = 1 from h1p)]
      have hpw : b.pw = false := hp.resolve_right h1p
      have h2 := inside_ready h1 ("balance() : \n" ++ b.params)
      rw [setOriginalOwners_eq b.g h2, Outcome.bind_ok, hpw]
      by_cases ho : (s.graphs b.g).orig = true
      · rw [if_pos (show ((inside (logged s s.graphs [leaf "makeBalancer\n"] 0)
          ("balance() : \n" ++ b.params)).graphs b.g).orig = true from ho)]
        simp only [inside_graphs, logged_graphs]
        have e := stay_inside h2 "setOriginalOwners\n"
          (upd b.g { s.graphs b.g with orig := true } s.graphs) [] 0
        have h3 := inside_ready h2 "setOriginalOwners\n"
        rw [show (leaf "setOriginalOwners\n") = Call.mk "setOriginalOwners\n" [] from rfl,
          show (1 : Int) = 0 + 1 from rfl, ← e, criteria_eq _ _ _ _ _ _ (logged_zero h3 _ _)]
        simp only [logged_graphs, Op.effect, if_neg h1p, List.sum_cons]
        cases movesE b.g b.nt (b.first + b.rest.sum)
            (upd b.g { s.graphs b.g with orig := true } s.graphs) with
        | fail => rfl
        | ub => rfl
        | ok gs =>
          simp only [mapO, Outcome.bind_ok, logged_seq, List.nil_append]
          rw [stay_inside h2, end_inside h1, logged_seq]
          simp [Op.unended, Op.calls, h1p, ho]
      · rw [if_neg (show ¬ ((inside (logged s s.graphs [leaf "makeBalancer\n"] 0)
          ("balance() : \n" ++ b.params)).graphs b.g).orig = true from ho),
          criteria_eq _ _ _ _ _ _ (logged_zero h2 _ _)]
        simp only [inside_graphs, logged_graphs, Op.effect, if_neg h1p, List.sum_cons]
        cases movesE b.g b.nt (b.first + b.rest.sum)
            (upd b.g { s.graphs b.g with orig := true } s.graphs) with
        | fail => rfl
        | ub => rfl
        | ok gs =>
          simp only [mapO, Outcome.bind_ok, logged_seq, List.nil_append]
          rw [end_inside h1, logged_seq]
          simp [Op.unended, Op.calls, h1p, ho]
  rw [hb]
  cases (Op.balance b).effect s.peers s.graphs with
  | fail => rfl
  | ub => rfl
  | ok gs =>
    simp only [mapO, Outcome.bind_ok]
    rw [if_neg]
    rintro ⟨ha, hb'⟩
    rcases hp with hp | hp
    · simp [hp] at ha
    · exact hb' hp

/-- Every operation that balances no weights over several processes. -/
theorem run_eq (op : Op) {s : Sys} (h : Ready s) (hs : op.short) (hw : op.noWeights s.peers) :
    op.run s = mapO (fun gs => logged s gs (op.calls s.peers s.graphs)
      (op.unended s.peers s.graphs)) (op.effect s.peers s.graphs) := by
  cases op with
  | constructGraph g hyper =>
    simp only [Op.run, constructGraph, Op.effect, mapO, Op.unended, Op.calls]
    have h1 := inside_ready h ("constructGraph: " ++ kindMsg hyper)
    rw [logOpen_eq s h (by cases hyper <;> decide), Outcome.bind_ok,
      constructVerts_eq g hyper h1, Outcome.bind_ok,
      constructEdges_eq g (logged_zero h1 _ _) (by simp [upd]), Outcome.bind_ok, logged_seq,
      constructGhosts_eq (logged_zero h1 _ _), Outcome.bind_ok, logged_seq, end_inside h]
    have e : upd g { (upd g (⟨0, false⟩ : GraphSt) s.graphs g) with
        types := (upd g (⟨0, false⟩ : GraphSt) s.graphs g).types + 1 }
        (upd g ⟨0, false⟩ s.graphs) = upd g ⟨1, false⟩ s.graphs := by
      funext x
      by_cases hx : x = g <;> simp [upd, hx]
    simp only [logged_graphs, inside_graphs]
    rw [e]
    simp only [upd, if_true]
    cases hyper <;> rfl
  | constructVerts g hyper => exact constructVerts_eq g hyper h
  | constructEdges g =>
    simp only [Op.run, Op.effect, Op.unended, Op.calls]
    by_cases ht : (s.graphs g).types < 7
    · rw [if_pos ht, constructEdges_eq g h ht]; rfl
    · rw [if_neg ht]
      by_cases ht' : (s.graphs g).types = 7
      · rw [constructEdges_full g ht', if_pos ht']; rfl
      · rw [if_neg ht', constructEdges, if_neg ht', if_pos (by omega)]; rfl
  | constructGhosts => exact constructGhosts_eq h
  | loadFromFile g hyper nt =>
    simp only [Op.run, Op.effect, Op.unended, Op.calls]
    rw [loadFromFile_eq g hyper nt h]
    split <;> rfl
  | removeEdges g t =>
    simp only [Op.run, Op.effect, Op.unended, Op.calls, removeEdges]
    by_cases ht : t < 7
    · have hl := digit_length ht
      have hm : ("destroyEdges " ++ toString t ++ "\n").length + 1 ≤ 45 := by
        rw [String.length_append, String.length_append, hl]
        decide
      rw [if_pos ht, if_neg (by omega), logOpen_eq s h hm, Outcome.bind_ok]
      simp only [setGraph_eq, inside_graphs]
      rw [as_logged, stay_inside h]
      rfl
    · rw [if_neg ht, if_pos (by omega)]; rfl
  | destroyGraph g =>
    simp only [Op.run, Op.effect, Op.unended, Op.calls, destroyGraph]
    rw [logOpen_eq s h (by decide), Outcome.bind_ok, destroyData_eq g (inside_ready h _),
      Outcome.bind_ok, end_inside h]
    rfl
  | setOriginalOwners g =>
    simp only [Op.run, Op.effect, Op.unended, Op.calls]
    rw [setOriginalOwners_eq g h]
    simp only [mapO]
    split <;> rfl
  | resetOwnership g =>
    simp only [Op.run, Op.effect, Op.unended, Op.calls, resetOwnership]
    have h1 := inside_ready h "resetOriginalOwners\n"
    rw [logOpen_eq s h (by decide), Outcome.bind_ok]
    have h2 : Ready (setGraph g { s.graphs g with orig := false } (inside s "resetOriginalOwners\n")) := h1
    simp only [inside_graphs]
    rw [setOriginalOwners_eq g h2, Outcome.bind_ok, setGraph_eq, inside_graphs]
    rw [if_neg (by simp [upd]), as_logged, logged_graphs, logged_seq, end_inside h]
    have e : upd g { (upd g { s.graphs g with orig := false } s.graphs g) with orig := true }
        (upd g { s.graphs g with orig := false } s.graphs)
        = upd g { s.graphs g with orig := true } s.graphs := by
      funext x
      by_cases hx : x = g <;> simp [upd, hx]
    rw [e]
    rfl
  | getPartition g =>
    simp only [Op.run, Op.effect, Op.unended, Op.calls, getPartition]
    rw [logOpen_eq s h (by decide), Outcome.bind_ok]
    by_cases ho : (s.graphs g).orig = true
    · rw [if_pos ho, if_pos (show ((inside s "getPartition\n").graphs g).orig = true from ho)]
      have := end_inside h "getPartition\n" s.graphs [] 0
      rw [← inside_graphs s "getPartition\n", logged_nil] at this
      exact this
    · rw [if_neg ho, if_neg (show ¬ ((inside s "getPartition\n").graphs g).orig = true from ho)]
      rfl
  | migrate g hyper nt =>
    simp only [Op.run, Op.effect, Op.unended, Op.calls]
    rw [migrate_eq g hyper nt h]
    split <;> rfl
  | repartition g hyper nt =>
    simp only [Op.run, Op.effect, Op.unended, Op.calls, repartition]
    rw [setOriginalOwners_eq g h, Outcome.bind_ok]
    have e2 : upd g (⟨nt, true⟩ : GraphSt) (upd g { s.graphs g with orig := true } s.graphs)
        = upd g ⟨nt, true⟩ s.graphs := by
      funext x
      by_cases hx : x = g <;> simp [upd, hx]
    by_cases ho : (s.graphs g).orig = true
    · have e := stay_inside h "setOriginalOwners\n" (upd g { s.graphs g with orig := true } s.graphs) [] 0
      have h1 := inside_ready h "setOriginalOwners\n"
      rw [if_pos ho, if_pos ho, if_pos ho,
        show (leaf "setOriginalOwners\n") = Call.mk "setOriginalOwners\n" [] from rfl,
        show (1 : Int) = 0 + 1 from rfl, ← e, migrate_eq g hyper nt (logged_zero h1 _ _)]
      by_cases hn : nt ≤ 7
      · rw [if_pos hn, if_pos hn, logged_seq, logged_graphs, e2, stay_inside h]; rfl
      · rw [if_neg hn, if_neg hn]; rfl
    · rw [if_neg ho, if_neg ho, if_neg ho, migrate_eq g hyper nt (logged_zero h _ _)]
      by_cases hn : nt ≤ 7
      · rw [if_pos hn, if_pos hn, logged_seq, logged_graphs, e2]; rfl
      · rw [if_neg hn, if_neg hn]; rfl
  | createAPFGraph g prim sec =>
    simp only [Op.run, Op.effect, Op.unended, Op.calls, createAPFGraph]
    have hm : ("createAPFGraph " ++ toString prim ++ " with edge " ++ toString sec ++ "\n").length + 1
        ≤ 50 := by
      simp only [String.length_append]
      have h1 : ("createAPFGraph ").length = 15 := by decide
      have h2 : (" with edge ").length = 11 := by decide
      have h3 : ("\n").length = 1 := by decide
      have : (toString prim).length + (toString sec).length ≤ 22 := hs
      omega
    rw [logLine_eq h hm, Outcome.bind_ok]; rfl
  | createSerendipityGraph g name order =>
    simp only [Op.run, Op.effect, Op.unended, Op.calls, createSerendipityGraph]
    have hm : ("createSerendipityGraph " ++ name ++ " with order " ++ toString order ++ "\n").length
        + 1 ≤ 50 := by
      simp only [String.length_append]
      have h1 : ("createSerendipityGraph ").length = 23 := by decide
      have h2 : (" with order ").length = 12 := by decide
      have h3 : ("\n").length = 1 := by decide
      have : name.length + (toString order).length ≤ 13 := hs
      omega
    rw [logLine_eq h hm, Outcome.bind_ok]; rfl
  | createBinGraph g file =>
    simp only [Op.run, Op.effect, Op.unended, Op.calls, createBinGraph]
    have hm : ("createBinGraph " ++ file ++ "\n").length + 1 ≤ 256 := by
      simp only [String.length_append]
      have h1 : ("createBinGraph ").length = 15 := by decide
      have h3 : ("\n").length = 1 := by decide
      have : file.length ≤ 239 := hs
      omega
    rw [logLine_eq h hm, Outcome.bind_ok]; rfl
  | balance b => exact balance_eq b h hs hw
  | balanceWeights =>
    simp only [Op.run, Op.effect, Op.unended, Op.calls, balanceWeights]
    rw [logLine_eq h (by decide), Outcome.bind_ok, weightBalancer,
      if_pos (show (logged s s.graphs [leaf "balanceWeights\n"] 0).peers = 1 from hw)]
    rfl

end Verif.Log
