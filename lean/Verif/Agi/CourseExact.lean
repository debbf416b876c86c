import Verif.Agi.CourseTrad
/-! # What every part of a constructed world answers and how many sums it joins -/
namespace Verif.Agi

/-- the number of types a part looks at: it returns after the first type with a self-loop -/
def looked : List EdgeInput → Nat
  | [] => 0
  | e :: es => if LoopFree e then looked es + 1 else 1

/-- what a part of a constructed world brings, except for the last loop over each type -/
structure Fits (g : Graph) (sumV : Int) (sumE sumP : Nat → Int) (T : Nat) (good : Nat → Bool) : Prop where
  types : g.numTypes = T
  verts : g.globalVerts = sumV
  vert : ∀ u, u < g.numLocal → ∀ t, t < T → VertOk g (getVertex u) t
  typ : ∀ t, t < T → ∃ j k, ∃ ne np : Nat, g.validCounts t = .ok ((ne : Int), j, k, (np : Int)) ∧ g.numLocalEdges t = .ok ne ∧
      g.numLocalPins t = .ok np ∧ g.numGlobalEdges t = .ok (sumE t) ∧ g.numGlobalPins t = .ok (sumP t) ∧ g.edgesRight t = .ok (good t)
  ghost : ∀ k, k < g.numGhost → ∃ o, g.owner (getVertex (g.numLocal + k)) = .ok o ∧ o ≠ g.self ∧ o < g.peers

/-- the number of sums for the types in `ts` -/
def joined (good : Nat → Bool) : List Nat → Nat
  | [] => 0
  | t :: ts => if good t then joined good ts + 2 else 2

theorem typesCourse_fits {g : Graph} {sumV : Int} {sumE sumP : Nat → Int} {T : Nat} {good : Nat → Bool} (h : Fits g sumV sumE sumP T good)
    (f : Nat → Int) (hf : ∀ t, t < T → f (1 + 2 * t) = sumE t ∧ f (2 + 2 * t) = sumP t) (o : Outcome Bool) : ∀ (n t0 : Nat), t0 + n ≤ T →
    forTypes (g.checkType sumE sumP) (List.range' t0 n) = .ok ((List.range' t0 n).all good) ∧
    ((g.typesCourse (.stop o) (List.range' t0 n)).asks f (1 + 2 * t0)).length = joined good (List.range' t0 n) := by
  intro n
  induction n with
  | zero => intro t0 _; exact ⟨rfl, rfl⟩
  | succ n ih =>
    intro t0 hn
    obtain ⟨j, k, ne, np, h1, h2, h3, h4, h5, h6⟩ := h.typ t0 (by omega)
    obtain ⟨f1, f2⟩ := hf t0 (by omega)
    obtain ⟨i1, i2⟩ := ih (t0 + 1) (by omega)
    have hc : g.checkType sumE sumP t0 = .ok (good t0) := by
      unfold Graph.checkType
      rw [h1, Outcome.bind_ok]
      simp only
      rw [h2, Outcome.bind_ok, h4, Outcome.bind_ok, h3, Outcome.bind_ok, h5, Outcome.bind_ok,
        if_neg (by simp), if_neg (by simp), if_neg (by simp), if_neg (by simp)]
      exact h6
    rw [List.range'_succ]
    constructor
    · rw [forTypes, hc, Outcome.bind_ok, List.all_cons]
      cases good t0 with
      | true => rw [if_pos rfl, i1, Bool.true_and]
      | false => rw [if_neg (by simp), Bool.false_and]; rfl
    · unfold Graph.typesCourse
      rw [h1]
      dsimp only [Course.of]
      rw [h2]
      dsimp only
      rw [if_neg (by simp), Course.asks, f1, h4]
      dsimp only
      rw [if_neg (by simp), h3]
      dsimp only
      rw [if_neg (by simp), Course.asks, show 1 + 2 * t0 + 1 = 2 + 2 * t0 by omega, f2, h5]
      dsimp only
      rw [if_neg (by simp), h6]
      dsimp only
      rw [joined]
      cases good t0 with
      | true =>
        rw [if_pos rfl, if_pos rfl, List.length_cons, List.length_cons, show 2 + 2 * t0 + 1 = 1 + 2 * (t0 + 1) by omega, i2]
      | false => rw [if_neg (by simp), if_neg (by simp)]; rfl

theorem fits_answer {g : Graph} {sumV : Int} {sumE sumP : Nat → Int} {T : Nat} {good : Nat → Bool} (h : Fits g sumV sumE sumP T good)
    (f : Nat → Int) (h0 : f 0 = sumV) (hf : ∀ t, t < T → f (1 + 2 * t) = sumE t ∧ f (2 + 2 * t) = sumP t) :
    g.checkValidity sumV sumE sumP = .ok ((List.range T).all good) ∧ (g.validCourse.asks f 0).length = 1 + joined good (List.range T) := by
  have hbv : ((List.range g.numLocal).map getVertex).length < g.bound := by
    rw [List.length_map, List.length_range]; unfold Graph.bound; omega
  have a1 : iterAll g.iterVertex (fun v => forTypes (g.checkDegree v) (List.range g.numTypes)) g.bound vertexBegin = .ok true := by
    refine iterAll_true (yields_vertices g) hbv fun x hx => ?_
    obtain ⟨u, hu, rfl⟩ := List.mem_map.mp hx
    rw [List.mem_range] at hu
    apply forTypes_true
    intro t ht'
    rw [List.mem_range, h.types] at ht'
    exact checkDegree_true (h.vert u hu t ht')
  have a2 : iterAll g.iterVertex (fun v => forTypes (g.checkAdjacent v) (List.range g.numTypes)) g.bound vertexBegin = .ok true := by
    refine iterAll_true (yields_vertices g) hbv fun x hx => ?_
    obtain ⟨u, hu, rfl⟩ := List.mem_map.mp hx
    rw [List.mem_range] at hu
    apply forTypes_true
    intro t ht'
    rw [List.mem_range, h.types] at ht'
    exact checkAdjacent_true (h.vert u hu t ht')
  have a3 : iterAll g.iterGhost g.checkGhost g.bound g.ghostBegin = .ok true := by
    apply iterAll_true (yields_ghosts g)
    · rw [List.length_map, List.length_range]; unfold Graph.bound; omega
    · intro x hx
      obtain ⟨k, hk, rfl⟩ := List.mem_map.mp hx
      rw [List.mem_range] at hk
      obtain ⟨o, h1, h2, h3⟩ := h.ghost k hk
      unfold Graph.checkGhost
      rw [h1, Outcome.bind_ok, if_neg h2, if_neg (by omega)]; rfl
  obtain ⟨t1, t2⟩ := typesCourse_fits h f hf (iterAll g.iterGhost g.checkGhost g.bound g.ghostBegin) T 0 (by omega)
  rw [← List.range_eq_range'] at t1 t2
  constructor
  · unfold Graph.checkValidity
    rw [iterCount_eq (yields_vertices g) hbv, Outcome.bind_ok, if_neg (by simp), if_neg (by simp [h.verts]), a1, Outcome.bind_ok,
      if_neg (by simp), a2, Outcome.bind_ok, if_neg (by simp), h.types, t1, Outcome.bind_ok]
    cases (List.range T).all good with
    | true => rw [if_neg (by simp)]; exact a3
    | false => rfl
  · unfold Graph.validCourse
    rw [iterCount_eq (yields_vertices g) hbv]
    dsimp only [Course.of]
    rw [if_neg (by simp), Course.asks, h0, if_neg (by simp [h.verts]), a1]
    dsimp only
    rw [if_neg (by simp), a2]
    dsimp only
    rw [if_neg (by simp), List.length_cons, h.types, show (0 + 1 : Nat) = 1 + 2 * 0 from rfl, t2]
    omega

/-- the type has no self-loop -/
def goodOf (types : List EdgeInput) (t : Nat) : Bool := match types[t]? with | some e => decide (LoopFree e) | none => true

theorem joined_looked (types : List EdgeInput) : ∀ (n t0 : Nat) (h : t0 + n = types.length),
    joined (goodOf types) (List.range' t0 n) = 2 * looked (types.drop t0) ∧
    ((List.range' t0 n).all (goodOf types) = true ↔
      ∀ e ∈ types.drop t0, LoopFree e) := by
  intro n
  induction n with
  | zero =>
    intro t0 h
    rw [List.drop_eq_nil_of_le (by omega)]
    exact ⟨rfl, by simp⟩
  | succ n ih =>
    intro t0 h
    obtain ⟨i1, i2⟩ := ih (t0 + 1) (by omega)
    have ht : t0 < types.length := by omega
    rw [List.range'_succ, List.drop_eq_getElem_cons ht, joined, looked, List.all_cons, Bool.and_eq_true, i2, List.forall_mem_cons,
      show goodOf types t0 = decide (LoopFree types[t0]) by unfold goodOf; rw [List.getElem?_eq_getElem ht]]
    refine ⟨?_, by rw [decide_eq_true_iff]⟩
    by_cases hl : LoopFree types[t0]
    · rw [if_pos (decide_eq_true hl), if_pos hl, i1]
      omega
    · rw [if_neg (by simp [hl]), if_neg hl]

end Verif.Agi
