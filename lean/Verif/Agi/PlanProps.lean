import Verif.Agi.PlanLemmas
/-!
# Property C16: a migration plan is a map from vertices to destinations
-/
namespace Verif.Agi

/-- a call on a plan; vertices are given by local index -/
inductive PlanOp where
  | insert (l : Nat) (d : Part)
  | clear

/-- one call -/
def Graph.planOp (g : Graph) (p : Plan) : PlanOp → Outcome Plan
  | .insert l d => do
    let r ← g.planInsert p (getVertex l) d
    return r.1
  | .clear => Graph.planClear p

/-- a new plan after a history of calls -/
def Graph.planRun (g : Graph) (ops : List PlanOp) : Outcome Plan := do
  let p ← g.newPlan
  ops.foldlM g.planOp p

/-- specification: the destination last inserted for vertex `l` since the last clear -/
def planned (l : Nat) : List PlanOp → Option Part
  | [] => none
  | .clear :: _ => none
  | .insert l' d :: older => if l = l' then some d else planned l older

theorem planRun_rep (g : Graph) (ops : List PlanOp)
    (hops : ∀ l d, PlanOp.insert l d ∈ ops → l < g.numLocal ∧ d ≠ -1) :
    ∃ plan s, g.planRun ops = .ok plan ∧
      PlanRep ((List.range g.numLocal).map (fun n : Nat => (n : Int))) plan s
        (fun v => planned v.toNat ops.reverse) := by
  set verts := (List.range g.numLocal).map (fun n : Nat => (n : Int)) with hverts
  have hn : g.numLocal = verts.length := by simp [hverts]
  have hnd : verts.Nodup := by
    rw [hverts]
    exact (List.nodup_range).map (fun a b h => by exact_mod_cast h)
  have hidx : ∀ l, l < g.numLocal → verts.idxOf (l : Int) = l := by
    intro l hl
    have h1 : verts[l]'(by omega) = (l : Int) := by simp [hverts]
    rw [← h1]; exact hnd.idxOf_getElem _ _
  have hmem : ∀ l, l < g.numLocal → (l : Int) ∈ verts := by
    intro l hl; rw [hverts, List.mem_map]; exact ⟨l, by simpa using hl, rfl⟩
  have hpos : ∀ v ∈ verts, 0 ≤ v := by
    intro v hv; rw [hverts, List.mem_map] at hv; obtain ⟨l, -, rfl⟩ := hv; exact Int.natCast_nonneg _
  unfold Graph.planRun
  obtain ⟨p0, e0, h0⟩ := newPlan_rep hn
  rw [e0, Outcome.bind_ok]
  obtain ⟨plan, e, s, h⟩ := foldlM_inv g.planOp
    (fun pre p => ∃ s, PlanRep verts p s (fun v => planned v.toNat pre.reverse)) ops
    (by
      intro pre x p hpre ⟨s, h⟩
      cases x with
      | clear =>
        obtain ⟨p', e, h'⟩ := planClear_rep h hnd
        refine ⟨p', e, [], ?_⟩
        rw [List.reverse_append]
        exact h'
      | insert l d =>
        obtain ⟨hl, hd⟩ := hops l d (hpre.subset (by simp))
        obtain ⟨p', e, h'⟩ := planInsert_rep (g := g) h hn hnd (hmem l hl) hd
        unfold Graph.planOp
        rw [hidx l hl] at e
        simp only [e, Outcome.bind_ok]
        refine ⟨p', rfl, _, h'.nodup, ?_, ?_, ?_, h'.sending⟩
        · intro v
          rw [h'.mem]
          constructor
          · rintro ⟨h1, h2⟩
            refine ⟨h1, ?_⟩
            have := hpos v h1
            unfold planPut at h2
            simp only [List.reverse_append, List.reverse_cons, List.reverse_nil, List.nil_append,
              List.singleton_append, planned]
            by_cases hv : v = (l : Int)
            · subst hv; simp
            · rw [if_neg hv] at h2
              rw [if_neg (by omega)]; exact h2
          · rintro ⟨h1, h2⟩
            refine ⟨h1, ?_⟩
            have := hpos v h1
            simp only [List.reverse_append, List.reverse_cons, List.reverse_nil, List.nil_append,
              List.singleton_append, planned] at h2
            unfold planPut
            by_cases hv : v = (l : Int)
            · subst hv; simp
            · rw [if_neg hv]
              rwa [if_neg (by omega)] at h2
        · intro v hv
          have h2 := h'.val v hv
          have := hpos v hv
          unfold planPut at h2
          simp only [List.reverse_append, List.reverse_cons, List.reverse_nil, List.nil_append,
            List.singleton_append, planned]
          by_cases hvl : v = (l : Int)
          · subst hvl; simpa using hd
          · rw [if_neg hvl] at h2
            rwa [if_neg (by omega)]
        · rcases h'.dest with h2 | h2
          · exact .inl h2
          · right
            rw [h2]
            congr 2
            apply List.map_congr_left
            intro v hv
            have := hpos v hv
            unfold planPut
            simp only [List.reverse_append, List.reverse_cons, List.reverse_nil, List.nil_append,
              List.singleton_append, planned]
            by_cases hvl : v = (l : Int)
            · subst hvl; simp
            · rw [if_neg hvl, if_neg (by omega)])
    p0 ⟨[], by simpa [planned] using h0⟩
  exact ⟨plan, s, e, h⟩

/-- **C16.**  After any history of `insert(v,d)` (local vertices, destinations other than the internal
"none" value -1) and `clear`: `has(v)` tells whether `v` was inserted since the last clear, `get(v)` is the
destination of the last insertion, iteration visits exactly the planned vertices, each once, and vertices
that are not local are never planned. -/
theorem c16_plan_is_a_map (g : Graph) (ops : List PlanOp)
    (hops : ∀ l d, PlanOp.insert l d ∈ ops → l < g.numLocal ∧ d ≠ -1) :
    ∃ plan, g.planRun ops = .ok plan ∧
      (∀ l, l < g.numLocal → g.planHas plan (getVertex l) = .ok (planned l ops.reverse).isSome ∧
        ∀ d, planned l ops.reverse = some d → g.planGet plan (getVertex l) = .ok d) ∧
      (∀ l, g.numLocal ≤ l → g.planHas plan (getVertex l) = .ok false) ∧
      plan.sending.Nodup ∧
      ∀ h, h ∈ plan.sending ↔ ∃ l, l < g.numLocal ∧ h = getVertex l ∧ planned l ops.reverse ≠ none := by
  obtain ⟨plan, s, e, h⟩ := planRun_rep g ops hops
  set verts := (List.range g.numLocal).map (fun n : Nat => (n : Int)) with hverts
  have hn : g.numLocal = verts.length := by simp [hverts]
  have hnd : verts.Nodup := by
    rw [hverts]
    exact (List.nodup_range).map (fun a b h => by exact_mod_cast h)
  have hidx : ∀ l, l < g.numLocal → verts.idxOf (l : Int) = l := by
    intro l hl
    have h1 : verts[l]'(by omega) = (l : Int) := by simp [hverts]
    rw [← h1]; exact hnd.idxOf_getElem _ _
  have hmem : ∀ l, l < g.numLocal → (l : Int) ∈ verts := by
    intro l hl; rw [hverts, List.mem_map]; exact ⟨l, by simpa using hl, rfl⟩
  refine ⟨plan, e, ?_, ?_, ?_, ?_⟩
  · intro l hl
    have h1 := planHas_eq (g := g) h hn (hmem l hl)
    have h2 := planGet_eq (g := g) h hn (hmem l hl)
    rw [hidx l hl] at h1 h2
    simp only [Int.toNat_natCast] at h1 h2
    refine ⟨?_, ?_⟩
    · rw [h1]; rcases Option.eq_none_or_eq_some (planned l ops.reverse) with hp | ⟨x, hp⟩ <;> simp [hp]
    · intro d hd; rw [h2, hd]; rfl
  · intro l hl
    exact planHas_ghost hn (by omega)
  · rw [h.sending]
    apply List.Nodup.map_on _ h.nodup
    intro a ha b hb hab
    have ha' := ((h.mem a).mp ha).1
    simp only [getVertex, Nat.add_right_cancel_iff] at hab
    have h1 := List.getElem_idxOf (List.idxOf_lt_length_of_mem ha')
    have h2 := List.getElem_idxOf (List.idxOf_lt_length_of_mem ((h.mem b).mp hb).1)
    rw [← h1, ← h2]; congr 1
  · intro x
    rw [h.sending, List.mem_map]
    constructor
    · rintro ⟨v, hv, rfl⟩
      obtain ⟨h1, h2⟩ := (h.mem v).mp hv
      rw [hverts, List.mem_map] at h1
      obtain ⟨l, hl, rfl⟩ := h1
      rw [List.mem_range] at hl
      exact ⟨l, hl, by rw [hidx l hl], by simpa using h2⟩
    · rintro ⟨l, hl, rfl, h2⟩
      exact ⟨(l : Int), (h.mem _).mpr ⟨hmem l hl, by simpa using h2⟩, by rw [hidx l hl]⟩

/-- the number of planned vertices (`size()`) grows by one exactly when `insert` reports a new vertex -/
theorem c16_insert_reports_new (g : Graph) (ops : List PlanOp)
    (hops : ∀ l d, PlanOp.insert l d ∈ ops → l < g.numLocal ∧ d ≠ -1) (l : Nat) (hl : l < g.numLocal)
    (d : Part) (hd : d ≠ -1) :
    ∃ plan plan', g.planRun ops = .ok plan ∧
      g.planInsert plan (getVertex l) d = .ok (plan', (planned l ops.reverse).isNone) ∧
      plan'.sending.length = plan.sending.length + if (planned l ops.reverse).isNone then 1 else 0 := by
  obtain ⟨plan, s, e, h⟩ := planRun_rep g ops hops
  set verts := (List.range g.numLocal).map (fun n : Nat => (n : Int)) with hverts
  have hn : g.numLocal = verts.length := by simp [hverts]
  have hnd : verts.Nodup := by
    rw [hverts]
    exact (List.nodup_range).map (fun a b h => by exact_mod_cast h)
  have hm : (l : Int) ∈ verts := by rw [hverts, List.mem_map]; exact ⟨l, by simpa using hl, rfl⟩
  have hidx : verts.idxOf (l : Int) = l := by
    have h1 : verts[l]'(by omega) = (l : Int) := by simp [hverts]
    rw [← h1]; exact hnd.idxOf_getElem _ _
  obtain ⟨plan', e', h'⟩ := planInsert_rep (g := g) h hn hnd hm hd
  rw [hidx] at e'
  refine ⟨plan, plan', e, ?_, ?_⟩
  · rw [e']; simp only [Int.toNat_natCast]
    rcases Option.eq_none_or_eq_some (planned l ops.reverse) with hp | ⟨x, hp⟩ <;> simp [hp]
  · rw [h'.sending, h.sending]
    simp only [Int.toNat_natCast, List.length_map]
    rcases Option.eq_none_or_eq_some (planned l ops.reverse) with hp | ⟨x, hp⟩ <;> simp [hp]

/-- three local vertices; vertex 1 is inserted twice, the plan cleared and refilled in between -/
def exPlanGraph : Graph := { emptyGraph 0 4 with numLocal := 3, localUnmap := Mem.ofList [10, 11, 12] }
def exPlanOps : List PlanOp := [.insert 0 3, .clear, .insert 1 2, .insert 2 1, .insert 1 3]

example : ∀ l d, PlanOp.insert l d ∈ exPlanOps → l < exPlanGraph.numLocal ∧ d ≠ -1 := by
  intro l d h
  simp [exPlanOps] at h
  rcases h with ⟨rfl, rfl⟩ | ⟨rfl, rfl⟩ | ⟨rfl, rfl⟩ | ⟨rfl, rfl⟩ <;> decide

example : planned 1 exPlanOps.reverse = some 3 ∧ planned 0 exPlanOps.reverse = none ∧
    planned 2 exPlanOps.reverse = some 1 := by decide

/-- the boundary of C16: inserting destination -1 makes the vertex look unplanned, and inserting again
lists it twice -/
theorem c16_minus_one_duplicates : ∃ plan, exPlanGraph.planRun [.insert 0 (-1), .insert 0 2] = .ok plan ∧
    plan.sending = [1, 1] := ⟨_, rfl, rfl⟩

end Verif.Agi
