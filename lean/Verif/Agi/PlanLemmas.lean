import Verif.Agi.PlanModel
import Verif.Agi.Query
/-!
# Lemmas about migration plans
-/
namespace Verif.Agi

/-- `f` with `v` sent to `d` -/
def planPut (f : Gid → Option Part) (v : Gid) (d : Part) : Gid → Option Part :=
  fun u => if u = v then some d else f u

/-- the plan stands for the partial map `f` on the local vertices `verts`; `s` lists the planned ones -/
structure PlanRep (verts : List Gid) (plan : Plan) (s : List Gid) (f : Gid → Option Part) : Prop where
  nodup : s.Nodup
  mem : ∀ v, v ∈ s ↔ v ∈ verts ∧ f v ≠ none
  val : ∀ v ∈ verts, f v ≠ some (-1)
  dest : (verts = [] ∧ plan.dest = none) ∨
    plan.dest = some (Mem.ofList (verts.map (fun v => (f v).getD (-1))))
  sending : plan.sending = s.map (fun v => getVertex (verts.idxOf v))

theorem PlanRep.tag {verts : List Gid} {plan : Plan} {s : List Gid} {f : Gid → Option Part}
    (h : PlanRep verts plan s f) {v : Gid} (hv : v ∈ verts) :
    plan.dest = some (Mem.ofList (verts.map (fun v => (f v).getD (-1)))) := by
  rcases h.dest with ⟨h1, -⟩ | h1
  · rw [h1] at hv; simp at hv
  · exact h1

section
variable {g : Graph} {verts : List Gid} {plan : Plan} {s : List Gid} {f : Gid → Option Part}

theorem newPlan_rep (hn : g.numLocal = verts.length) :
    ∃ plan, g.newPlan = .ok plan ∧ PlanRep verts plan [] (fun _ => none) := by
  unfold Graph.newPlan
  by_cases hz : g.numLocal = 0
  · rw [if_neg (by simpa using hz)]
    exact ⟨_, rfl, List.nodup_nil, by simp, by simp,
      .inl ⟨List.eq_nil_of_length_eq_zero (by omega), rfl⟩, rfl⟩
  · rw [if_pos hz]
    rw [iterLoop_yields _ _ _ g.bound _ (yields_vertices g) (by
      rw [List.length_map, List.length_range]; unfold Graph.bound; omega)]
    rw [loopList_fold (f := fun tag v => Graph.setVtxTag tag v (-1)) _ (by
      intro b x _
      cases Graph.setVtxTag b x (-1) <;> rfl)]
    have key : ∀ k, k ≤ g.numLocal → ((List.range k).map (fun l => getVertex l)).foldlM
        (fun tag v => Graph.setVtxTag tag v (-1)) (Mem.alloc g.numLocal) =
        .ok (Mem.ofList (List.replicate k (-1 : Int)) ++ Mem.alloc (g.numLocal - k)) := by
      intro k
      induction k with
      | zero => intro _; simp [Mem.ofList]
      | succ k ih =>
        intro hk
        rw [List.range_succ, List.map_append, List.foldlM_append, ih (by omega), Outcome.bind_ok]
        simp only [List.map_cons, List.map_nil, List.foldlM_cons, List.foldlM_nil]
        unfold Graph.setVtxTag
        rw [vidx_getVertex, Outcome.bind_ok, Mem.store_ok _ (by simp; omega), Outcome.bind_ok]
        simp only [Outcome.pure_eq]
        congr 1
        have : g.numLocal - k = (g.numLocal - (k + 1)) + 1 := by omega
        rw [this]
        rw [List.set_append_right _ _ (by simp)]
        have hc : ∀ (k : Nat) (x : Option Int) (l : List (Option Int)), List.replicate k x ++ x :: l =
            x :: (List.replicate k x ++ l) := by
          intro k x l
          induction k with
          | zero => rfl
          | succ k ih => rw [List.replicate_succ, List.cons_append, ih, List.cons_append]
        simp [Mem.ofList, Mem.alloc, List.replicate_succ, hc]
    rw [key g.numLocal (Nat.le_refl _), Outcome.bind_ok]
    refine ⟨_, rfl, List.nodup_nil, by simp, by simp, .inr ?_, rfl⟩
    simp [Mem.alloc, hn, Mem.ofList]

theorem planGet_eq (h : PlanRep verts plan s f) (hn : g.numLocal = verts.length) {v : Gid} (hv : v ∈ verts) :
    g.planGet plan (getVertex (verts.idxOf v)) = .ok ((f v).getD (-1)) := by
  unfold Graph.planGet Graph.getVtxTag
  rw [h.tag hv]
  have hlt := List.idxOf_lt_length_of_mem hv
  simp only [deref, Outcome.ofOption_some, Outcome.bind_ok, vidx_getVertex]
  rw [if_neg (by omega), Mem.load_ofList (by simpa using hlt)]
  simp

theorem planHas_eq (h : PlanRep verts plan s f) (hn : g.numLocal = verts.length) {v : Gid} (hv : v ∈ verts) :
    g.planHas plan (getVertex (verts.idxOf v)) = .ok (decide (f v ≠ none)) := by
  have := planGet_eq h hn hv
  unfold Graph.planHas
  have hlt := List.idxOf_lt_length_of_mem hv
  rw [vidx_getVertex, Outcome.bind_ok, if_pos (by omega)]
  unfold Graph.planGet at this
  rw [h.tag hv] at this ⊢
  simp only [deref, Outcome.ofOption_some, Outcome.bind_ok] at this ⊢
  rw [this, Outcome.bind_ok]
  have hne := h.val v hv
  cases hf : f v with
  | none => simp
  | some d =>
    have : d ≠ -1 := fun hd => hne (by rw [hf, hd])
    simp [this]

theorem planHas_ghost (hn : g.numLocal = verts.length) {l : Nat} (hl : verts.length ≤ l) :
    g.planHas plan (getVertex l) = .ok false := by
  unfold Graph.planHas
  rw [vidx_getVertex, Outcome.bind_ok, if_neg (by omega)]; rfl

theorem setDest_eq (h : plan.dest = some (Mem.ofList (verts.map (fun v => (f v).getD (-1)))))
    (hnd : verts.Nodup) {v : Gid} (hv : v ∈ verts) (f' : Gid → Option Part) (d : Int)
    (hf : ∀ u ∈ verts, (f' u).getD (-1) = if u = v then d else (f u).getD (-1)) :
    plan.setDest (getVertex (verts.idxOf v)) d =
      .ok { plan with dest := some (Mem.ofList (verts.map (fun v => (f' v).getD (-1)))) } := by
  unfold Plan.setDest Graph.setVtxTag
  rw [h]
  have hlt := List.idxOf_lt_length_of_mem hv
  simp only [deref, Outcome.ofOption_some, Outcome.bind_ok, vidx_getVertex]
  rw [Mem.store_ok _ (by simpa using hlt), Outcome.bind_ok]
  simp only [Outcome.pure_eq]
  congr 2
  simp only [Option.some.injEq]
  apply ofList_of_get
  · simp
  · intro i hi
    have hi' : i < verts.length := by simpa using hi
    rw [List.getElem?_set]
    simp only [List.getElem_map]
    rw [hf _ (List.getElem_mem hi')]
    by_cases he : verts.idxOf v = i
    · subst he
      rw [if_pos rfl, if_pos (by simpa using hlt), if_pos (List.getElem_idxOf _)]
    · rw [if_neg he, if_neg]
      · simp [Mem.ofList, hi']
      · intro hc; apply he; rw [← hc]; exact hnd.idxOf_getElem i hi'

theorem planInsert_rep (h : PlanRep verts plan s f) (hn : g.numLocal = verts.length) (hnd : verts.Nodup)
    {v : Gid} (hv : v ∈ verts) {d : Part} (hd : d ≠ -1) :
    ∃ plan', g.planInsert plan (getVertex (verts.idxOf v)) d = .ok (plan', decide (f v = none)) ∧
      PlanRep verts plan' (if f v = none then s ++ [v] else s) (planPut f v d) := by
  have hf : ∀ u ∈ verts, (planPut f v d u).getD (-1) = if u = v then d else (f u).getD (-1) := by
    intro u _
    unfold planPut
    split <;> rfl
  have hval : ∀ u ∈ verts, planPut f v d u ≠ some (-1) := by
    intro u hu
    unfold planPut
    split
    · simpa using hd
    · exact h.val u hu
  unfold Graph.planInsert
  rw [planHas_eq h hn hv, Outcome.bind_ok]
  by_cases hz : f v = none
  · have hs := setDest_eq (plan := { plan with sending := plan.sending ++ [getVertex (verts.idxOf v)] })
      (h.tag hv) hnd hv (planPut f v d) d hf
    simp only [hz, ne_eq, not_true_eq_false, decide_false, Bool.false_eq_true, if_false, if_true, decide_true]
    rw [hs, Outcome.bind_ok]
    refine ⟨_, rfl, ?_, ?_, hval, .inr rfl, ?_⟩
    · rw [List.nodup_append]
      refine ⟨h.nodup, by simp, ?_⟩
      intro a ha b hb
      rw [List.mem_singleton] at hb
      rintro rfl
      exact ((h.mem a).mp ha).2 (by rw [hb]; exact hz)
    · intro u
      rw [List.mem_append, List.mem_singleton, h.mem]
      unfold planPut
      by_cases hu : u = v
      · subst hu; simp [hv]
      · simp [hu]
    · simp [h.sending]
  · have hs := setDest_eq (plan := plan) (h.tag hv) hnd hv (planPut f v d) d hf
    simp only [hz, ne_eq, not_false_eq_true, decide_true, if_true, if_false, decide_false]
    rw [hs, Outcome.bind_ok]
    refine ⟨_, rfl, h.nodup, ?_, hval, .inr rfl, h.sending⟩
    intro u
    rw [h.mem]
    unfold planPut
    by_cases hu : u = v
    · subst hu; simp [hv, hz]
    · simp [hu]

theorem planClear_rep (h : PlanRep verts plan s f) (hnd : verts.Nodup) :
    ∃ plan', Graph.planClear plan = .ok plan' ∧ PlanRep verts plan' [] (fun _ => none) := by
  unfold Graph.planClear
  -- loop invariant: the vertices treated so far have been reset
  have key : ∀ (l : List Gid) (pl : Plan) (f : Gid → Option Part), (∀ v ∈ l, v ∈ verts) →
      ((verts = [] ∧ pl.dest = none) ∨
        pl.dest = some (Mem.ofList (verts.map (fun v => (f v).getD (-1))))) →
      ∃ pl', (l.map (fun v => getVertex (verts.idxOf v))).foldlM (fun p v => Plan.setDest p v (-1)) pl = .ok pl' ∧
        ((verts = [] ∧ pl'.dest = none) ∨
          pl'.dest = some (Mem.ofList (verts.map (fun v => (if v ∈ l then none else f v).getD (-1))))) := by
    intro l
    induction l with
    | nil => intro pl f _ h; exact ⟨pl, rfl, by simpa using h⟩
    | cons a l ih =>
      intro pl f hl h
      have ha := hl a (by simp)
      have h' : pl.dest = some (Mem.ofList (verts.map (fun v => (f v).getD (-1)))) := by
        rcases h with ⟨h1, -⟩ | h1
        · rw [h1] at ha; simp at ha
        · exact h1
      rw [List.map_cons, List.foldlM_cons]
      rw [setDest_eq h' hnd ha (fun u => if u = a then none else f u) (-1) (by
        intro u _; split <;> rfl), Outcome.bind_ok]
      obtain ⟨pl', e, hr⟩ := ih { pl with dest := some (Mem.ofList (verts.map (fun v => ((fun u => if u = a then none else f u) v).getD (-1)))) }
        (fun u => if u = a then none else f u) (fun v hv => hl v (by simp [hv])) (.inr rfl)
      refine ⟨pl', e, ?_⟩
      rcases hr with hr | hr
      · exact .inl hr
      · right
        rw [hr]
        congr 2
        apply List.map_congr_left
        intro v _
        by_cases h1 : v = a <;> by_cases h2 : v ∈ l <;> simp [h1, h2]
  rw [h.sending]
  obtain ⟨pl', e, hr⟩ := key s plan f (fun v hv => ((h.mem v).mp hv).1) h.dest
  rw [e, Outcome.bind_ok]
  refine ⟨_, rfl, List.nodup_nil, by simp, by simp, ?_, rfl⟩
  rcases hr with hr | hr
  · exact .inl hr
  · right
    simp only
    rw [hr]
    congr 2
    apply List.map_congr_left
    intro v hv
    have := h.mem v
    by_cases h1 : v ∈ s
    · simp [h1]
    · have : f v = none := by
        by_contra hc; exact h1 (this.mpr ⟨hv, hc⟩)
      simp [this]

end

end Verif.Agi
