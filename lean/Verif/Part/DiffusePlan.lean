import Verif.Part.DiffuseLemmas
/-!
# The plans of a step of the diffusive balancer
-/
namespace Verif.Part
open Verif.Agi

/-- messages arrive in some order and hash tables are iterated in some order -/
structure StepEnv.Ok (n : Nat) (co : Bool) (env : StepEnv) : Prop where
  weights : Orders n env.weights
  done : ∀ i, Orders n (env.done i)
  sides : ∀ p l, (env.sides p l).Perm l
  hash : ∀ p, (env.hash p).Ok
  trim1 : Orders n env.trim1
  trim2 : Orders n env.trim2
  mig : EnvOk n co env.mig

/-- the type the sides are computed with has positive integer weights, and no hyperedge of type 0 has 100 or more
vertices -/
structure Measured (H : List (List HEdge)) (t : Nat) : Prop where
  type : t < H.length
  int : ∀ e ∈ H.getD t [], ∃ w : Int, e.w = (w : Rat) ∧ 0 < w
  small : ∀ e ∈ H.getD 0 [], e.pins.dedup.length < 100

section
variable {H : List (List HEdge)} {ins : List Input} {own : Gid → Nat} {gs : List Graph} {par : PlanPar}

theorem Measured.cavities (h : Measured H par.sidesType) (own : Gid → Nat) (p : Nat) : SmallCavities H own p := by
  intro e he _
  refine lt_of_le_of_lt (length_le_of_subset (List.nodup_dedup _) ?_) (h.small e he)
  intro v hv
  rw [List.mem_dedup, List.mem_filter] at hv
  rw [List.mem_dedup]
  exact hv.1

theorem Measured.weight (h : Measured H par.sidesType) : ∃ w : HEdge → Int,
    (∀ e ∈ H[par.sidesType]'h.type, e.w = (w e : Rat)) ∧ ∀ e ∈ H[par.sidesType]'h.type, 0 < w e := by
  have hHt : H.getD par.sidesType [] = H[par.sidesType]'h.type := by
    rw [List.getD_eq_getElem?_getD, List.getElem?_eq_getElem h.type]; rfl
  have : ∀ e, ∃ w : Int, e ∈ H[par.sidesType]'h.type → e.w = (w : Rat) ∧ 0 < w := by
    intro e
    by_cases he : e ∈ H[par.sidesType]'h.type
    · obtain ⟨w, hw⟩ := h.int e (by rw [hHt]; exact he)
      exact ⟨w, fun _ => hw⟩
    · exact ⟨0, fun h => absurd h he⟩
  choose w hw using this
  exact ⟨w, fun e he => (hw e he).1, fun e he => (hw e he).2⟩

/-- the side tolerance can be computed -/
theorem startSides_world (h : Spot H ins own gs) (h1 : 1 < ins.length) (hm : Measured H par.sidesType) :
    ∃ st, startSides par gs = .ok st := by
  obtain ⟨w, hw, hp⟩ := hm.weight
  obtain ⟨W, hW⟩ := h.weights h1 (dim := -1) ⟨by omega, by omega⟩ false
  obtain ⟨ss, ws, e, -⟩ := targets_world h.dist h.world (o3 := fun _ => List.range ins.length)
    (fun p _ => List.Perm.refl _) par.sidesType hm.type w hw hp (-1) false W (fun p hp => (hW p hp).1)
  unfold startSides
  rw [e, Outcome.bind_ok]
  exact ⟨_, rfl⟩

/-- the parts' weights can be computed -/
theorem partWeights_world (h : Spot H ins own gs) (h1 : 1 < ins.length) {dim : Int}
    (hdim : -1 ≤ dim ∧ dim < (H.length : Int)) (cg : Bool) :
    ∃ W : Nat → Rat, partWeights gs dim cg = .ok ((List.range ins.length).map W) ∧
      (∀ p (hp : p < gs.length), getWeight gs[p] dim cg = .ok (W p)) ∧ ∀ p, p < ins.length →
      partWeight H ins own own dim p ≤ W p ∧ (dim ≠ -1 ∨ cg = false → W p = partWeight H ins own own dim p) := by
  obtain ⟨W, hW⟩ := h.weights h1 hdim cg
  refine ⟨W, ?_, fun p hp => (hW p hp).1, fun p hp => (hW p (by rw [h.world.1]; exact hp)).2⟩
  unfold partWeights
  have hgs := list_range gs (emptyGraph 0 0)
  rw [h.world.1] at hgs
  rw [hgs]
  apply mapM_range
  intro p hp
  have hg : p < gs.length := by rw [h.world.1]; exact hp
  rw [List.getD_eq_getElem?_getD, List.getElem?_eq_getElem hg, Option.getD_some]
  exact (hW p hg).1

/-- the plans of all parts -/
theorem planAll_world (h : Spot H ins own gs) (h1 : 1 < ins.length) (hm : Measured H par.sidesType)
    (hsf : 0 < par.stepFactor) (hmc : par.minCon ≤ 1) {env : StepEnv} {co : Bool} (he : env.Ok ins.length co)
    (st : Int) {dim : Int} (hdim : -1 ≤ dim ∧ dim < (H.length : Int)) {completed : List (Int × Rat)}
    (hc5 : completed.length ≤ 5) (hcd : ∀ c ∈ completed, -1 ≤ c.1 ∧ c.1 < (H.length : Int))
    (hq : ∀ p (hp : p < ins.length), QueueFits par.queue own p ins[p]) :
    ∃ (pl : Nat → Plan) (sl : Nat → List Gid) (f : Nat → Gid → Option Part) (W : Nat → Rat),
      planAll par env st gs dim completed = .ok ((List.range ins.length).map pl) ∧
      (∀ p (hp : p < gs.length), getWeight gs[p] dim par.countGhosts = .ok (W p)) ∧
      (∀ p (hp : p < ins.length), PlanRep ins[p].verts (pl p) (sl p) (f p) ∧
        ∀ v d, f p v = some d → ∃ k : Nat, d = (k : Int) ∧ k < ins.length ∧ W k < W p ∧
          ∃ e ∈ H.getD par.sidesType [], Touches own (p : Int) e ∧ Touches own (k : Int) e) ∧
      ∀ own' : Gid → Nat, (∀ p (hp : p < ins.length), ∀ v ∈ ins[p].verts,
          ((own' v : Nat) : Int) = (f p v).getD (p : Int)) →
        ∀ q, q < ins.length → ∀ c ∈ completed,
          partWeight H ins own own' c.1 q ≤ max (partWeight H ins own own c.1 q) c.2 := by
  have hgl := h.world.1
  have hHt : H.getD par.sidesType [] = H[par.sidesType]'hm.type := by
    rw [List.getD_eq_getElem?_getD, List.getElem?_eq_getElem hm.type]; rfl
  have hH : 0 < H.length := lt_of_le_of_lt (Nat.zero_le _) hm.type
  obtain ⟨w, hw, hwp⟩ := hm.weight
  obtain ⟨W, hW⟩ := h.weights h1 hdim par.countGhosts
  obtain ⟨ss, tws, e1, e2, hsl, htl, htg⟩ := targets_world h.dist h.world he.weights par.sidesType hm.type w hw hwp dim
    par.countGhosts W (fun p hp => (hW p hp).1)
  -- the completed dimensions
  have hdone : ∀ i, ∃ ws : List Weights, i < completed.length → (do
      let c ← rd completed i
      makeWeights gs ss c.1 par.countGhosts (env.done i)) = .ok ws ∧ ws.length = ins.length := by
    intro i
    by_cases hi : i < completed.length
    · obtain ⟨W', hW'⟩ := h.weights h1 (hcd _ (List.getElem_mem hi)) par.countGhosts
      obtain ⟨ss', ws, e1', e2', -, hl, -⟩ := targets_world h.dist h.world (he.done i) par.sidesType hm.type w hw hwp
        completed[i].1 par.countGhosts W' (fun p hp => (hW' p hp).1)
      rw [e1] at e1'
      injection e1' with e1'
      subst e1'
      refine ⟨ws, fun _ => ⟨?_, hl⟩⟩
      rw [rd_ok hi, Outcome.bind_ok]
      exact e2'
    · exact ⟨[], fun h => absurd h hi⟩
  choose dw hdw using hdone
  have e3 : doneWeights par env gs ss completed = .ok ((List.range completed.length).map dw) :=
    mapM_ok (fun i hi => (hdw i (List.mem_range.mp hi)).1)
  -- the plan of one part
  have hpart : ∀ p, ∃ (pl : Plan) (sl : List Gid) (f : Gid → Option Part), ∀ (hp : p < ins.length),
      partPlan par env st gs dim ss tws ((List.range completed.length).map dw) completed p = .ok pl ∧
      PlanRep ins[p].verts pl sl f ∧ ∀ v d, f v = some d → ∃ k : Nat, d = (k : Int) ∧ k < ins.length ∧ W k < W p ∧
          ∃ e ∈ H.getD par.sidesType [], Touches own (p : Int) e ∧ Touches own (k : Int) e := by
    intro p
    by_cases hp : p < ins.length
    swap
    · exact ⟨⟨none, []⟩, [], fun _ => none, fun h => absurd h hp⟩
    have hg : p < gs.length := by omega
    have hps : p < ss.length := by omega
    have hpt : p < tws.length := by omega
    obtain ⟨gh, hr⟩ := h.world.2 p hg hp
    have hhyp : gs[p].isHyper = true := by rw [hr.core.hyp]; exact h.dist.hyper _ (List.getElem_mem hp)
    have e4 : ∃ dn, doneOf ((List.range completed.length).map dw) completed p = .ok dn := by
      refine ⟨(List.range completed.length).map (fun i => (((dw i).getD p ⟨Cont.new, 0⟩).c, (completed.getD i (0, 0)).2)), ?_⟩
      apply mapM_ok
      intro i hi
      have hi := List.mem_range.mp hi
      have hil : i < ((List.range completed.length).map dw).length := by simpa using hi
      have hwl : p < (dw i).length := by rw [(hdw i hi).2]; exact hp
      rw [rd_ok hi, Outcome.bind_ok, rd_ok hil, Outcome.bind_ok]
      simp only [List.getElem_map, List.getElem_range]
      rw [rd_ok hwl, Outcome.bind_ok, List.getD_eq_getElem?_getD, List.getElem?_eq_getElem hwl, Option.getD_some,
        List.getD_eq_getElem?_getD, List.getElem?_eq_getElem hi, Option.getD_some]
      rfl
    obtain ⟨dn, e4⟩ := e4
    obtain ⟨T, e5, hT, hTb⟩ := htg p hps hpt par.stepFactor hsf st dn (env.sides p ss[p].d) (he.sides p _)
    have hkeys : ∀ d, T.has d = true → ∃ k : Nat, d = (k : Int) ∧ k < ins.length ∧ W k < W p ∧
        ∃ e ∈ H.getD par.sidesType [], Touches own (p : Int) e ∧ Touches own (k : Int) e := by
      intro d hd
      unfold Cont.has at hd
      rw [Option.isSome_iff_exists] at hd
      obtain ⟨x, hx⟩ := hd
      obtain ⟨k, rfl, hk, -, hsh, -, -, hlt, -⟩ := (hT.entries d x).mp hx
      exact ⟨k, rfl, hk, hlt, by rw [hHt]; exact hsh⟩
    obtain ⟨s, l, f, e6, hpr, hf⟩ := select_world h hH hg (targets := T)
      (fun d hd => by obtain ⟨k, rfl, -⟩ := hkeys d hd; omega) hdim (he.hash p) par.limit sweepSizes (hm.cavities own p)
      par.queue (hq p hp)
    refine ⟨s.plan, l, f, fun _ => ⟨?_, hpr, fun v d hfv => hkeys d (hf v d hfv).1⟩⟩
    unfold partPlan
    rw [rd_ok hg, Outcome.bind_ok, rd_ok hps, Outcome.bind_ok, rd_ok hpt, Outcome.bind_ok, e4, Outcome.bind_ok, hhyp,
      hgl, e5, Outcome.bind_ok, e6, Outcome.bind_ok]
    unfold selectDisconnected
    rw [if_pos hmc]
    rfl
  choose pl sl f hpl using hpart
  have e7 : (List.range gs.length).mapM (partPlan par env st gs dim ss tws ((List.range completed.length).map dw) completed) =
      .ok ((List.range ins.length).map pl) := by
    rw [hgl]
    exact mapM_ok (fun p hp => (hpl p (List.mem_range.mp hp)).1)
  have hall : planAll par env st gs dim completed = if completed = [] then .ok ((List.range ins.length).map pl) else
      trimCancel gs ((List.range ins.length).map pl) (completed.map Prod.fst) (completed.map Prod.snd) par.countGhosts
        env.trim1 env.trim2 := by
    unfold planAll
    rw [e1, Outcome.bind_ok, e2, Outcome.bind_ok, e3, Outcome.bind_ok, e7, Outcome.bind_ok]
    rfl
  by_cases hc : completed = []
  · rw [if_pos hc] at hall
    refine ⟨pl, sl, f, W, hall, fun p hp => (hW p hp).1, fun p hp => (hpl p hp).2, ?_⟩
    intro own' _ q _ c hcm
    rw [hc] at hcm
    simp at hcm
  · rw [if_neg hc] at hall
    have hcl : 0 < completed.length := List.length_pos_of_ne_nil hc
    obtain ⟨plans', kept, e8, hk, hfit⟩ := trim_world h h1 (pl := pl) (sl := sl) (f := f)
      (fun p hp => ⟨(hpl p hp).2.1, fun v d hfv => by
        obtain ⟨k, rfl, hk, -⟩ := (hpl p hp).2.2 v d hfv
        omega⟩) he.trim1 he.trim2 (dims := completed.map Prod.fst) (limits := completed.map Prod.snd) (by simpa using hcl)
      (by simpa using hc5) (by simp) (fun d hd => by
        obtain ⟨c, hc, rfl⟩ := List.mem_map.mp hd
        exact hcd c hc) par.countGhosts
    refine ⟨plans', kept, fun p v => if v ∈ kept p then f p v else none, W, by rw [hall]; exact e8,
      fun p hp => (hW p hp).1, fun p hp => ⟨hk p hp, ?_⟩, ?_⟩
    · intro v d hfv
      dsimp only at hfv
      split at hfv
      · exact (hpl p hp).2.2 v d hfv
      · simp at hfv
    · intro own' hown' q hq c hcm
      obtain ⟨i, hi, rfl⟩ := List.mem_iff_getElem.mp hcm
      have := hfit own' hown' q hq i (by simpa using hi) (by simpa using hi)
      simpa using this

end
end Verif.Part
