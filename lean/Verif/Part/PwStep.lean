import Verif.Part.PwPlan
import Verif.Part.PwTargets
import Verif.Part.DiffusePlan
/-!
# The plans and the tables of a step of the balancer with the part weight balancer
-/
namespace Verif.Part
open Verif.Agi

/-- a table: no part twice, and only parts -/
structure TabOk (n : Nat) (t : PwTable) : Prop where
  keys : ((t.getD []).map Prod.fst).Nodup
  range : ∀ e ∈ t.getD [], ∃ k : Nat, e.1 = (k : Int) ∧ k < n

/-- the environment of a step -/
structure PwStep.Ok (n : Nat) (co : Bool) (env : PwStep) : Prop where
  base : env.base.Ok n co
  inner : ∀ p l, (env.inner p l).Perm l
  /-- no table of sides is rehashed while it is iterated -/
  rehash : ∀ p, env.rehash p = false

section
variable {H : List (List HEdge)} {ins : List Input} {own : Gid → Nat} {gs : List Graph} {par : PlanPar}

theorem side_keys {t : Nat} (ht : t < H.length) {w : HEdge → Int} {p : Nat} {s : Cont Int}
    (hs : SidesOf H[t] own w p s) (q : Int) : q ∈ s.d.map Prod.fst ↔
      q ≠ (p : Int) ∧ ∃ e ∈ H[t], Touches own p e ∧ Touches own q e := by
  constructor
  · intro h
    have := (lookup_isSome s.d q).mpr h
    rw [Option.isSome_iff_exists] at this
    obtain ⟨v, hv⟩ := this
    have := (hs.side q v).mp hv
    exact ⟨this.1, this.2.1⟩
  · rintro ⟨h1, h2⟩
    have : s.find q = some _ := (hs.side q _).mpr ⟨h1, h2, rfl⟩
    rw [← lookup_isSome]
    unfold Cont.find at this
    rw [this]; rfl

/-- the sides of all parts -/
theorem sides_world (h : Spot H ins own gs) {t : Nat} (ht : t < H.length) {w : HEdge → Int}
    (hw : ∀ e ∈ H[t], e.w = (w e : Rat)) : ∃ ss, gs.mapM (fun g => sides g t) = .ok ss ∧ ss.length = ins.length ∧
      ∀ p (hp : p < ss.length), SidesOf H[t] own w p ss[p] := by
  obtain ⟨ss, es, hsl, hss⟩ := mapM_idx (f := fun g => sides g t) (fun p s => SidesOf H[t] own w p s) gs (by
    intro p hp
    have hp' : p < ins.length := by rw [← h.world.1]; exact hp
    obtain ⟨ghosts, hr⟩ := h.world.2 p hp hp'
    exact sidesOf_part h.dist hp' hr ht hw)
  exact ⟨ss, es, by rw [hsl, h.world.1], hss⟩

theorem touch_part (h : Spot H ins own gs) {t : Nat} (ht : t < H.length) {e : HEdge} (he : e ∈ H[t]) {q : Int}
    (hq : Touches own q e) : ∃ k : Nat, q = (k : Int) ∧ k < ins.length := by
  obtain ⟨v, hv, rfl⟩ := hq
  obtain ⟨h1, -⟩ := h.dist.pins _ (List.getElem_mem ht) e he v hv
  exact ⟨own v, rfl, h1⟩

/-- the sides of the parts agree with each other -/
theorem sides_sym (h : Spot H ins own gs) {t : Nat} (ht : t < H.length) {w : HEdge → Int} {ss : List (Cont Int)}
    (hl : ss.length = ins.length) (hss : ∀ p (hp : p < ss.length), SidesOf H[t] own w p ss[p])
    {order : Nat → List (Int × Int) → List (Int × Int)} (ho : ∀ p l, (order p l).Perm l) :
    SymSides ins.length ((List.range ss.length).map (fun p => order p (ss.getD p Cont.new).d)) := by
  refine ⟨by simp [hl], ?_⟩
  have hk : ∀ p (hp : p < ss.length) (q : Int), q ∈ (order p (ss.getD p Cont.new).d).map Prod.fst ↔
      q ≠ (p : Int) ∧ ∃ e ∈ H[t], Touches own p e ∧ Touches own q e := by
    intro p hp q
    rw [((ho p _).map Prod.fst).mem_iff, List.getD_eq_getElem?_getD, List.getElem?_eq_getElem hp, Option.getD_some]
    exact side_keys ht (hss p hp) q
  intro p hp q hq
  have hp' : p < ss.length := by simpa using hp
  simp only [List.getElem_map, List.getElem_range] at hq
  obtain ⟨h1, e, he, h2, h3⟩ := (hk p hp' q).mp hq
  obtain ⟨k, rfl, hkn⟩ := touch_part h ht he h3
  refine ⟨k, rfl, hkn, by intro hh; exact h1 (by rw [hh]), ?_⟩
  intro hk'
  simp only [List.getElem_map, List.getElem_range]
  refine (hk k (by simpa using hk') _).mpr ⟨Ne.symm h1, e, he, h3, h2⟩

/-- what the part weight balancer plans -/
theorem partWeightBalance_world (h : Spot H ins own gs) (h1 : 1 < ins.length) (hm : Measured H par.sidesType)
    (hsf : 0 < par.stepFactor) {env : PwStart} (he : env.Ok ins.length) {ss : List (Cont Int)}
    (hss : gs.mapM (fun g => sides g par.sidesType) = .ok ss) {dim : Int} (tol : Rat) {W : Nat → Rat}
    (hW : partWeights gs dim par.countGhosts = .ok ((List.range ins.length).map W)) (hnn : ∀ p, p < ins.length → 0 ≤ W p)
    (htot : ((List.range ins.length).map W).sum < 2147483648) :
    ∃ (wps : List WpMap) (r : Nat → Nat → Nat),
      partWeightBalance par.stepFactor par.countGhosts env gs ss dim tol = .ok wps ∧ wps.length = ins.length ∧
      (∀ p (hp : p < wps.length), ∀ q, q < ins.length → wps[p] (p : Int) (q : Int) = (r p q : Rat)) ∧
      PartPlanned ins.length W (fun p q => ∃ e ∈ H.getD par.sidesType [], Touches own (p : Int) e ∧ Touches own (q : Int) e) r := by
  have hHt : H.getD par.sidesType [] = H[par.sidesType]'hm.type := by
    rw [List.getD_eq_getElem?_getD, List.getElem?_eq_getElem hm.type]; rfl
  obtain ⟨w, hw, hwp⟩ := hm.weight
  obtain ⟨ss', e1, hsl, hs⟩ := sides_world h hm.type hw
  rw [hss] at e1
  injection e1 with e1
  subst e1
  have hsym := sides_sym h hm.type hsl hs he.sides
  obtain ⟨pg, b, rs, r, e2, e3, hl, hr, hp⟩ := partPlan_sym hsym h1 (ws := (List.range ins.length).map W) (by simp)
    (by
      intro x hx
      obtain ⟨p, hp, rfl⟩ := List.mem_map.mp hx
      exact hnn p (List.mem_range.mp hp)) htot hsf (tol := tol * (3 / 4)) (env := env.steps) he.steps env.sideTol
    (ss.map (fun _ => fun _ _ => 0)) (by simpa using hsl)
  refine ⟨b.wps, r, ?_, hl, hr, ?_, ?_⟩
  · unfold partWeightBalance
    rw [hW, Outcome.bind_ok, e2, Outcome.bind_ok, e3]
    rfl
  · intro p q hpq
    obtain ⟨a1, a2, a3, a4, a5⟩ := hp.between p q hpq
    refine ⟨a1, a2, a3, ?_, a5⟩
    rw [hHt]
    have hp' : p < ss.length := by omega
    simp only [List.getD_eq_getElem?_getD, List.getElem?_map, List.getElem?_range hp', Option.map_some, Option.getD_some,
      List.getElem?_eq_getElem hp'] at a4
    rw [((he.sides p _).map Prod.fst).mem_iff] at a4
    exact ((side_keys hm.type (hs p hp') _).mp a4).2
  · intro p hp'
    have := hp.loads p hp'
    rwa [List.getD_eq_getElem?_getD, List.getElem?_map, List.getElem?_range hp'] at this

/-- what a step plans for part `d` on part `p`: the vertices `f` sends there -/
def sentTo (vs : List Gid) (f : Gid → Option Part) (d : Part) : List Gid := vs.filter (fun v => decide (f v = some d))

/-- the table after a step: the weight planned for a destination is subtracted, below 0 if need be -/
def NewTable (W : Part → Rat) (sent : Part → Prop) (t t' : PwTable) : Prop :=
  (t = none ∧ t' = none) ∨ ∃ l l', t = some l ∧ t' = some l' ∧ (l'.map Prod.fst).Nodup ∧
    (∀ d, sent d → l'.lookup d = some ((l.lookup d).getD 0 - W d)) ∧ ∀ d, ¬ sent d → l'.lookup d = l.lookup d

theorem updateTable_world (h : Spot H ins own gs) {p : Nat} (hp : p < ins.length) (hg : p < gs.length) {dim : Int}
    (hdim : -1 ≤ dim ∧ dim < (H.length : Int)) {plan : Plan} {s : List Gid} {f : Gid → Option Part}
    (hpl : PlanRep ins[p].verts plan s f) (hf : ∀ v d, f v = some d → ∃ k : Nat, d = (k : Int) ∧ k < ins.length)
    {t : PwTable} (ht : TabOk ins.length t) :
    ∃ t', updateTable gs[p] dim plan t = .ok t' ∧ TabOk ins.length t' ∧
      NewTable (fun d => bringWeight H ins own dim d.toNat (sentTo ins[p].verts f d)) (fun d => ∃ v ∈ ins[p].verts, f v = some d) t t' := by
  obtain ⟨gh, hr⟩ := h.world.2 p hg hp
  have hfa := facts_part h.dist h.nn hp hr (dims := [dim]) (by
    intro d hd; rw [List.mem_singleton] at hd; subst hd; exact hdim)
  have hsv : ∀ v ∈ s, v ∈ ins[p].verts := fun v hv => ((hpl.mem v).mp hv).1
  obtain ⟨nbrs, hn, hmem, e1⟩ := offers_spec hfa (f := fun v => (f v).getD (-1)) (plan := plan) (s := s) hsv hpl.sending
    (fun v hv => planGet_eq hpl hr.core.v.nl (hsv v hv))
  have e2 := planWeight_offers e1
  have hval : ∀ v ∈ ins[p].verts, ∀ d, v ∈ s → ((f v).getD (-1) = d ↔ f v = some d) := by
    intro v hv d hs
    have := ((hpl.mem v).mp hs).2
    cases hfv : f v with
    | none => exact absurd hfv this
    | some x => simp
  have hsent : ∀ d, (∃ v ∈ s, (f v).getD (-1) = d) ↔ ∃ v ∈ ins[p].verts, f v = some d := by
    intro d
    constructor
    · rintro ⟨v, hv, hd⟩
      exact ⟨v, hsv v hv, (hval v (hsv v hv) d hv).mp hd⟩
    · rintro ⟨v, hv, hd⟩
      have : v ∈ s := (hpl.mem v).mpr ⟨hv, by rw [hd]; simp⟩
      exact ⟨v, this, (hval v hv d this).mpr hd⟩
  have hW : ∀ d, (∃ v ∈ ins[p].verts, f v = some d) → (offer [dim] (weightOf ins own) (incOf gs[p] ins[p] gh) (resOf gs[p])
      (ewOf gs[p]) d (s.filter (fun v => decide ((f v).getD (-1) = d)))).headD 0 =
      bringWeight H ins own dim d.toNat (sentTo ins[p].verts f d) := by
    rintro d ⟨v, hv, hd⟩
    obtain ⟨k, rfl, -⟩ := hf v d hd
    have hl := load_part h.dist h.nn hp hr hdim k (us := s.filter (fun v => decide ((f v).getD (-1) = (k : Int))))
      (fun v hv => hsv v (List.mem_filter.mp hv).1)
    have hperm : (s.filter (fun v => decide ((f v).getD (-1) = (k : Int)))).Perm (sentTo ins[p].verts f (k : Int)) := by
      unfold sentTo
      rw [List.perm_ext_iff_of_nodup (hpl.nodup.filter _) (((h.dist.wf _ (List.getElem_mem hp)).nodup).filter _)]
      intro x
      rw [List.mem_filter, List.mem_filter, decide_eq_true_eq, decide_eq_true_eq]
      constructor
      · rintro ⟨hx, hd⟩
        exact ⟨hsv x hx, (hval x (hsv x hx) _ hx).mp hd⟩
      · rintro ⟨hx, hd⟩
        have : x ∈ s := (hpl.mem x).mpr ⟨hx, by rw [hd]; simp⟩
        exact ⟨this, (hval x hx _ this).mpr hd⟩
    have hb : bringWeight H ins own dim k (s.filter (fun v => decide ((f v).getD (-1) = (k : Int)))) =
        bringWeight H ins own dim k (sentTo ins[p].verts f (k : Int)) := by
      unfold bringWeight
      split
      · exact (hperm.map _).sum_eq
      · congr 2
        apply List.filter_congr
        intro e _
        simp only [hperm.mem_iff]
    rw [Int.toNat_natCast, ← hb, ← hl]
    unfold offer
    simp only [List.map_cons, List.map_nil, List.headD_cons]
    by_cases hd1 : dim = -1
    · rw [if_pos hd1, hd1]; simp
    · rw [if_neg hd1, one_mul]
  unfold updateTable
  rw [e2, Outcome.bind_ok]
  refine ⟨_, rfl, ?_⟩
  rw [List.map_map]
  cases t with
  | none => exact ⟨⟨by simp, by simp⟩, .inl ⟨rfl, rfl⟩⟩
  | some l =>
    have hnd : ((nbrs.map ((fun x : Part × List Rat => (x.1, x.2.headD 0)) ∘ fun d => (d, offer [dim] (weightOf ins own)
        (incOf gs[p] ins[p] gh) (resOf gs[p]) (ewOf gs[p]) d (s.filter (fun v => decide ((f v).getD (-1) = d)))))).map
        Prod.fst) = nbrs := by
      rw [List.map_map]
      conv_rhs => rw [← List.map_id nbrs]
      rfl
    generalize hws : nbrs.map ((fun x : Part × List Rat => (x.1, x.2.headD 0)) ∘ fun d => (d, offer [dim] (weightOf ins own)
        (incOf gs[p] ins[p] gh) (resOf gs[p]) (ewOf gs[p]) d (s.filter (fun v => decide ((f v).getD (-1) = d))))) = ws at hnd
    obtain ⟨k1, k2⟩ := subEntries_spec ws l (by rw [hnd]; exact hn) ht.keys
    have hlk : ∀ d, d ∈ nbrs → ws.lookup d = some (bringWeight H ins own dim d.toNat (sentTo ins[p].verts f d)) := by
      intro d hd
      rw [lookup_iff_mem _ (by rw [hnd]; exact hn), ← hws]
      refine List.mem_map.mpr ⟨d, hd, ?_⟩
      simp only [Function.comp]
      rw [hW d ((hsent d).mp ((hmem d).mp hd))]
    have hno : ∀ d, d ∉ nbrs → ws.lookup d = none := by
      intro d hd
      rw [← Option.not_isSome_iff_eq_none, lookup_isSome, hnd]
      exact hd
    refine ⟨⟨k1, ?_⟩, .inr ⟨l, _, rfl, rfl, k1, ?_, ?_⟩⟩
    · intro e he
      have he' : e ∈ ws.foldl subEntry l := he
      have hlk' := (lookup_iff_mem _ k1 e.1 e.2).mpr he'
      rw [k2] at hlk'
      by_cases hd : e.1 ∈ nbrs
      · obtain ⟨v, hv, hfv⟩ := (hsent _).mp ((hmem _).mp hd)
        exact hf v _ hfv
      · rw [hno _ hd] at hlk'
        dsimp only at hlk'
        exact ht.range (e.1, e.2) ((lookup_iff_mem _ ht.keys e.1 e.2).mp hlk')
    · intro d hd
      rw [k2, hlk d ((hmem d).mpr ((hsent d).mpr hd))]
    · intro d hd
      rw [k2, hno d (fun hh => hd ((hsent d).mp ((hmem d).mp hh)))]

/-- the plans of all parts -/
theorem pwPlanAll_world (h : Spot H ins own gs) (h1 : 1 < ins.length) (hm : Measured H par.sidesType)
    (hmc : par.minCon ≤ 1) {env : PwStep} {co : Bool} (he : env.Ok ins.length co)
    (st : Int) {dim : Int} (hdim : -1 ≤ dim ∧ dim < (H.length : Int)) {completed : List (Int × Rat)}
    (hc5 : completed.length ≤ 5) (hcd : ∀ c ∈ completed, -1 ≤ c.1 ∧ c.1 < (H.length : Int))
    (hq : ∀ p (hp : p < ins.length), QueueFits par.queue own p ins[p])
    {tabs : Nat → PwTable} (htab : ∀ p, p < ins.length → TabOk ins.length (tabs p)) :
    ∃ (pl : Nat → Plan) (sl : Nat → List Gid) (f : Nat → Gid → Option Part) (tabs' : Nat → PwTable),
      pwPlanAll par env st gs dim completed ((List.range ins.length).map tabs) =
        .ok ((List.range ins.length).map pl, (List.range ins.length).map tabs') ∧
      (∀ p (hp : p < ins.length), PlanRep ins[p].verts (pl p) (sl p) (f p) ∧
        ∀ v d, f p v = some d → ∃ k : Nat, d = (k : Int) ∧ k < ins.length ∧ k ≠ p ∧ (∃ a, (d, a) ∈ (tabs p).getD [] ∧ 0 < a) ∧
          ∃ e ∈ H.getD par.sidesType [], Touches own (p : Int) e ∧ Touches own (k : Int) e) ∧
      (∀ p (hp : p < ins.length), TabOk ins.length (tabs' p) ∧
        NewTable (fun d => bringWeight H ins own dim d.toNat (sentTo ins[p].verts (f p) d))
          (fun d => ∃ v ∈ ins[p].verts, f p v = some d) (tabs p) (tabs' p)) ∧
      ∀ own' : Gid → Nat, (∀ p (hp : p < ins.length), ∀ v ∈ ins[p].verts,
          ((own' v : Nat) : Int) = (f p v).getD (p : Int)) →
        ∀ q, q < ins.length → ∀ c ∈ completed,
          partWeight H ins own own' c.1 q ≤ max (partWeight H ins own own c.1 q) c.2 := by
  have hgl := h.world.1
  have hHt : H.getD par.sidesType [] = H[par.sidesType]'hm.type := by
    rw [List.getD_eq_getElem?_getD, List.getElem?_eq_getElem hm.type]; rfl
  have hH : 0 < H.length := lt_of_le_of_lt (Nat.zero_le _) hm.type
  obtain ⟨w, hw, hwp⟩ := hm.weight
  obtain ⟨W, hW⟩ := h.weights h1 hdim par.countGhosts
  obtain ⟨ss, tws, e1, e2, hsl, htl, -⟩ := targets_world h.dist h.world he.base.weights par.sidesType hm.type w hw hwp dim
    par.countGhosts W (fun p hp => (hW p hp).1)
  obtain ⟨ss', e1', -, hss⟩ := sides_world h hm.type hw
  rw [e1] at e1'
  injection e1' with e1'
  subst e1'
  -- the completed dimensions
  have hdone : ∀ i, ∃ ws : List Weights, i < completed.length → (do
      let c ← rd completed i
      makeWeights gs ss c.1 par.countGhosts (env.base.done i)) = .ok ws ∧ ws.length = ins.length := by
    intro i
    by_cases hi : i < completed.length
    · obtain ⟨W', hW'⟩ := h.weights h1 (hcd _ (List.getElem_mem hi)) par.countGhosts
      obtain ⟨ss', ws, e1', e2', -, hl, -⟩ := targets_world h.dist h.world (he.base.done i) par.sidesType hm.type w hw hwp
        completed[i].1 par.countGhosts W' (fun p hp => (hW' p hp).1)
      rw [e1] at e1'
      injection e1' with e1'
      subst e1'
      refine ⟨ws, fun _ => ⟨?_, hl⟩⟩
      rw [rd_ok hi, Outcome.bind_ok]
      exact e2'
    · exact ⟨[], fun h => absurd h hi⟩
  choose dw hdw using hdone
  have e3 : doneWeights par env.base gs ss completed = .ok ((List.range completed.length).map dw) :=
    mapM_ok (fun i hi => (hdw i (List.mem_range.mp hi)).1)
  have htl' : ∀ p (hp : p < ins.length), rd ((List.range ins.length).map tabs) p = .ok (tabs p) := by
    intro p hp
    rw [rd_ok (by simpa using hp)]
    simp
  -- the plan of one part
  have hpart : ∀ p, ∃ (pl : Plan) (sl : List Gid) (f : Gid → Option Part), ∀ (hp : p < ins.length),
      pwPartPlan par env st gs dim ss ((List.range ins.length).map tabs) ((List.range completed.length).map dw) completed p =
        .ok pl ∧
      PlanRep ins[p].verts pl sl f ∧ ∀ v d, f v = some d → ∃ k : Nat, d = (k : Int) ∧ k < ins.length ∧ k ≠ p ∧
          (∃ a, (d, a) ∈ (tabs p).getD [] ∧ 0 < a) ∧
          ∃ e ∈ H.getD par.sidesType [], Touches own (p : Int) e ∧ Touches own (k : Int) e := by
    intro p
    by_cases hp : p < ins.length
    swap
    · exact ⟨⟨none, []⟩, [], fun _ => none, fun h => absurd h hp⟩
    have hg : p < gs.length := by omega
    have hps : p < ss.length := by omega
    obtain ⟨gh, hr⟩ := h.world.2 p hg hp
    have hhyp : gs[p].isHyper = true := by rw [hr.core.hyp]; exact h.dist.hyper _ (List.getElem_mem hp)
    have e4 : ∃ dn, doneOf ((List.range completed.length).map dw) completed p = .ok dn := by
      refine ⟨(List.range completed.length).map (fun i => (((dw i).getD p ⟨Cont.new, 0⟩).c, (completed.getD i (0, 0)).2)), ?_⟩
      apply mapM_ok
      intro i hi
      have hi := List.mem_range.mp hi
      have hil : i < ((List.range completed.length).map dw).length := by simpa using hi
      have hwl : p < (dw i).length := by rw [(hdw i hi).2]; exact hp
      rw [rd_ok hi, Outcome.bind_ok, rd_ok hil, Outcome.bind_ok]
      simp only [List.getElem_map, List.getElem_range]
      rw [rd_ok hwl, Outcome.bind_ok, List.getD_eq_getElem?_getD, List.getElem?_eq_getElem hwl, Option.getD_some,
        List.getD_eq_getElem?_getD, List.getElem?_eq_getElem hi, Option.getD_some]
      rfl
    obtain ⟨dn, e4⟩ := e4
    have hs := hss p hps
    have hperm := he.inner p ((tabs p).getD [])
    have htp := htab p hp
    obtain ⟨T, e5, hT, hfind⟩ := pwTargets_spec true (s := ss[p]) (rehash := env.rehash p) st dn
      (table := env.inner p ((tabs p).getD [])) (order := env.base.sides p ss[p].d) (by
        intro hne htot
        obtain ⟨a, l, hal⟩ := List.exists_cons_of_ne_nil hne
        have ha : a ∈ ss[p].d := ((he.base.sides p ss[p].d).mem_iff).mp (by rw [hal]; simp)
        obtain ⟨k1, k2⟩ := (side_keys hm.type hs a.1).mp (List.mem_map.mpr ⟨a, ha, rfl⟩)
        have h3 := shared_pos hwp k2
        have h4 := shared_le_cut (own := own) (w := w) (es := H[par.sidesType]'hm.type) hwp k1
        have h5 := hs.total
        omega) (.inl (he.rehash p)) (((hperm.map Prod.fst).nodup_iff).mpr htp.keys)
    have hkeys : ∀ d, T.has d = true → 0 < T.get d → ∃ k : Nat, d = (k : Int) ∧ k < ins.length ∧ k ≠ p ∧
        (∃ a, (d, a) ∈ (tabs p).getD [] ∧ 0 < a) ∧
        ∃ e ∈ H.getD par.sidesType [], Touches own (p : Int) e ∧ Touches own (k : Int) e := by
      intro d hd hpos
      unfold Cont.has at hd
      rw [Option.isSome_iff_exists] at hd
      obtain ⟨x, hx⟩ := hd
      have hx0 : 0 < x := by
        unfold Cont.get at hpos
        rw [hx] at hpos
        exact hpos
      obtain ⟨-, a, ha, rfl⟩ := (hfind d x).mp hx
      rw [hperm.mem_iff] at ha
      obtain ⟨k, hk, hkn⟩ := htp.range _ ha
      dsimp only at hk
      subst hk
      -- the side
      have hne : shareTo ss[p] (k : Int) ≠ 0 := by
        intro h0; rw [h0, mul_zero] at hx0; exact absurd hx0 (lt_irrefl _)
      have hget : ss[p].get (k : Int) ≠ 0 := by
        intro h0; apply hne; unfold shareTo; rw [h0]; simp
      have hsome : ∃ v, ss[p].find (k : Int) = some v := by
        unfold Cont.get at hget
        cases hf : ss[p].find (k : Int) with
        | none => rw [hf] at hget; exact absurd rfl hget
        | some v => exact ⟨v, rfl⟩
      obtain ⟨v, hv⟩ := hsome
      obtain ⟨s1, s2, s3⟩ := (hs.side _ _).mp hv
      refine ⟨k, rfl, hkn, by intro hh; exact s1 (by rw [hh]), ⟨a, ha, ?_⟩, by rw [hHt]; exact s2⟩
      -- the share is positive
      have p1 := shared_pos hwp s2
      have p2 := shared_le_cut (own := own) (w := w) (es := H[par.sidesType]'hm.type) hwp s1
      have hsh : 0 < shareTo ss[p] (k : Int) := by
        unfold shareTo Cont.get
        rw [hv, Option.getD_some, s3, hs.total]
        have q1 : (0 : Rat) < (sharedWeight (H[par.sidesType]'hm.type) own w (p : Int) (k : Int) : Rat) := by exact_mod_cast p1
        have q2 : (0 : Rat) < (cutWeight (H[par.sidesType]'hm.type) own w (p : Int) : Rat) := by exact_mod_cast lt_of_lt_of_le p1 p2
        exact div_pos q1 q2
      by_contra hna
      exact absurd hx0 (not_lt.mpr (mul_nonpos_of_nonpos_of_nonneg (not_lt.mp hna) hsh.le))
    obtain ⟨s, l, f, e6, hpr, hf⟩ := select_world h hH hg (targets := T)
      (fun d hd => by
        unfold Cont.has at hd
        rw [Option.isSome_iff_exists] at hd
        obtain ⟨x, hx⟩ := hd
        obtain ⟨-, a, ha, -⟩ := (hfind d x).mp hx
        rw [hperm.mem_iff] at ha
        obtain ⟨k, hk, hkn⟩ := htp.range _ ha
        dsimp only at hk
        omega) hdim (he.base.hash p) par.limit sweepSizes (hm.cavities own p) par.queue (hq p hp)
    refine ⟨s.plan, l, f, fun _ => ⟨?_, hpr, fun v d hfv => hkeys d (hf v d hfv).1 (hf v d hfv).2⟩⟩
    unfold pwPartPlan
    rw [rd_ok hg, Outcome.bind_ok, rd_ok hps, Outcome.bind_ok, htl' p hp, Outcome.bind_ok, e4, Outcome.bind_ok, hhyp,
      e5, Outcome.bind_ok, e6, Outcome.bind_ok]
    unfold selectDisconnected
    rw [if_pos hmc]
    rfl
  choose pl sl f hpl using hpart
  have e7 : (List.range gs.length).mapM (pwPartPlan par env st gs dim ss ((List.range ins.length).map tabs)
      ((List.range completed.length).map dw) completed) = .ok ((List.range ins.length).map pl) := by
    rw [hgl]
    exact mapM_ok (fun p hp => (hpl p (List.mem_range.mp hp)).1)
  -- the tables
  have hfin : ∀ (pl' : Nat → Plan) (sl' : Nat → List Gid) (f' : Nat → Gid → Option Part),
      (∀ p (hp : p < ins.length), PlanRep ins[p].verts (pl' p) (sl' p) (f' p)) →
      (∀ p, p < ins.length → ∀ v d, f' p v = some d → f p v = some d) →
      ∃ tabs' : Nat → PwTable, (List.range gs.length).mapM (fun p => do
          let g ← rd gs p
          let plan ← rd ((List.range ins.length).map pl') p
          let tab ← rd ((List.range ins.length).map tabs) p
          updateTable g dim plan tab) = .ok ((List.range ins.length).map tabs') ∧
        ∀ p (hp : p < ins.length), TabOk ins.length (tabs' p) ∧
          NewTable (fun d => bringWeight H ins own dim d.toNat (sentTo ins[p].verts (f' p) d))
            (fun d => ∃ v ∈ ins[p].verts, f' p v = some d) (tabs p) (tabs' p) := by
    intro pl' sl' f' hr' hf'
    have : ∀ p, ∃ t' : PwTable, ∀ (hp : p < ins.length) (hg : p < gs.length),
        updateTable gs[p] dim (pl' p) (tabs p) = .ok t' ∧ TabOk ins.length t' ∧
          NewTable (fun d => bringWeight H ins own dim d.toNat (sentTo ins[p].verts (f' p) d))
            (fun d => ∃ v ∈ ins[p].verts, f' p v = some d) (tabs p) t' := by
      intro p
      by_cases hp : p < ins.length
      · obtain ⟨t', a, b, c⟩ := updateTable_world h hp (by omega) hdim (hr' p hp) (fun v d hfv => by
          obtain ⟨k, k1, k2, -⟩ := (hpl p hp).2.2 v d (hf' p hp v d hfv)
          exact ⟨k, k1, k2⟩) (htab p hp)
        exact ⟨t', fun _ _ => ⟨a, b, c⟩⟩
      · exact ⟨none, fun h => absurd h hp⟩
    choose tabs' ht' using this
    refine ⟨tabs', ?_, fun p hp => (ht' p hp (by omega)).2⟩
    rw [hgl]
    apply mapM_ok
    intro p hp
    have hp := List.mem_range.mp hp
    have hg : p < gs.length := by omega
    rw [rd_ok hg, Outcome.bind_ok, rd_ok (by simpa using hp), Outcome.bind_ok, htl' p hp, Outcome.bind_ok]
    simp only [List.getElem_map, List.getElem_range]
    exact (ht' p hp hg).1
  by_cases hc : completed = []
  · obtain ⟨tabs', e8, ht'⟩ := hfin pl sl f (fun p hp => (hpl p hp).2.1) (fun _ _ _ _ h => h)
    refine ⟨pl, sl, f, tabs', ?_, fun p hp => (hpl p hp).2, ht', ?_⟩
    · unfold pwPlanAll
      rw [e1, Outcome.bind_ok, e2, Outcome.bind_ok, e3, Outcome.bind_ok, e7, Outcome.bind_ok, if_pos hc, Outcome.bind_ok,
        e8]
      rfl
    · intro own' _ q _ c hcm
      rw [hc] at hcm
      simp at hcm
  · have hcl : 0 < completed.length := List.length_pos_of_ne_nil hc
    obtain ⟨plans', kept, e8, hk, hfit⟩ := trim_world h h1 (pl := pl) (sl := sl) (f := f)
      (fun p hp => ⟨(hpl p hp).2.1, fun v d hfv => by
        obtain ⟨k, rfl, hk, -⟩ := (hpl p hp).2.2 v d hfv
        omega⟩) he.base.trim1 he.base.trim2 (dims := completed.map Prod.fst) (limits := completed.map Prod.snd) (by simpa using hcl)
      (by simpa using hc5) (by simp) (fun d hd => by
        obtain ⟨c, hc, rfl⟩ := List.mem_map.mp hd
        exact hcd c hc) par.countGhosts
    have hsub : ∀ p, p < ins.length → ∀ v d, (if v ∈ kept p then f p v else none) = some d → f p v = some d := by
      intro p _ v d hfv
      split at hfv
      · exact hfv
      · cases hfv
    obtain ⟨tabs', e9, ht'⟩ := hfin plans' kept (fun p v => if v ∈ kept p then f p v else none) hk hsub
    refine ⟨plans', kept, fun p v => if v ∈ kept p then f p v else none, tabs', ?_, fun p hp => ⟨hk p hp, ?_⟩, ht', ?_⟩
    · unfold pwPlanAll
      rw [e1, Outcome.bind_ok, e2, Outcome.bind_ok, e3, Outcome.bind_ok, e7, Outcome.bind_ok, if_neg hc, e8,
        Outcome.bind_ok, e9]
      rfl
    · intro v d hfv
      exact (hpl p hp).2.2 v d (hsub p hp v d hfv)
    · intro own' hown' q hq c hcm
      obtain ⟨i, hi, rfl⟩ := List.mem_iff_getElem.mp hcm
      have := hfit own' hown' q hq i (by simpa using hi) (by simpa using hi)
      simpa using this

end
end Verif.Part
