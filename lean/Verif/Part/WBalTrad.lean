import Verif.Part.WBalProps
import Verif.Part.TargetTrad
/-!
# C33, C45 and C58 for traditional graphs
-/
namespace Verif.Part
open Verif.Agi

section
variable {ins : List Input} {own : Gid → Nat} {T t : Nat} {f : Gid → Wgt} {a : Nat → Int} {par : WPar} {gs : List Graph}

theorem arcsOf_reweigh : arcsOf (reweigh ins f) t = arcsOf ins t := by
  unfold arcsOf reweigh
  rw [List.flatMap_map]

theorem tradDist_reweigh (hd : TradDist ins own T) : TradDist (reweigh ins f) own T := by
  refine ⟨dist_reweigh hd.dist, ⟨?_, ?_⟩, ?_⟩
  · intro i hi
    obtain ⟨j, hj, rfl⟩ := List.mem_map.mp hi
    exact hd.uniform.hyper j hj
  · intro i hi
    obtain ⟨j, hj, rfl⟩ := List.mem_map.mp hi
    exact hd.uniform.types j hj
  · intro i hi
    obtain ⟨j, hj, rfl⟩ := List.mem_map.mp hi
    exact hd.sources j hj

theorem equal_reweigh (ha : EqualWeights ins t a) : EqualWeights (reweigh ins f) t a := by
  refine ⟨ha.pos, ?_⟩
  intro p hp e he
  rw [reweigh_get hp] at he
  exact ha.eq p (by simpa using hp) e he

theorem mutual_reweigh (hm : Mutual ins t own) : Mutual (reweigh ins f) t own := by
  intro p q
  unfold arcsBetween
  rw [arcsOf_reweigh]
  exact hm p q

theorem tradDist_wdist (hd : TradDist ins own T) : WDist [arcsOf ins 0] ins own := by
  refine ⟨hd.dist, ?_⟩
  intro es hes e he v hv
  rw [List.mem_singleton] at hes
  subst hes
  obtain ⟨i, hi, hx⟩ := List.mem_flatMap.mp he
  obtain ⟨q, hq, rfl⟩ := List.mem_iff_getElem.mp hi
  cases he' : ins[q].types[0]? with
  | none => simp [he'] at hx
  | some e' =>
    rw [he'] at hx
    exact hd.dist.pins q hq v (List.mem_flatMap.mpr ⟨e', List.mem_of_getElem? he', List.mem_flatten.mpr ⟨_, edge_pins_mem hx, hv⟩⟩)

/-- the plans of a step, in a traditional graph -/
theorem wPlanAll_trad (hd : TradDist ins own T) (hnn : ∀ v ∈ allVerts ins, 0 ≤ weightOf ins own v) (hw : World gs ins own)
    (ht : par.type < T) (ha : EqualWeights ins par.type a) (hm : Mutual ins par.type own)
    (hsf : 0 < par.stepFactor) (htot : ((allVerts ins).map (weightOf ins own)).sum < 2147483648)
    {env : WStepEnv} (he : env.Ok ins.length) (st : Int) :
    ∃ (S : Nat → WSel) (L : Transfers), wPlanAll par env st gs = .ok ((List.range ins.length).map S) ∧
      (∀ p (hg : p < gs.length) (hp : p < ins.length), WPlanOf ins own gs[p] p ins[p] (S p).plan (L p)) ∧
      FairStep [arcsOf ins 0] ins own par.stepFactor (startLoad ins own) L ∧
      (∀ p (hp : p < ins.length), ∀ v ∈ ins[p].verts, moved (L p) (fun a _ => a = v) ≤ weightOf ins own v) ∧
      ∀ p, p < ins.length → sentBy L p = (S p).planW := by
  have hgl := hw.1
  have hwd := tradDist_wdist hd
  have hW : ∀ p (_ : p < gs.length), getWeight gs[p] (-1) false = .ok (startLoad ins own p) := by
    intro p hp
    rw [partWeight_local hwd hw hp (by omega)]
    unfold startLoad
    rw [getD_ins (by omega)]
  obtain ⟨ss, tws, e1, e2, hsl, htl, htg⟩ := targets_trad hd hw he.weights ht ha hm (-1) false (startLoad ins own) hW
  have hpart : ∀ p, ∃ (s : WSel) (l : List (Gid × Gid × Nat)), ∀ (hg : p < gs.length) (hp : p < ins.length),
      wPartPlan par env st gs ss tws p = .ok s ∧ WPlanOf ins own gs[p] p ins[p] s.plan l ∧
      (∀ x ∈ l, own x.2.1 ≠ p ∧ (∃ e ∈ arcsOf ins 0, x.1 ∈ e.pins ∧ x.2.1 ∈ e.pins) ∧
        startLoad ins own (own x.2.1) < startLoad ins own p) ∧
      (∀ q, q < ins.length → q ≠ p → moved l (fun _ b => own b = q) ≤
        max 0 (par.stepFactor * (startLoad ins own p - startLoad ins own q))) ∧
      (∀ v ∈ ins[p].verts, moved l (fun a _ => a = v) ≤ weightOf ins own v) ∧
      moved l (fun _ _ => True) = s.planW := by
    intro p
    by_cases hp : p < ins.length
    swap
    · exact ⟨⟨Queue.new 0, fun _ => 0, fun _ => 0, [], 0⟩, [], fun _ h => absurd h hp⟩
    have hg : p < gs.length := by omega
    have hps : p < ss.length := by omega
    have hpt : p < tws.length := by omega
    have ht0 : 0 < ins[p].types.length := by rw [hd.uniform.types _ (List.getElem_mem hp)]; omega
    obtain ⟨gh, hr⟩ := hw.2 p hg hp
    have hhyp : gs[p].isHyper = false := by rw [hr.core.hyp]; exact hd.uniform.hyper _ (List.getElem_mem hp)
    obtain ⟨T', e5, hT, hTb⟩ := htg p hps hpt par.stepFactor hsf st [] (env.sides p ss[p].d) (he.sides p _)
    have hin : ∀ v ∈ ins[p].verts, v ∈ allVerts ins := fun v hv =>
      List.mem_flatten.mpr ⟨_, List.mem_map.mpr ⟨_, List.getElem_mem hp, rfl⟩, hv⟩
    obtain ⟨s, l, e6, hfull, hent, hl, hv, hq, hall⟩ := weightPlan_trad hd hp hr ht0 (he.hash p)
      (fun v hv => hnn v (hin v hv)) (fun v hv => lt_of_le_of_lt (vert_le hnn (hin v hv)) htot) T' 10
    refine ⟨s, l, fun _ _ => ⟨?_, ⟨hfull, ⟨gh, hr, fun x hx => (hl x hx).2.2.2.2.2, hent⟩, fun x hx => (hl x hx).1, ?_⟩,
      ?_, ?_, hv, hall⟩⟩
    · unfold wPartPlan
      rw [rd_ok hg, Outcome.bind_ok, rd_ok hps, Outcome.bind_ok, rd_ok hpt, Outcome.bind_ok, hhyp, hgl, e5,
        Outcome.bind_ok, e6]
    · intro x hx
      obtain ⟨-, -, h3, -⟩ := hl x hx
      exact hd.dist.pins p hp _ (List.mem_flatMap.mpr ⟨_, List.getElem_mem ht0, List.mem_flatten.mpr ⟨_, h3, by simp⟩⟩)
    · intro x hx
      obtain ⟨h1, h2, h3, h4, -⟩ := hl x hx
      refine ⟨h2, ?_, ?_⟩
      · obtain ⟨e, he, hpe⟩ := (arc_part hd hp ht0 h1 x.2.1).mpr h3
        exact ⟨e, he, by rw [hpe]; simp, by rw [hpe]; simp⟩
      · unfold Cont.has at h4
        rw [Option.isSome_iff_exists] at h4
        obtain ⟨y, hy⟩ := h4
        exact (hTb _ y hy).1
    · intro q hq' hqp
      refine le_trans (hq q) ?_
      unfold Cont.get
      cases hf : T'.find (q : Int) with
      | none => simp
      | some x =>
        obtain ⟨-, -, h3⟩ := hTb q x hf
        simp only [Option.getD_some]
        exact max_le_max (le_refl _) h3
  choose S L hSL using hpart
  refine ⟨S, L, ?_, fun p hg hp => (hSL p hg hp).2.1, ⟨?_, ?_, ?_⟩, fun p hp => (hSL p (by omega) hp).2.2.2.2.1,
    fun p hp => (hSL p (by omega) hp).2.2.2.2.2⟩
  · unfold wPlanAll
    rw [e1, Outcome.bind_ok, e2, Outcome.bind_ok, hgl]
    exact mapM_ok (fun p hp => (hSL p (by have := List.mem_range.mp hp; omega) (List.mem_range.mp hp)).1)
  · intro p hp x hx
    obtain ⟨-, h1, h2, -⟩ := hSL p (by omega) hp
    exact ⟨h1.mine x hx, (h2 x hx).1, (h2 x hx).2.1⟩
  · intro p hp x hx
    exact ((hSL p (by omega) hp).2.2.1 x hx).2.2
  · intro p q hp hq hqp
    exact (hSL p (by omega) hp).2.2.2.1 q hq hqp

theorem plans_trad (hd : TradDist ins own T) (ht : par.type < T) (ha : EqualWeights ins par.type a)
    (hm : Mutual ins par.type own) (hsf : 0 < par.stepFactor) : Plans [arcsOf ins 0] ins own par := by
  intro ins' hi gs hv hw htot env he st
  rcases hi with rfl | ⟨f, rfl⟩
  · exact wPlanAll_trad hd hv hw ht ha hm hsf htot he st
  · have := wPlanAll_trad (tradDist_reweigh hd) hv hw ht (equal_reweigh ha) (mutual_reweigh hm) hsf htot he st
    rw [arcsOf_reweigh] at this
    exact this

end

/-- **C33** for traditional graphs whose edges all start at local vertices and weigh the same on every part, and in which
neighbouring parts are neighbours of each other: for every dimension with part weights `W`, every step factor, side
tolerance, completed dimensions and delivery and hash order, the targets of part `p` are `TargetsOfTrad`, and every
target is to a lighter part, positive and at most `sf` times the excess over that part.  The side tolerance plays no
role.  Missing compared to C33: edges in one direction only, for which it is false (`c33_sends_to_heavier`), and
different edge weights, which are given to the wrong edges (C08). -/
theorem c33_targets_trad_partial (ins : List Input) (own : Gid → Nat) (T : Nat) (hd : TradDist ins own T)
    (owns : List (GMap Part)) (ho : OwnMaps ins own owns) (o1 o2 o3 : Nat → List Nat)
    (ho1 : Orders ins.length o1) (ho2 : Orders ins.length o2) (ho3 : Orders ins.length o3) :
    ∃ gs gs', buildAll ins = .ok gs ∧ constructGhosts gs owns o1 o2 = .ok gs' ∧ gs'.length = ins.length ∧
      ∀ t (_ : t < T) (a : Nat → Int), EqualWeights ins t a → Mutual ins t own →
      ∀ (dim : Int) (cg : Bool) (W : Nat → Rat), (∀ p (_ : p < gs'.length), getWeight gs'[p] dim cg = .ok (W p)) →
      ∃ ss ws, gs'.mapM (fun g => sides g t) = .ok ss ∧ makeWeights gs' ss dim cg o3 = .ok ws ∧
        ss.length = ins.length ∧ ws.length = ins.length ∧
      ∀ p (_ : p < ss.length) (_ : p < ws.length) (sf : Rat), 0 < sf →
      ∀ (sideTol : Int) (done : List (Cont Rat × Rat)) (order : List (Int × Int)), order.Perm ss[p].d →
      ∃ T, targets false ins.length sf ss[p] ws[p] sideTol done order = .ok T ∧
        TargetsOfTrad ins t own W sf done p T ∧
        (∀ (k : Nat) x, T.find (k : Int) = some x → W k < W p ∧ 0 < x ∧ x ≤ sf * (W p - W k)) := by
  obtain ⟨gs, e, hb⟩ := buildAll_spec ins hd.dist.wf
  obtain ⟨gs', e', hw, -⟩ := constructGhosts_spec hb hd.dist hd.uniform ho ho1 ho2
  exact ⟨gs, gs', e, e', hw.1, fun t ht a ha hm dim cg W hW => targets_trad hd hw ho3 ht ha hm dim cg W hW⟩

theorem count_split (own : Gid → Nat) (p : Nat) {K : List Nat} (hK : K.Nodup) (hp : p ∉ K) : ∀ es : List HEdge,
    (K.map (fun k => (es.filter (fun e => decide (e.pins.map own = [p, k]))).length)).sum ≤
      (es.filter (fun e => decide ((e.pins.map own).head? = some p ∧ e.pins.map own ≠ [p, p]))).length
  | [] => by
    have : K.map (fun k => (([] : List HEdge).filter (fun e => decide (e.pins.map own = [p, k]))).length) = K.map (fun _ => 0) := rfl
    rw [this]; simp
  | x :: es => by
    have ih := count_split own p hK hp es
    have h1 : ∀ k, ((x :: es).filter (fun e => decide (e.pins.map own = [p, k]))).length =
        (if x.pins.map own = [p, k] then 1 else 0) + (es.filter (fun e => decide (e.pins.map own = [p, k]))).length := by
      intro k
      rw [List.filter_cons]
      by_cases h : x.pins.map own = [p, k]
      · simp [h]; omega
      · simp [h]
    simp only [h1]
    rw [List.sum_map_add]
    have h2 : (K.map (fun k => if x.pins.map own = [p, k] then 1 else 0)).sum ≤
        if (x.pins.map own).head? = some p ∧ x.pins.map own ≠ [p, p] then 1 else 0 := by
      by_cases hx : ∃ k ∈ K, x.pins.map own = [p, k]
      · obtain ⟨k, hk, hxk⟩ := hx
        have hkp : k ≠ p := by rintro rfl; exact hp hk
        rw [hxk, if_pos ⟨rfl, by simp [hkp]⟩]
        have h3 : ∀ L : List Nat, L.Nodup → (L.map (fun j => if ([p, k] : List Nat) = [p, j] then 1 else 0)).sum ≤ 1 := by
          intro L
          induction L with
          | nil => intro _; simp
          | cons b L ihL =>
            intro hn
            rw [List.nodup_cons] at hn
            rw [List.map_cons, List.sum_cons]
            by_cases hb : k = b
            · subst hb
              have : (L.map (fun j => if ([p, k] : List Nat) = [p, j] then 1 else 0)).sum = 0 := by
                apply List.sum_eq_zero
                intro y hy
                obtain ⟨j, hj, rfl⟩ := List.mem_map.mp hy
                rw [if_neg]
                intro h
                simp only [List.cons.injEq, and_true, true_and] at h
                subst h
                exact hn.1 hj
              rw [this]; simp
            · have := ihL hn.2
              rw [if_neg (by simp [hb])]
              omega
        exact h3 K hK
      · push Not at hx
        have : (K.map (fun k => if x.pins.map own = [p, k] then 1 else 0)).sum = 0 := by
          apply List.sum_eq_zero
          intro y hy
          obtain ⟨j, hj, rfl⟩ := List.mem_map.mp hy
          rw [if_neg (hx j hj)]
        rw [this]; omega
    rw [List.filter_cons]
    by_cases h : (x.pins.map own).head? = some p ∧ x.pins.map own ≠ [p, p]
    · rw [if_pos (by simpa using h), List.length_cons]
      rw [if_pos h] at h2
      omega
    · rw [if_neg (by simpa using h)]
      rw [if_neg h] at h2
      omega

/-- **C33** for traditional graphs, the sum: the targets of a part add up to at most the step factor times the largest
excess over a neighbour it sends to. -/
theorem c33_sum_trad_partial (ins : List Input) (t : Nat) (own : Gid → Nat) (W : Nat → Rat) (sf : Rat) (hsf : 0 < sf)
    (done : List (Cont Rat × Rat)) (p : Nat) (T : Cont Rat) (hT : TargetsOfTrad ins t own W sf done p T)
    (M : Rat) (hM : 0 ≤ M) (hmax : ∀ k : Nat, (T.find (k : Int)).isSome → W p - W k ≤ M) :
    T.total ≤ sf * M := by
  rw [hT.total]
  have hent : ∀ e ∈ T.d, ∃ k : Nat, e.1 = (k : Int) ∧ k ≠ p ∧ W p - W k ≤ M ∧
      0 < arcsBetween ins t own p k ∧ e.2 = amountTrad ins t own W sf p k := by
    intro e he
    have hf : T.find e.1 = some e.2 := (lookup_iff_mem _ hT.keys _ _).mpr he
    obtain ⟨k, h3, -, h4, h5, -, -, h7⟩ := (hT.entries _ _).mp hf
    exact ⟨k, h3, h4, hmax k (by rw [← h3, hf]; rfl), h5, h7⟩
  by_cases hne : T.d = []
  · rw [hne]; simp; positivity
  have hlp : 0 < arcsLeaving ins t own p := by
    obtain ⟨e, l, hd⟩ := List.exists_cons_of_ne_nil hne
    obtain ⟨k, h3, h4, -, h5, -⟩ := hent e (by rw [hd]; simp)
    exact lt_of_lt_of_le h5 (between_le_leaving ins t own h4)
  have hlr : (0 : Rat) < (arcsLeaving ins t own p : Rat) := by exact_mod_cast hlp
  -- the sum of the shares
  have hsum : (T.d.map (fun e => arcsBetween ins t own p e.1.toNat)).sum ≤ arcsLeaving ins t own p := by
    have hK : (T.d.map (fun e => e.1.toNat)).Nodup := by
      have h := hT.keys
      rw [List.nodup_map_iff_inj_on (List.Nodup.of_map _ h)]
      intro e he e' he' hee
      obtain ⟨k, h1, -⟩ := hent e he
      obtain ⟨k', h1', -⟩ := hent e' he'
      exact List.inj_on_of_nodup_map h he he' (by rw [h1, h1'] at hee ⊢; simpa using hee)
    have hp : p ∉ T.d.map (fun e => e.1.toNat) := by
      intro hpm
      obtain ⟨e, he, hep⟩ := List.mem_map.mp hpm
      obtain ⟨k, h1, h2, -⟩ := hent e he
      rw [h1] at hep
      exact h2 (by simpa using hep)
    have := count_split own p hK hp (arcsOf ins t)
    rw [List.map_map] at this
    exact this
  have hle : ∀ l : List (Int × Rat), (∀ e ∈ l, e ∈ T.d) → (l.map Prod.snd).sum ≤
      sf * M * (((l.map (fun e => arcsBetween ins t own p e.1.toNat)).sum : Nat) : Rat) / (arcsLeaving ins t own p : Rat) := by
    intro l
    induction l with
    | nil => intro _; simp
    | cons e l ih =>
      intro hl
      have ih' := ih (fun x hx => hl x (by simp [hx]))
      obtain ⟨k, h3, h4, h6, h7, h8⟩ := hent e (hl e (by simp))
      simp only [List.map_cons, List.sum_cons]
      push_cast
      have hx : e.2 ≤ sf * M * (arcsBetween ins t own p e.1.toNat : Rat) / (arcsLeaving ins t own p : Rat) := by
        rw [h8, h3, Int.toNat_natCast]
        unfold amountTrad
        have h7' : (0 : Rat) < (arcsBetween ins t own p k : Rat) := by exact_mod_cast h7
        have hq : 0 < (arcsBetween ins t own p k : Rat) / (arcsLeaving ins t own p : Rat) := div_pos h7' hlr
        have : (W p - W k) * ((arcsBetween ins t own p k : Rat) / (arcsLeaving ins t own p : Rat)) * sf ≤
            M * ((arcsBetween ins t own p k : Rat) / (arcsLeaving ins t own p : Rat)) * sf := by
          apply mul_le_mul_of_nonneg_right _ hsf.le
          exact mul_le_mul_of_nonneg_right h6 hq.le
        refine le_trans this (le_of_eq ?_)
        ring
      rw [mul_add, add_div]
      push_cast at ih'
      exact add_le_add hx ih'
  refine le_trans (hle T.d (fun _ h => h)) ?_
  rw [div_le_iff₀ hlr]
  apply mul_le_mul_of_nonneg_left _ (by positivity)
  exact_mod_cast hsum

/-- **C45** for a part of a traditional graph whose edges all start at local vertices: as `c45_plan_partial`, the transfers
following the edges of type 0 that leave the part. -/
theorem c45_plan_trad_partial (ins : List Input) (own : Gid → Nat) (T : Nat) (hd : TradDist ins own T) (hT : 0 < T)
    (owns : List (GMap Part)) (ho : OwnMaps ins own owns) (o1 o2 : Nat → List Nat)
    (ho1 : Orders ins.length o1) (ho2 : Orders ins.length o2) (p : Nat) (hp : p < ins.length)
    (hnn : ∀ v ∈ ins[p].verts, 0 ≤ weightOf ins own v) (hsm : ∀ v ∈ ins[p].verts, weightOf ins own v < 2147483648)
    (targets : Cont Rat) (ord : HashOrd) (hord : ord.Ok) (n : Nat) :
    ∃ gs gs' g s, ∃ l : List (Gid × Gid × Nat), buildAll ins = .ok gs ∧ constructGhosts gs owns o1 o2 = .ok gs' ∧
      gs'[p]? = some g ∧ weightPlan ord g targets n = .ok s ∧
      transfers g s.plan = .ok (l.map (fun x => (x.1, x.2.1, (x.2.2 : Rat)))) ∧
      (∀ x ∈ l, x.1 ∈ ins[p].verts ∧ own x.2.1 ≠ p ∧ Arc ins 0 x.1 x.2.1 ∧
        targets.has (own x.2.1 : Int) = true ∧ 0 < targets.get (own x.2.1 : Int)) ∧
      (∀ v ∈ ins[p].verts, moved l (fun a _ => a = v) ≤ weightOf ins own v) ∧
      (∀ q : Nat, moved l (fun _ b => own b = q) ≤ max 0 (targets.get (q : Int))) ∧
      moved l (fun _ _ => True) = s.planW := by
  obtain ⟨gs, e1, hb⟩ := buildAll_spec ins hd.dist.wf
  obtain ⟨gs', e2, hw, -⟩ := constructGhosts_spec hb hd.dist hd.uniform ho ho1 ho2
  have hg : p < gs'.length := by rw [hw.1]; exact hp
  obtain ⟨ghosts, hr⟩ := hw.2 p hg hp
  have ht0 : 0 < ins[p].types.length := by rw [hd.uniform.types _ (List.getElem_mem hp)]; omega
  obtain ⟨s, l, e3, -, hl, hle, h1, h2, h3⟩ := weightPlan_trad hd hp hr ht0 hord hnn hsm targets n
  have hv := hr.core.v
  refine ⟨gs, gs', gs'[p], s, l, e1, e2, List.getElem?_eq_getElem hg, e3, ?_, ?_, h1, h2, h3⟩
  · unfold transfers
    rw [hl, List.mapM_map]
    apply mapM_ok
    intro x hxx
    obtain ⟨q1, -, -, -, -, q6⟩ := hle x hxx
    show (do
      let v ← gs'[p].globalID (getVertex ((ins[p].verts ++ ghosts).idxOf x.1))
      let u ← gs'[p].globalID (getVertex ((ins[p].verts ++ ghosts).idxOf x.2.1))
      return (v, u, (x.2.2 : Rat))) = Outcome.ok _
    rw [globalID_eq hv (List.mem_append_left _ q1), Outcome.bind_ok, globalID_eq hv q6]
    rfl
  · intro x hxx
    obtain ⟨q1, q2, q3, q4, q5, -⟩ := hle x hxx
    exact ⟨q1, q2, (arc_part hd hp ht0 q1 x.2.1).mpr q3, q4, q5⟩

/-- **C58** for a traditional graph distributed over at least two parts whose edges all start at local vertices and, for the
type that measures the sides, weigh the same on every part, in which neighbouring parts are neighbours of each other:
as `c58_diffusion_partial`, the transfers following edges of type 0. -/
theorem c58_diffusion_trad_partial (ins : List Input) (own : Gid → Nat) (T : Nat) (hd : TradDist ins own T)
    (hnn : ∀ v ∈ allVerts ins, 0 ≤ weightOf ins own v)
    (owns : List (GMap Part)) (ho : OwnMaps ins own owns) (o1 o2 : Nat → List Nat)
    (ho1 : Orders ins.length o1) (ho2 : Orders ins.length o2) (h2 : 1 < ins.length) (par : WPar)
    (ht : par.type < T) (a : Nat → Int) (ha : EqualWeights ins par.type a) (hm : Mutual ins par.type own)
    (hsf : 0 < par.stepFactor) (htot : ((allVerts ins).map (weightOf ins own)).sum < 2147483648)
    (env : Nat → WStepEnv) (he : ∀ k, (env k).Ok ins.length) (sideTol : Int) (wps : List WpMap)
    (hwps : wps.length = ins.length) :
    ∃ gs gs' b rs ts r, buildAll ins = .ok gs ∧ constructGhosts gs owns o1 o2 = .ok gs' ∧
      weightBalance par env sideTol gs' wps = .ok (b, rs) ∧ Diffused [arcsOf ins 0] ins own par gs' b rs ts ∧
      Recorded [arcsOf ins 0] ins own gs' b r := by
  obtain ⟨gs, e1, hb⟩ := buildAll_spec ins hd.dist.wf
  obtain ⟨gs', e2, hw, -⟩ := constructGhosts_spec hb hd.dist hd.uniform ho ho1 ho2
  have hs : WSpot [arcsOf ins 0] ins own gs' par := ⟨tradDist_wdist hd, hnn, hw, plans_trad hd ht ha hm hsf, htot⟩
  obtain ⟨b, rs, ts, e3, h⟩ := diffused_spot hs h2 he sideTol hwps
  obtain ⟨r, hr⟩ := recorded_spot hs h
  exact ⟨gs, gs', b, rs, ts, r, e1, e2, e3, h, hr⟩

/-! ## concrete case and witness -/

/-- a path 4 - 1 - 2 - 3 with edges in both directions, cut between 1 and 2 -/
def wayWorld : List Input :=
  [{ hyper := false, verts := [1, 4], wgts := [30, 10], types := [⟨[0, 1, 2], [[1, 2], [1, 4], [4, 1]], []⟩] },
   { hyper := false, verts := [2, 3], wgts := [90, 70], types := [⟨[3, 4, 5], [[2, 1], [2, 3], [3, 2]], []⟩] }]

theorem wayWorld_dist : TradDist wayWorld lopOwn 1 := by
  refine ⟨⟨?_, by decide, by decide⟩, ⟨by decide, by decide⟩, ?_⟩
  · intro i hi
    simp only [wayWorld, List.mem_cons, List.not_mem_nil, or_false] at hi
    rcases hi with rfl | rfl
    all_goals
      refine ⟨by decide, by decide, ?_⟩
      intro e he
      simp only [List.mem_cons, List.not_mem_nil, or_false] at he
      subst he; exact ⟨by decide, by decide, by decide⟩
  · intro i hi e he x hx
    simp only [wayWorld, List.mem_cons, List.not_mem_nil, or_false] at hi
    rcases hi with rfl | rfl
    all_goals
      simp only [List.mem_cons, List.not_mem_nil, or_false] at he
      subst he
      simp only [List.mem_cons, List.not_mem_nil, or_false] at hx
    · rcases hx with rfl | rfl | rfl
      · exact ⟨1, by decide, 2, by decide, rfl⟩
      · exact ⟨1, by decide, 4, by decide, rfl⟩
      · exact ⟨4, by decide, 1, by decide, rfl⟩
    · rcases hx with rfl | rfl | rfl
      · exact ⟨2, by decide, 1, by decide, rfl⟩
      · exact ⟨2, by decide, 3, by decide, rfl⟩
      · exact ⟨3, by decide, 2, by decide, rfl⟩

theorem wayWorld_equal : EqualWeights wayWorld 0 (fun _ => 1) := by
  refine ⟨fun _ => by decide, ?_⟩
  intro p hp e he
  have h1 : p = 0 ∨ p = 1 := by simp [wayWorld] at hp; omega
  rcases h1 with rfl | rfl
  all_goals
    simp only [wayWorld, List.getElem_cons_zero, List.getElem_cons_succ, List.getElem?_cons_zero, Option.some.injEq] at he
    subst he
    decide +kernel

theorem wayWorld_mutual : Mutual wayWorld 0 lopOwn := by
  intro p q h
  have h0 : arcsOf wayWorld 0 = [⟨0, [1, 2], 1⟩, ⟨1, [1, 4], 1⟩, ⟨2, [4, 1], 1⟩, ⟨3, [2, 1], 1⟩, ⟨4, [2, 3], 1⟩,
    ⟨5, [3, 2], 1⟩] := by decide +kernel
  unfold arcsBetween at h ⊢
  rw [h0] at h ⊢
  obtain ⟨x, hx⟩ := List.exists_mem_of_length_pos h
  rw [List.mem_filter, decide_eq_true_eq] at hx
  obtain ⟨hx, hpq⟩ := hx
  simp only [List.mem_cons, List.not_mem_nil, or_false] at hx
  rcases hx with rfl | rfl | rfl | rfl | rfl | rfl
  all_goals
    simp only [List.map_cons, List.map_nil, List.cons.injEq, and_true] at hpq
    obtain ⟨rfl, rfl⟩ := hpq
    decide

/-- weight diffusion of a graph on two parts: the codes and amounts of the steps and the weights of the parts after it -/
def wayRun (ins : List Input) : Outcome (List (Nat × Nat) × List Rat) := do
  let gs ← buildAll ins
  let gs ← constructGhosts gs [fun v => some (lopOwn v : Int), fun v => some (lopOwn v : Int)] lopEnv.weights lopEnv.weights
  let (b, rs) ← weightBalance lopPar (fun _ => lopEnv) 1000 gs [fun _ _ => 0, fun _ _ => 0]
  let ws ← b.gs.mapM (fun g => getWeight g (-1) false)
  return (rs.map (fun r => (r.rc, r.moved)), ws)

/-- the hypotheses of the theorems are met by the path -/
example : TradDist wayWorld lopOwn 1 ∧ EqualWeights wayWorld 0 (fun _ => 1) ∧ Mutual wayWorld 0 lopOwn ∧
    (∀ v ∈ allVerts wayWorld, 0 ≤ weightOf wayWorld lopOwn v) ∧ lopEnv.Ok wayWorld.length ∧ lopPar.type < 1 ∧
    0 < lopPar.stepFactor ∧ ((allVerts wayWorld).map (weightOf wayWorld lopOwn)).sum < 2147483648 ∧
    wayRun wayWorld = .ok ([(0, 56), (1, 0)], [96, 104]) :=
  ⟨wayWorld_dist, wayWorld_equal, wayWorld_mutual, by decide +kernel, lopEnv_ok, by decide, by decide +kernel,
    by decide +kernel, by decide +kernel⟩

/-- the path with its only edge between the parts in one direction -/
def onewayWorld : List Input :=
  [{ hyper := false, verts := [1, 4], wgts := [30, 10], types := [⟨[0, 1, 2], [[1, 2], [1, 4], [4, 1]], []⟩] },
   { hyper := false, verts := [2, 3], wgts := [90, 70], types := [⟨[4, 5], [[2, 3], [3, 2]], []⟩] }]

/-- "weight goes to lighter parts" is false if an edge leads to a part but none comes back: part 0 weighs 40 and part 1
weighs 160, and weight goes from part 0 to part 1 until part 1 weighs more than at first -/
theorem c58_uphill : ∃ l w0 w1, wayRun onewayWorld = .ok (l, [w0, w1]) ∧ w0 < 40 ∧ 160 < w1 := by
  have h : wayRun onewayWorld = .ok ([(0, 16), (0, 5), (2, 0)], [19, 181]) := by decide +kernel
  exact ⟨_, _, _, h, by decide +kernel, by decide +kernel⟩

end Verif.Part
