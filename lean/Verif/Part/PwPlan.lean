import Verif.Part.PwModel
import Verif.Part.WBalTrad
import Verif.Agi.GhostArray
/-!
# The part weight balancer: what it plans
-/
namespace Verif.Part
open Verif.Agi

/-! ## specification -/

/-- the movements planned between `n` parts that weigh `W`: natural amounts, to neighbours, between two parts in one
direction only, and no part gives more than it has and gets -/
structure PartPlanned (n : Nat) (W : Nat → Rat) (nb : Nat → Nat → Prop) (r : Nat → Nat → Nat) : Prop where
  between : ∀ p q, 0 < r p q → p < n ∧ q < n ∧ q ≠ p ∧ nb p q ∧ r q p = 0
  loads : ∀ p, p < n → (((List.range n).map (r p)).sum : Nat) ≤ W p + (((List.range n).map (fun q => r q p)).sum : Nat)

/-! ## proof -/

/-- sides of `n` parts that agree with each other -/
structure SymSides (n : Nat) (ls : List (List (Int × Int))) : Prop where
  len : ls.length = n
  keys : ∀ p (h : p < ls.length), ∀ q ∈ ls[p].map Prod.fst, ∃ k : Nat, q = (k : Int) ∧ k < n ∧ k ≠ p ∧
    ∀ h' : k < ls.length, (p : Int) ∈ ls[k].map Prod.fst

section
variable {n : Nat} {ls : List (List (Int × Int))} {ws : List Rat}

/-- the inputs of the graph of the parts -/
def partInputs (ws : List Rat) (ls : List (List (Int × Int))) : List Input :=
  (List.range ls.length).map (fun p => partInput p (ws.getD p 0) (ls.getD p []))

/-- vertex `p` is on part `p` -/
def partOwn : Gid → Nat := fun v => v.toNat

theorem partInputs_length : (partInputs ws ls).length = ls.length := by simp [partInputs]

theorem partInputs_get {p : Nat} (h : p < (partInputs ws ls).length) :
    (partInputs ws ls)[p] = partInput p (ws.getD p 0) (ls[p]'(by simpa [partInputs] using h)) := by
  have h' : p < ls.length := by simpa [partInputs] using h
  simp [partInputs, List.getD_eq_getElem?_getD, List.getElem?_eq_getElem h']

theorem partInputs_wf : ∀ i ∈ partInputs ws ls, i.WF := by
  intro i hi
  obtain ⟨p, hp, rfl⟩ := List.mem_map.mp hi
  refine ⟨by simp [partInput], by simp [partInput, maxTypes], ?_⟩
  intro e he
  simp only [partInput, List.mem_singleton] at he
  subst he
  refine ⟨by simp, .inl rfl, ?_⟩
  intro _ x hx
  obtain ⟨y, -, rfl⟩ := List.mem_map.mp hx
  rfl

theorem partInput_pins {p : Nat} {w : Rat} {l : List (Int × Int)} {v : Gid} (h : v ∈ (partInput p w l).allPins) :
    v = (p : Int) ∨ v ∈ l.map Prod.fst := by
  simp only [partInput, Input.allPins, List.map_cons, List.map_nil, List.flatten_cons, List.flatten_nil,
    List.append_nil, List.mem_flatten] at h
  obtain ⟨x, hx, hv⟩ := h
  obtain ⟨y, hy, rfl⟩ := List.mem_map.mp hx
  simp only [List.mem_cons, List.not_mem_nil, or_false] at hv
  rcases hv with rfl | rfl
  · exact .inl rfl
  · exact .inr (List.mem_map.mpr ⟨y, hy, rfl⟩)

theorem partInputs_trad (h : SymSides n ls) : TradDist (partInputs ws ls) partOwn 1 := by
  have hl : (partInputs ws ls).length = n := by rw [partInputs_length, h.len]
  refine ⟨⟨partInputs_wf, ?_, ?_⟩, ⟨?_, ?_⟩, ?_⟩
  · intro p hp v hv
    rw [partInputs_get] at hv
    simp only [partInput, List.mem_singleton] at hv
    rw [hv]; simp [partOwn]
  · intro p hp v hv
    rw [partInputs_get] at hv
    have hp' : p < ls.length := by simpa [partInputs] using hp
    rcases partInput_pins hv with rfl | hv
    · have : partOwn (p : Int) = p := by simp [partOwn]
      rw [this]
      refine ⟨hp, ?_⟩
      simp only [partInputs_get, partInput, List.mem_singleton]
    · obtain ⟨k, rfl, hk, -⟩ := h.keys p hp' v hv
      have : partOwn (k : Int) = k := by simp [partOwn]
      rw [this]
      refine ⟨by omega, ?_⟩
      simp only [partInputs_get, partInput, List.mem_singleton]
  · intro i hi
    obtain ⟨p, hp, rfl⟩ := List.mem_map.mp hi
    rfl
  · intro i hi
    obtain ⟨p, hp, rfl⟩ := List.mem_map.mp hi
    rfl
  · intro i hi e he x hx
    obtain ⟨p, hp, rfl⟩ := List.mem_iff_getElem.mp hi
    have hp' : p < ls.length := by simpa [partInputs] using hp
    rw [partInputs_get] at he ⊢
    simp only [partInput, List.mem_singleton] at he ⊢
    subst he
    obtain ⟨y, hy, rfl⟩ := List.mem_map.mp hx
    obtain ⟨k, hk, -, hkp, -⟩ := h.keys p hp' y.1 (List.mem_map.mpr ⟨y, hy, rfl⟩)
    exact ⟨_, rfl, y.1, by omega, rfl⟩

theorem partInputs_equal : EqualWeights (partInputs ws ls) 0 (fun _ => 1) := by
  refine ⟨fun _ => by decide, ?_⟩
  intro p hp e he x hx
  rw [partInputs_get] at he
  simp only [partInput, List.getElem?_cons_zero, Option.some.injEq] at he
  subst he
  unfold EdgeInput.edges EdgeInput.weights at hx
  obtain ⟨y, hy, rfl⟩ := List.mem_map.mp hx
  have h1 := (List.of_mem_zip (List.of_mem_zip hy).2).2
  rw [if_pos rfl] at h1
  rw [List.eq_of_mem_replicate h1]
  norm_num

/-- the edges of the graph of the parts -/
theorem part_arc (h : SymSides n ls) {e : HEdge} (he : e ∈ arcsOf (partInputs ws ls) 0) :
    ∃ p, ∃ hp : p < ls.length, ∃ q : Nat, e.pins = [(p : Int), (q : Int)] ∧ (q : Int) ∈ ls[p].map Prod.fst ∧ q < n ∧ q ≠ p := by
  obtain ⟨i, hi, hx⟩ := List.mem_flatMap.mp he
  obtain ⟨p, hp, rfl⟩ := List.mem_iff_getElem.mp hi
  have hp' : p < ls.length := by simpa [partInputs] using hp
  rw [partInputs_get] at hx
  simp only [partInput, List.getElem?_cons_zero] at hx
  have := edge_pins_mem hx
  obtain ⟨y, hy, hxy⟩ := List.mem_map.mp this
  have hm : y.1 ∈ ls[p].map Prod.fst := List.mem_map.mpr ⟨y, hy, rfl⟩
  obtain ⟨k, hk, hkn, hkp, -⟩ := h.keys p hp' y.1 hm
  exact ⟨p, hp', k, by rw [← hxy, hk], by rw [← hk]; exact hm, hkn, hkp⟩

theorem arc_of_side {p q : Nat} (hp : p < ls.length) (hq : (q : Int) ∈ ls[p].map Prod.fst) :
    ∃ e ∈ arcsOf (partInputs ws ls) 0, e.pins = [(p : Int), (q : Int)] := by
  have hp' : p < (partInputs ws ls).length := by rw [partInputs_length]; exact hp
  have hwf := (partInputs_wf (ws := ws) (ls := ls) _ (List.getElem_mem hp'))
  rw [partInputs_get] at hwf
  have hwe := hwf.edges _ (by simp [partInput]; rfl)
  obtain ⟨y, hy, hyq⟩ := List.mem_map.mp hq
  have hm : [(p : Int), (q : Int)] ∈ (ls[p].map (fun e => [(p : Int), e.1])) :=
    List.mem_map.mpr ⟨y, hy, by rw [hyq]⟩
  have h2 := edges_pins hwe
  have hm' : [(p : Int), (q : Int)] ∈
      (EdgeInput.edges ⟨(List.range ls[p].length).map (fun i : Nat => (i : Int)), ls[p].map (fun e => [(p : Int), e.1]), []⟩).map
        HEdge.pins := by
    rw [h2]; exact hm
  obtain ⟨e, he, hep⟩ := List.mem_map.mp hm'
  refine ⟨e, List.mem_flatMap.mpr ⟨_, List.getElem_mem hp', ?_⟩, hep⟩
  rw [partInputs_get]
  exact he

theorem partInputs_mutual (h : SymSides n ls) : Mutual (partInputs ws ls) 0 partOwn := by
  intro p q hpq
  unfold arcsBetween at hpq ⊢
  obtain ⟨x, hx⟩ := List.exists_mem_of_length_pos hpq
  rw [List.mem_filter, decide_eq_true_eq] at hx
  obtain ⟨a, ha, b, hab, hm, hbn, hba⟩ := part_arc h hx.1
  have h1 := hx.2
  rw [hab] at h1
  simp only [List.map_cons, List.map_nil, List.cons.injEq, and_true, partOwn, Int.toNat_natCast] at h1
  obtain ⟨rfl, rfl⟩ := h1
  obtain ⟨k, hk, -, -, hsym⟩ := h.keys a ha _ hm
  have hk' : b = k := by exact_mod_cast hk
  subst hk'
  have hb : b < ls.length := by rw [h.len]; exact hbn
  obtain ⟨e, he, hep⟩ := arc_of_side (ws := ws) hb (hsym hb)
  apply List.length_pos_of_mem (a := e)
  rw [List.mem_filter, decide_eq_true_eq]
  exact ⟨he, by rw [hep]; simp [partOwn]⟩

theorem partInputs_owns (h : SymSides n ls) :
    OwnArrays (partInputs ws ls) partOwn (ls.map (fun l => l.map (fun e => (e.1, e.1)))) := by
  refine ⟨by simp [partInputs], ?_⟩
  intro p hp hp2
  have hp' : p < ls.length := by simpa [partInputs] using hp
  simp only [List.getElem_map]
  rw [partInputs_get]
  constructor
  · intro x hx
    obtain ⟨y, hy, rfl⟩ := List.mem_map.mp hx
    right
    obtain ⟨k, hk, -⟩ := h.keys p hp' y.1 (List.mem_map.mpr ⟨y, hy, rfl⟩)
    refine ⟨?_, by dsimp only; rw [hk]; simp [partOwn]⟩
    simp only [partInput, Input.allPins, List.map_cons, List.map_nil, List.flatten_cons, List.flatten_nil,
      List.append_nil, List.mem_flatten]
    exact ⟨_, List.mem_map.mpr ⟨y, hy, rfl⟩, by simp⟩
  · intro v hv hnv
    rcases partInput_pins hv with rfl | hv
    · exact absurd (by simp [partInput]) hnv
    · obtain ⟨y, hy, rfl⟩ := List.mem_map.mp hv
      exact ⟨_, List.mem_map.mpr ⟨y, hy, rfl⟩, rfl⟩

theorem partGraphs_world (h : SymSides n ls) (ws : List Rat) :
    ∃ pg, partGraphs ws ls = .ok pg ∧ World pg (partInputs ws ls) partOwn := by
  have hd := partInputs_trad (ws := ws) h
  obtain ⟨gs, e, hb⟩ := buildAll_spec (partInputs ws ls) hd.dist.wf
  obtain ⟨g1, e1, w1, -⟩ := fillOwnersArrays_spec hb hd.dist.wf (partInputs_owns h)
  obtain ⟨g2, e2, w2, -⟩ := countTypes_spec w1 hd.uniform hd.dist.verts
  refine ⟨g2, ?_, w2⟩
  unfold partGraphs
  have : buildAll ((List.range ls.length).map (fun p => partInput p (ws.getD p 0) (ls.getD p []))) = .ok gs := e
  rw [this, Outcome.bind_ok]
  unfold constructGhostsA
  rw [e1, Outcome.bind_ok, e2]

theorem allVerts_part (hws : ws.length = ls.length) : allVerts (partInputs ws ls) = (List.range ls.length).map (fun p : Nat => (p : Int)) := by
  unfold allVerts partInputs
  rw [List.map_map]
  have : ∀ l : List Nat, (l.map ((fun i : Input => i.verts) ∘ fun p => partInput p (ws.getD p 0) (ls.getD p []))).flatten =
      l.map (fun p : Nat => (p : Int)) := by
    intro l
    induction l with
    | nil => rfl
    | cons a l ih => simp only [List.map_cons, List.flatten_cons, ih]; rfl
  exact this _

theorem weightOf_part {p : Nat} (hp : p < ls.length) (hws : ws.length = ls.length) :
    weightOf (partInputs ws ls) partOwn (p : Int) = ws[p] := by
  have hp' : p < (partInputs ws ls).length := by rw [partInputs_length]; exact hp
  have h1 := weightOf_verts (ins := partInputs ws ls) (own := partOwn) (by
    intro p hp v hv
    rw [partInputs_get] at hv
    simp only [partInput, List.mem_singleton] at hv
    rw [hv]; simp [partOwn]) (fun i hi => (partInputs_wf i hi).nodup) hp'
  rw [partInputs_get] at h1
  simp only [partInput, vertWeights, List.map_cons, List.map_nil, List.length_singleton, List.range_one] at h1
  have h2 : weightOf (partInputs ws ls) partOwn (p : Int) = ws.getD p 0 := by simpa using h1.symm
  rw [h2, List.getD_eq_getElem?_getD, List.getElem?_eq_getElem (by omega)]
  rfl

/-- the environment of the part weight balancer -/
structure PwStart.Ok (n : Nat) (env : PwStart) : Prop where
  sides : ∀ p l, (env.sides p l).Perm l
  steps : ∀ k, (env.steps k).Ok n
  order : ∀ p, (env.order p).Perm (List.range n)

theorem sum_part (n : Nat) (F : Int → Rat) (G : Nat → Nat) (h : ∀ q, q < n → F (q : Int) = (G q : Rat)) :
    (((List.range n).map (fun q : Nat => (q : Int))).map F).sum = (((List.range n).map G).sum : Nat) := by
  have : ∀ l : List Nat, (∀ q ∈ l, q < n) → ((l.map (fun q : Nat => (q : Int))).map F).sum = ((l.map G).sum : Nat) := by
    intro l
    induction l with
    | nil => intro _; simp
    | cons a l ih =>
      intro hl
      simp only [List.map_cons, List.sum_cons]
      rw [ih (fun q hq => hl q (by simp [hq])), h a (hl a (by simp))]
      push_cast
      rfl
  exact this _ (fun q hq => List.mem_range.mp hq)

/-- the part weight balancer on parts with agreeing sides -/
theorem partPlan_sym (h : SymSides n ls) (h2 : 1 < n) {ws : List Rat} (hws : ws.length = n) (hnn : ∀ w ∈ ws, 0 ≤ w)
    (htot : ws.sum < 2147483648) {sf tol : Rat} (hsf : 0 < sf) {env : Nat → WStepEnv} (he : ∀ k, (env k).Ok n)
    (st : Int) (wps : List WpMap) (hwps : wps.length = n) :
    ∃ (pg : List Graph) (b : WBal) (rs : List StepRec) (r : Nat → Nat → Nat), partGraphs ws ls = .ok pg ∧
      weightBalance ⟨0, sf, tol, 100⟩ env st pg wps = .ok (b, rs) ∧ b.wps.length = n ∧
      (∀ p (hp : p < b.wps.length), ∀ q, q < n → b.wps[p] (p : Int) (q : Int) = (r p q : Rat)) ∧
      PartPlanned n (fun p => ws.getD p 0) (fun p q => (q : Int) ∈ (ls.getD p []).map Prod.fst) r := by
  have hd := partInputs_trad (ws := ws) h
  have hl : (partInputs ws ls).length = n := by rw [partInputs_length, h.len]
  have hwl : ws.length = ls.length := by rw [hws, h.len]
  obtain ⟨pg, e1, hw⟩ := partGraphs_world h ws
  have hW : ∀ p, p < n → weightOf (partInputs ws ls) partOwn (p : Int) = ws.getD p 0 := by
    intro p hp
    rw [weightOf_part (by rw [h.len]; exact hp) hwl, List.getD_eq_getElem?_getD, List.getElem?_eq_getElem (by omega)]
    rfl
  have hav := allVerts_part (ls := ls) hwl
  have hnn' : ∀ v ∈ allVerts (partInputs ws ls), 0 ≤ weightOf (partInputs ws ls) partOwn v := by
    intro v hv
    rw [hav] at hv
    obtain ⟨p, hp, rfl⟩ := List.mem_map.mp hv
    have hp := List.mem_range.mp hp
    rw [weightOf_part hp hwl]
    exact hnn _ (List.getElem_mem _)
  have htot' : ((allVerts (partInputs ws ls)).map (weightOf (partInputs ws ls) partOwn)).sum < 2147483648 := by
    rw [hav, List.map_map]
    have : (List.range ls.length).map (weightOf (partInputs ws ls) partOwn ∘ fun p : Nat => (p : Int)) = ws := by
      apply List.ext_getElem
      · simp [hwl]
      · intro p h1 h2
        simp only [List.getElem_map, List.getElem_range, Function.comp]
        exact weightOf_part (by omega) hwl
    rw [this]
    exact htot
  have hs : WSpot [arcsOf (partInputs ws ls) 0] (partInputs ws ls) partOwn pg ⟨0, sf, tol, 100⟩ :=
    ⟨tradDist_wdist hd, hnn', hw, plans_trad hd (by show (0 : Nat) < 1; omega) partInputs_equal (partInputs_mutual h) hsf, htot'⟩
  obtain ⟨b, rs, ts, e3, hdf⟩ := diffused_spot hs (by omega) (env := env) (by rw [hl]; exact he) st
    (by rw [hl]; exact hwps)
  obtain ⟨R, hR⟩ := recorded_spot hs hdf
  have hnat : ∀ p q : Nat, ∃ k : Nat, p < n → R p (p : Int) (q : Int) = (k : Rat) := by
    intro p q
    by_cases hp : p < n
    · obtain ⟨k, hk⟩ := hR.nat p (by omega) (p : Int) (q : Int)
      exact ⟨k, fun _ => hk⟩
    · exact ⟨0, fun h => absurd h hp⟩
  choose k hk using hnat
  have hverts : ∀ p (hp : p < (partInputs ws ls).length), (partInputs ws ls)[p].verts = [(p : Int)] := by
    intro p hp
    rw [partInputs_get]; rfl
  have hbtw : ∀ p : Nat, p < n → ∀ q : Nat, 0 < R p (p : Int) (q : Int) → q < n ∧ q ≠ p ∧
      (q : Int) ∈ (ls.getD p []).map Prod.fst ∧ R q (q : Int) (p : Int) = 0 := by
    intro p hp q hpos
    obtain ⟨-, h1, h2, ⟨e, he, hpe, hqe⟩, h3⟩ := hR.between p (by omega) (p : Int) (q : Int) hpos
    have hq : partOwn (q : Int) = q := by simp [partOwn]
    rw [hq] at h1 h2 h3
    refine ⟨by omega, h2, ?_, h3⟩
    have he' : e ∈ arcsOf (partInputs ws ls) 0 := he
    obtain ⟨a, ha, c, hac, hm, hcn, hca⟩ := part_arc h he'
    rw [hac] at hpe hqe
    simp only [List.mem_cons, List.not_mem_nil, or_false] at hpe hqe
    have hpl : p < ls.length := by rw [h.len]; exact hp
    rw [List.getD_eq_getElem?_getD, List.getElem?_eq_getElem hpl, Option.getD_some]
    have hpe' : p = a ∨ p = c := by
      rcases hpe with hh | hh
      · left; exact_mod_cast hh
      · right; exact_mod_cast hh
    have hqe' : q = a ∨ q = c := by
      rcases hqe with hh | hh
      · left; exact_mod_cast hh
      · right; exact_mod_cast hh
    rcases hpe' with rfl | rfl
    · rcases hqe' with rfl | rfl
      · exact absurd rfl h2
      · exact hm
    · rcases hqe' with rfl | rfl
      · obtain ⟨c', hc', -, -, hsym⟩ := h.keys q ha _ hm
        have : p = c' := by exact_mod_cast hc'
        subst this
        exact hsym hpl
      · exact absurd rfl h2
  have htab := hR.table
  rw [hl] at htab
  refine ⟨pg, b, rs, fun p q => if p < n ∧ q < n then k p q else 0, e1, e3, by rw [htab]; simp, ?_, ?_, ?_⟩
  · intro p hp q hq
    have hp' : p < n := by rw [htab] at hp; simpa using hp
    have : b.wps[p] = R p := by simp [htab]
    rw [this, hk p q hp']
    show _ = (((if p < n ∧ q < n then k p q else 0 : Nat)) : Rat)
    rw [if_pos ⟨hp', hq⟩]
  · intro p q hpq
    by_cases hc : p < n ∧ q < n
    swap
    · rw [if_neg hc] at hpq; omega
    rw [if_pos hc] at hpq
    obtain ⟨h1, h2, h3, h4⟩ := hbtw p hc.1 q (by rw [hk p q hc.1]; exact_mod_cast hpq)
    refine ⟨hc.1, h1, h2, h3, ?_⟩
    rw [if_pos ⟨hc.2, hc.1⟩]
    rw [hk q p hc.2] at h4
    exact_mod_cast h4
  · intro p hp
    have hbl : p < b.gs.length := by rw [hR.parts]; omega
    have hpi : p < (partInputs ws ls).length := by omega
    obtain ⟨w, hw1, hw2⟩ := hR.weights p hbl
    have hpg : p < pg.length := by rw [hw.1]; exact hpi
    -- the weight at first
    have hw0 : w = ws.getD p 0 := by
      have h1 : getWeight pg[p]! (-1) false = .ok (startLoad (partInputs ws ls) partOwn p) := by
        rw [getElem!_pos pg p hpg, partWeight_local (tradDist_wdist hd) hw hpg hpi]
        unfold startLoad
        rw [getD_ins hpi]
      rw [hw1] at h1
      injection h1 with h1
      rw [h1]
      unfold startLoad
      rw [getD_ins hpi, hverts p hpi]
      simp [hW p hp]
    -- the weight after
    have hload := hdf.loads p hbl
    rw [hw2] at hload
    injection hload with hload
    have hge : 0 ≤ loadAfter (partInputs ws ls) partOwn ts p := by
      have h1 := (hdf.weights p hbl hpi (p : Int) (by rw [hverts]; simp)).2
      have h2 : weightAfter (partInputs ws ls) partOwn ts (p : Int) = loadAfter (partInputs ws ls) partOwn ts p := by
        unfold weightAfter loadAfter startLoad
        have ho : partOwn (p : Int) = p := by simp [partOwn]
        rw [ho, getD_ins hpi, hverts p hpi]
        simp only [List.map_cons, List.map_nil, List.sum_cons, List.sum_nil, add_zero, List.getLast?_singleton, if_true]
        congr 2
        apply List.map_congr_left
        intro L hL
        obtain ⟨j, hj, rfl⟩ := List.mem_iff_getElem.mp hL
        congr 1
        unfold sentBy
        apply moved_congr
        intro x hx
        have := ((hdf.fair j hj).1.between p hpi x hx).1
        rw [hverts p hpi, List.mem_singleton] at this
        simp [this]
      rw [← h2]; exact h1
    rw [← hload, hw0] at hge
    have hout : recordedOut (partInputs ws ls) R p = (((List.range n).map (k p)).sum : Nat) := by
      unfold recordedOut
      rw [getD_ins hpi, hverts p hpi, hav, h.len]
      simp only [List.map_cons, List.map_nil, List.sum_cons, List.sum_nil, add_zero]
      exact sum_part n _ _ (fun q hq => hk p q hp)
    have hin : recordedIn (partInputs ws ls) partOwn R p = (((List.range n).map (fun q => k q p)).sum : Nat) := by
      unfold recordedIn
      rw [getD_ins hpi, hverts p hpi, hav, h.len]
      simp only [List.map_cons, List.map_nil, List.sum_cons, List.sum_nil, add_zero]
      refine sum_part n _ _ (fun q hq => ?_)
      have ho : partOwn (q : Int) = q := by simp [partOwn]
      rw [ho]
      exact hk q p hq
    rw [hout, hin] at hge
    have c1 : (List.range n).map (fun q => if p < n ∧ q < n then k p q else 0) = (List.range n).map (k p) := by
      apply List.map_congr_left
      intro q hq
      rw [if_pos ⟨hp, List.mem_range.mp hq⟩]
    have c2 : (List.range n).map (fun q => if q < n ∧ p < n then k q p else 0) = (List.range n).map (fun q => k q p) := by
      apply List.map_congr_left
      intro q hq
      rw [if_pos ⟨List.mem_range.mp hq, hp⟩]
    rw [c1, c2]
    linarith

end
end Verif.Part
