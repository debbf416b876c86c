import Verif.Part.PwRun
/-!
# C67: the diffusive balancer with the part weight balancer (`runPartWeightBalancer`)

Specification: `PartPlanned` (what is planned between the parts), `amountTo` (what a table still plans to send to a part),
`gSent` (what the vertices that move bring along), `Neigh` (some hyperedge touches both parts), `gTotal`.
-/
namespace Verif.Part
open Verif.Agi

/-! ## the loops -/

section
variable {G : GG} {n : Nat}

/-- the tables of all parts -/
def TabsOk (n : Nat) (tabs : List PwTable) : Prop := ∃ T : Nat → PwTable, tabs = (List.range n).map T ∧ ∀ p, p < n → TabOk n (T p)

theorem pwRunStep_ok {par : PlanPar} {I : DiffIn} (hpar : ParOk par I) (hw : Weighable G) (h1 : 1 < n)
    (hisl : par.queue.dist = true → NoSmallIsland G) {env : PwEnv} (henv : ∀ k, (env.step k).Ok n G.co.isSome) {d : Int}
    (hd : d ∈ I.priorities) (tol : Rat) {b : Bal} {hist : List Dbl} (hb : RunInv G n b.gs b.completed ∧ b.completed.length < 6)
    (hsd : SdIs b.sd hist) {tabs : List PwTable} (ht : TabsOk n tabs) :
    ∃ b' tabs' r, pwRunStep par env d tol b tabs = .ok (b', tabs', r) ∧
      (RunInv G n b'.gs b'.completed ∧ b'.completed.length < 6) ∧ TabsOk n tabs' ∧ b'.completed = b.completed ∧
      (r.rc = 0 → SdIs b'.sd (hist ++ [r.imb])) ∧ (r.rc = 1 → ∃ x, r.imb = some x ∧ x < tol) := by
  obtain ⟨⟨own, hh, hcd, hlim⟩, h6⟩ := hb
  obtain ⟨T, rfl, hT⟩ := ht
  obtain ⟨W, eW, -⟩ := weights_world hw h1 hh (hpar.dims d hd) par.countGhosts
  unfold pwRunStep
  rw [eW, Outcome.bind_ok]
  dsimp only
  split
  · rename_i hlt
    rw [dblLt_iff] at hlt
    exact ⟨_, _, _, rfl, ⟨⟨own, hh, hcd, hlim⟩, h6⟩, ⟨T, rfl, hT⟩, rfl, by simp, fun _ => hlt⟩
  · obtain ⟨sd', e1, hsd'⟩ := hsd.push (imbalance ((List.range n).map W))
    obtain ⟨st, e2, -⟩ := stagnant_iff hsd'
    rw [e1, Outcome.bind_ok, e2, Outcome.bind_ok]
    split
    · exact ⟨_, _, _, rfl, ⟨⟨own, hh, hcd, hlim⟩, h6⟩, ⟨T, rfl, hT⟩, rfl, by simp, by simp⟩
    · unfold pwPlanStep
      obtain ⟨pl, tabs', gs', own', e3, e4, hh', hT', -, -, hfit⟩ := pwStep_world hpar hw h1 (henv b.clock) hh b.sideTol
        (hpar.dims d hd) (by omega) hcd hisl hT
      dsimp only
      rw [e3, Outcome.bind_ok]
      dsimp only
      split
      · rw [e4, Outcome.bind_ok]
        exact ⟨_, _, _, rfl, ⟨⟨own', hh', hcd, fun c hc q hq => le_trans (hfit q hq c hc) (max_le (hlim c hc q hq) le_rfl)⟩,
          h6⟩, ⟨tabs', rfl, hT'⟩, rfl, fun _ => hsd', by simp⟩
      · exact ⟨_, _, _, rfl, ⟨⟨own, hh, hcd, hlim⟩, h6⟩, ⟨tabs', rfl, hT'⟩, rfl, by simp, by simp⟩

theorem pwRunSteps_ok {par : PlanPar} {I : DiffIn} (hpar : ParOk par I) (hw : Weighable G) (h1 : 1 < n)
    (hisl : par.queue.dist = true → NoSmallIsland G) {env : PwEnv} (henv : ∀ k, (env.step k).Ok n G.co.isSome) {d : Int}
    (hd : d ∈ I.priorities) (tol : Rat) :
    ∀ (fuel : Nat) (b : Bal) (tabs : List PwTable) (inner step : Int) (hist : List Dbl),
    RunInv G n b.gs b.completed ∧ b.completed.length < 6 → TabsOk n tabs → SdIs b.sd hist → 0 ≤ inner →
    I.maxPer.toNat + 1 < fuel + inner → 1 ≤ fuel →
    ∃ b' tabs' rs i' s', pwRunSteps par env I d tol fuel b tabs inner step = .ok (b', tabs', rs, i', s') ∧
      (RunInv G n b'.gs b'.completed ∧ b'.completed.length < 6) ∧ b'.completed = b.completed ∧
      1 ≤ rs.length ∧ (rs.length : Int) + inner ≤ max inner I.maxPer + 1 := by
  intro fuel
  induction fuel with
  | zero => intro b tabs inner step hist _ _ _ _ h h0; omega
  | succ fuel ih =>
    intro b tabs inner step hist hP ht hsd hin hf h0
    rw [pwRunSteps]
    obtain ⟨b1, tabs1, r, e1, hP1, ht1, hco, hnext, -⟩ := pwRunStep_ok hpar hw h1 hisl henv hd tol hP hsd ht
    rw [e1, Outcome.bind_ok]
    dsimp only
    split
    · rename_i hrc
      split
      · split
        · obtain ⟨b2, tabs2, rs, i2, s2, e2, hP2, hc2, hl1, hl2⟩ := ih b1 tabs1 (inner + 1) (step + 1) _ hP1 ht1 (hnext hrc)
            (by omega) (by omega) (by omega)
          rw [e2, Outcome.bind_ok]
          refine ⟨_, _, _, _, _, rfl, hP2, hc2.trans hco, by simp, ?_⟩
          rw [List.length_cons]
          push_cast
          omega
        · exact ⟨_, _, _, _, _, rfl, hP1, hco, by simp, by simp; omega⟩
      · exact ⟨_, _, _, _, _, rfl, hP1, hco, by simp, by simp; omega⟩
    · exact ⟨_, _, _, _, _, rfl, hP1, hco, by simp, by simp; omega⟩

theorem pwCritLoop_ok {par : PlanPar} {I : DiffIn} (hpar : ParOk par I) (hw : Weighable G) (h1 : 1 < n)
    (hisl : par.queue.dist = true → NoSmallIsland G) {env : PwEnv} (henv : ∀ k, (env.step k).Ok n G.co.isSome)
    (hst : ∀ k, (env.start k).Ok n) (htot : ∀ d ∈ I.priorities, (n : Rat) * gTotal G d < 2147483648) :
    ∀ (ps : List Int) (index : Nat) (b : Bal) (step : Int), ps ≠ [] → (∀ d ∈ ps, d ∈ I.priorities) →
      RunInv G n b.gs b.completed → b.completed.length + ps.length ≤ 6 →
      ∃ b' cs s', pwCritLoop par env I ps index b step = .ok (b', cs, s') ∧ RunInv G n b'.gs b'.completed ∧
        b'.completed = b.completed ++ cs.map (fun c => (c.dim, completedWeight c.ends c.tol)) ∧
        (cs.map CritRec.dim = ps.take cs.length ∧ 1 ≤ cs.length ∧ cs.length ≤ ps.length) ∧
        ∀ c ∈ cs, (c.dim ∈ I.priorities ∧ 1 ≤ c.steps.length ∧ c.steps.length ≤ I.maxPer.toNat + 1) ∧
          ∃ gs co, RunInv G n gs co ∧ partWeights gs c.dim I.countGhosts = .ok c.ends := by
  intro ps
  induction ps with
  | nil => intro _ _ _ h; exact absurd rfl h
  | cons d ps ih =>
    intro index b step _ hps hPb hlen
    rw [List.length_cons] at hlen
    rw [pwCritLoop]
    have hd := hps d (by simp)
    unfold pwCriterion
    dsimp only
    obtain ⟨own0, hh0, hcd0, hlim0⟩ := hPb
    obtain ⟨st, T, r, W, e0, hT, -⟩ := pwStartAll_world hpar hw h1 (hst index) hh0 (hpar.dims d hd) (htot d hd) (tolAt I index)
    obtain ⟨b1, tabs1, rs, i1, s1, e1, hP1, hc1, hl1, hl2⟩ := pwRunSteps_ok hpar hw h1 hisl henv hd (tolAt I index) (I.maxPer.toNat + 2)
      { b with sd := SDSlope.new, sideTol := st, clock := b.clock + 1 } _ 0 step [] ⟨⟨own0, hh0, hcd0, hlim0⟩, by dsimp only; omega⟩
      ⟨T, rfl, hT⟩ rfl (by omega) (by omega) (by omega)
    obtain ⟨own1, hh1, hcd1, hlim1⟩ := hP1.1
    obtain ⟨W1, e2, hW1⟩ := weights_world hw h1 hh1 (hpar.dims d hd) I.countGhosts
    simp only [e0, e1, Outcome.bind_ok, e2, Outcome.pure_eq]
    have hP2 : RunInv G n b1.gs (b1.completed ++ [(d, completedWeight ((List.range n).map W1) (tolAt I index))]) := by
      refine ⟨own1, hh1, ?_, ?_⟩
      · intro c hc
        rcases List.mem_append.mp hc with hc | hc
        · exact hcd1 c hc
        · rw [List.mem_singleton.mp hc]; exact hpar.dims d hd
      · intro c hc q hq
        rcases List.mem_append.mp hc with hc | hc
        · exact hlim1 c hc q hq
        · rw [List.mem_singleton.mp hc]
          exact le_trans (hW1 q hq).1 ((c37_completed_weight _ _).1 _ (List.mem_map.mpr ⟨q, List.mem_range.mpr hq, rfl⟩))
    dsimp only at hc1
    have hcnt : 1 ≤ rs.length ∧ rs.length ≤ I.maxPer.toNat + 1 := ⟨hl1, by omega⟩
    split
    · rename_i hcond
      obtain ⟨b2, cs, s2, e3, hP3, hc3, hdims, hends⟩ := ih (index + 1)
        { b1 with completed := b1.completed ++ [(d, completedWeight ((List.range n).map W1) (tolAt I index))] } s1 hcond.1
        (fun x hx => hps x (by simp [hx])) hP2 (by
          dsimp only
          rw [hc1, List.length_append, List.length_singleton]; omega)
      rw [e3, Outcome.bind_ok]
      refine ⟨_, _, _, rfl, hP3, ?_, ⟨by simp [hdims.1], by simp, by simpa using hdims.2.2⟩, ?_⟩
      · rw [hc3]
        dsimp only
        rw [hc1]
        simp
      · intro c hcm
        rcases List.mem_cons.mp hcm with rfl | hcm
        · exact ⟨⟨hd, hcnt⟩, _, _, ⟨own1, hh1, hcd1, hlim1⟩, e2⟩
        · exact hends c hcm
    · refine ⟨_, _, _, rfl, hP2, ?_, ⟨by simp, by simp, by simp⟩, ?_⟩
      · dsimp only
        rw [hc1]
        simp
      · intro c hcm
        rw [List.mem_singleton.mp hcm]
        exact ⟨⟨hd, hcnt⟩, _, _, ⟨own1, hh1, hcd1, hlim1⟩, e2⟩

end

/-- `balance()` with `runPartWeightBalancer` on parts that hold the hypergraph -/
theorem pwBalance_world {G : GG} {n : Nat} {own : Gid → Nat} {gs : List Graph} (hh0 : HoldsG G n own gs) (hw : Weighable G) (h1 : 1 < n)
    {par : PlanPar} {I : DiffIn} (hpar : ParOk par I) (hisl : par.queue.dist = true → NoSmallIsland G)
    {env : PwEnv} (henv : ∀ k, (env.step k).Ok n G.co.isSome) (hst : ∀ k, (env.start k).Ok n)
    (htot : ∀ d ∈ I.priorities, (n : Rat) * gTotal G d < 2147483648) :
    ∃ (b : Bal) (cs : List CritRec) (step : Int) (own' : Gid → Nat), pwBalance par env I gs = .ok (b, cs, step) ∧
      HoldsG G n own' b.gs ∧ (∀ c ∈ cs, CritKept G n I.countGhosts b.gs c) ∧
      (cs.map CritRec.dim = I.priorities.take cs.length ∧ 1 ≤ cs.length ∧ cs.length ≤ I.priorities.length ∧
        ∀ c ∈ cs, 1 ≤ c.steps.length ∧ c.steps.length ≤ I.maxPer.toNat + 1) := by
  obtain ⟨b, cs, s, e1, ⟨own', hh, hcd, hlim⟩, hco, hdims, hends⟩ := pwCritLoop_ok hpar hw h1 hisl henv hst htot
    I.priorities 0 ⟨gs, SDSlope.new, [], 0, 0⟩ 0 hpar.some_priority (fun d h => h)
    ⟨own, hh0, by simp, by simp⟩ (by simpa using hpar.six)
  refine ⟨b, cs, s, own', ?_, hh, ?_, ⟨hdims.1, hdims.2.1, hdims.2.2, fun c hc => (hends c hc).1.2⟩⟩
  · unfold pwBalance
    rw [if_neg (by rw [holds_length hh0]; omega), holds_set hh0]
    exact e1
  · intro c hc
    obtain ⟨⟨hdim, -⟩, gsm, cm, hm, hwm⟩ := hends c hc
    refine crit_kept hw h1 hh (hpar.dims _ hdim) (fun q hq => ?_) hm hwm
    refine hlim (c.dim, completedWeight c.ends c.tol) ?_ q hq
    rw [hco]
    simp only [List.nil_append]
    exact List.mem_map.mpr ⟨c, hc, rfl⟩

/-! ## the property -/

section
variable {es : List HEdge} {ins : List Input} {own : Gid → Nat} {owns : List (GMap Part)} {o1 o2 : Nat → List Nat}

/-- **C67, what is planned.**  For every distributed hypergraph with one edge type, however its vertices were migrated
before, both dimensions, ghosts counted or not, every tolerance and step factor, and all delivery and hash orders: at the
start of a criterion the part weight balancer ends normally; what it plans to send between two parts is a natural number,
positive only for parts that share a hyperedge, in one direction only, and no part is to give more than it has and gets.
These amounts are what the tables of the parts start with.
Missing compared to C67: several edge types, traditional graphs, hyperedges with 100 or more vertices, hypergraphs whose
weight times the number of parts reaches 2^31. -/
theorem c67_plan_partial (h : Start es ins own owns o1 o2) (co : Option (Gid → Coord)) (rs : List Round)
    (hr : RoundsOk (allVerts ins) ins.length co.isSome own rs) (hw : Weighable (startG es ins own co)) (h1 : 1 < ins.length)
    (par : PlanPar) (I : DiffIn) (hpar : ParOk par I) (env : PwStart) (henv : env.Ok ins.length) (dim : Int)
    (hdim : dim = -1 ∨ dim = 0) (htot : (ins.length : Rat) * gTotal (startG es ins own co) dim < 2147483648) (tol : Rat) :
    ∃ (gs0 gs : List Graph) (st : Int) (tabs : List PwTable) (r : Nat → Nat → Nat) (W : Nat → Rat),
      setupAll ins co owns o1 o2 = .ok gs0 ∧ migrateRounds gs0 rs = .ok gs ∧
      partWeights gs dim par.countGhosts = .ok ((List.range ins.length).map W) ∧
      pwStartAll par env gs dim tol = .ok (st, tabs) ∧ tabs.length = ins.length ∧
      (∀ p q, 0 < r p q → p < ins.length ∧ q < ins.length ∧ q ≠ p ∧ Neigh (startG es ins own co) (placeAll own rs) p q ∧
        r q p = 0) ∧
      (∀ p, p < ins.length → (((List.range ins.length).map (r p)).sum : Nat) ≤
        W p + (((List.range ins.length).map (fun q => r q p)).sum : Nat)) ∧
      ∀ p q, p < ins.length → q < ins.length → amountTo (tabs.getD p none) q = (r p q : Rat) := by
  obtain ⟨hG, gs0, gs, e0, e, gr, I0, GH, rfl, hd⟩ := run_spec h co rs hr
  obtain ⟨st, tabs, r, W, e1, hT, eW, hp, ha⟩ := pwStartAll_world hpar hw h1 henv ⟨gr, I0, GH, rfl, hG, hd⟩ hdim htot tol
  refine ⟨gs0, _, st, _, r, W, e0, e, eW, e1, by simp, hp.between, hp.loads, ?_⟩
  intro p q hp' hq
  rw [List.getD_eq_getElem?_getD, List.getElem?_map, List.getElem?_range hp']
  exact ha p q hp' hq

/-- **C67, one step.**  For every distributed hypergraph with one edge type, however its vertices were migrated before,
both queues, every dimension, side tolerance, set of finished criteria with their limits, all tables of planned amounts,
and all delivery and hash orders in which no table of sides is rehashed while it is read: a step of the diffusive balancer
steered by the tables succeeds; every vertex is afterwards on exactly one part; a vertex that moved went to a part to which
a positive amount was still planned and that shares a hyperedge with its part; what is planned is reduced by exactly what
the moved vertices bring along; and in a finished dimension no part is heavier than before or than the limit.
Missing compared to C67: as for `c67_plan_partial`, and more than five finished criteria, `minConnectivity` above 1, parts
cut off with one or two hyperedges (distance queue); that the amount planned is not exceeded, and that no part that the side
tolerance or a finished dimension excludes is sent to, is false (`c67_refused`); and so is that a rehash does no harm
(`c67_rehash_ub`). -/
theorem c67_step_partial (h : Start es ins own owns o1 o2) (co : Option (Gid → Coord)) (rs : List Round)
    (hr : RoundsOk (allVerts ins) ins.length co.isSome own rs) (hw : Weighable (startG es ins own co)) (h1 : 1 < ins.length)
    (par : PlanPar) (I : DiffIn) (hpar : ParOk par I) (env : PwStep) (henv : env.Ok ins.length co.isSome) (st dim : Int)
    (hdim : dim = -1 ∨ dim = 0) (completed : List (Int × Rat)) (hc5 : completed.length ≤ 5)
    (hcd : ∀ c ∈ completed, c.1 = -1 ∨ c.1 = 0) (hisl : par.queue.dist = true → NoSmallIsland (startG es ins own co))
    (tabs : List PwTable) (hl : tabs.length = ins.length)
    (htab : ∀ t ∈ tabs, ((t.getD []).map Prod.fst).Nodup ∧ ∀ x ∈ t.getD [], ∃ k : Nat, x.1 = (k : Int) ∧ k < ins.length) :
    ∃ (gs0 gs : List Graph) (pl : List Plan) (tabs' : List PwTable) (gs' : List Graph) (own' : Gid → Nat),
      setupAll ins co owns o1 o2 = .ok gs0 ∧ migrateRounds gs0 rs = .ok gs ∧
      pwPlanAll par env st gs dim completed tabs = .ok (pl, tabs') ∧ migrate gs pl env.base.mig = .ok gs' ∧
      (∀ v ∈ allVerts ins, own' v < ins.length) ∧ gs'.length = ins.length ∧ tabs'.length = ins.length ∧
      (∀ p (hp : p < gs'.length), ∃ vs, gs'[p].localGids = .ok vs ∧ vs.Nodup ∧
        ∀ v, v ∈ vs ↔ v ∈ allVerts ins ∧ own' v = p) ∧
      (∀ v ∈ allVerts ins, own' v ≠ placeAll own rs v →
        0 < amountTo (tabs.getD (placeAll own rs v) none) (own' v) ∧
        Neigh (startG es ins own co) (placeAll own rs) (placeAll own rs v) (own' v)) ∧
      (∀ p q, p < ins.length → q < ins.length → q ≠ p → amountTo (tabs'.getD p none) q =
        amountTo (tabs.getD p none) q - gSent (startG es ins own co) (placeAll own rs) own' dim p q) ∧
      ∀ q, q < ins.length → ∀ c ∈ completed, gWeight (startG es ins own co) own' c.1 q ≤
        max (gWeight (startG es ins own co) (placeAll own rs) c.1 q) c.2 := by
  obtain ⟨hG, gs0, gs, e0, e, gr, I0, GH, rfl, hd⟩ := run_spec h co rs hr
  have htl : tabs = (List.range ins.length).map (fun p => tabs.getD p none) := by
    rw [← hl]; exact list_range tabs none
  obtain ⟨pl, tabs', gs', own', e1, e2, ⟨gr', I', GH', rfl, hG', hd'⟩, hT', hmove, hupd, hfit⟩ := pwStep_world hpar hw h1 henv
    ⟨gr, I0, GH, rfl, hG, hd⟩ st hdim hc5 hcd hisl (tabs := fun p => tabs.getD p none) (by
      intro p hp
      have hp' : p < tabs.length := by rw [hl]; exact hp
      rw [List.getD_eq_getElem?_getD, List.getElem?_eq_getElem hp', Option.getD_some]
      obtain ⟨a, b⟩ := htab _ (List.getElem_mem hp')
      exact ⟨a, b⟩)
  rw [← htl] at e1
  refine ⟨gs0, _, pl, _, _, own', e0, e, e1, e2, hG'.own, by simp, by simp, ?_, hmove, ?_, hfit⟩
  · intro p hp
    have hp' : p < ins.length := by simpa using hp
    simp only [List.getElem_map, List.getElem_range]
    exact ⟨_, (hd' p hp').gids, (hd' p hp').nodup, (hd' p hp').inv.verts⟩
  · intro p q hp hq hne
    rw [← hupd p q hp hq hne, List.getD_eq_getElem?_getD, List.getElem?_map, List.getElem?_range hp]
    rfl

/-- **C67.**  For every distributed hypergraph with one edge type, on two or more parts, all tolerances, iteration limits,
step factors and plan limits, both queues, up to six criteria, and all delivery and hash orders of every step in which no
table of sides is rehashed while it is read: `balance()` with `runPartWeightBalancer` ends normally; the criteria are worked
off in order, each with at least one and at most `maxIterationsPerType + 1` steps; afterwards the parts hold the same
hypergraph - every vertex on exactly one part, with its weight, coordinates and original owner, every part listing exactly
the hyperedges that touch it, with id, weight and pins and where each pin lives; and for every criterion worked on, no part
weighs more in its dimension than the heaviest part did when that criterion was finished, or than the tolerated weight then.
Missing compared to C67: as for `c67_step_partial`. -/
theorem c67_balance_partial (h : Start es ins own owns o1 o2) (co : Option (Gid → Coord))
    (hw : Weighable (startG es ins own co)) (h1 : 1 < ins.length) (par : PlanPar) (I : DiffIn) (hpar : ParOk par I)
    (hisl : par.queue.dist = true → NoSmallIsland (startG es ins own co))
    (env : PwEnv) (henv : ∀ k, (env.step k).Ok ins.length co.isSome) (hst : ∀ k, (env.start k).Ok ins.length)
    (htot : ∀ d ∈ I.priorities, (ins.length : Rat) * gTotal (startG es ins own co) d < 2147483648) :
    ∃ (gs : List Graph) (b : Bal) (cs : List CritRec) (step : Int) (own' : Gid → Nat),
      setupAll ins co owns o1 o2 = .ok gs ∧ pwBalance par env I gs = .ok (b, cs, step) ∧
      (cs.map CritRec.dim = I.priorities.take cs.length ∧ 1 ≤ cs.length ∧ cs.length ≤ I.priorities.length ∧
        ∀ c ∈ cs, 1 ≤ c.steps.length ∧ c.steps.length ≤ I.maxPer.toNat + 1) ∧
      b.gs.length = ins.length ∧ (∀ v ∈ allVerts ins, own' v < ins.length) ∧
      (∀ p (hp : p < b.gs.length), ∃ vs, b.gs[p].localGids = .ok vs ∧ vs.Nodup ∧
        (∀ v, v ∈ vs ↔ v ∈ allVerts ins ∧ own' v = p) ∧
        (∀ v ∈ vs, b.gs[p].weightG v = .ok (weightOf ins own v) ∧ b.gs[p].origG v = .ok (own v : Int) ∧
          ∀ c, co = some c → b.gs[p].coordG v = .ok (c v)) ∧
        ∃ l, b.gs[p].edgeViews 0 = .ok l ∧
          l.Perm ((es.filter (fun E => decide (∃ v ∈ E.pins, own' v = p))).map (HEdge.viewed own'))) ∧
      (∀ c ∈ cs, ∃ ws, partWeights b.gs c.dim false = .ok ws ∧ ws.length = ins.length ∧ c.ends.length = ins.length ∧
        (∀ w ∈ ws, (∃ x ∈ c.ends, w ≤ x) ∨ w ≤ c.ends.sum / ins.length * c.tol) ∧
        ∃ mid : Gid → Nat, (∀ v ∈ allVerts ins, mid v < ins.length) ∧ ∀ q (hq : q < c.ends.length),
          gWeight (startG es ins own co) mid c.dim q ≤ c.ends[q] ∧
          (c.dim ≠ -1 ∨ I.countGhosts = false → c.ends[q] = gWeight (startG es ins own co) mid c.dim q)) := by
  obtain ⟨gr, I0, GH, e0, hd⟩ := setupAll_spec h co
  have hG := h.wf co
  obtain ⟨b, cs, s, own', e1, ⟨gr', I', GH', hgs, hG', hd'⟩, hk, hdims⟩ := pwBalance_world (own := own) ⟨gr, I0, GH, rfl, hG, hd⟩ hw h1 hpar hisl henv hst htot
  refine ⟨_, b, cs, s, own', e0, e1, hdims, by rw [hgs]; simp, hG'.own, ?_, hk⟩
  intro p hp
  have hp' : p < ins.length := by rw [hgs] at hp; simpa using hp
  have hb : b.gs[p] = gr' p := by simp [hgs]
  rw [hb]
  refine ⟨_, (hd' p hp').gids, (hd' p hp').nodup, (hd' p hp').inv.verts, ?_, ?_⟩
  · intro v hv
    refine ⟨(hd' p hp').weight hv, ?_, fun c hc => (hd' p hp').coord hG' hv hc⟩
    unfold Graph.origG
    rw [findGID_eq (hd' p hp').inv.rep.core.v (by simp [hv]), Outcome.bind_ok]
    exact (hd' p hp').orig hv
  · obtain ⟨l, e, hl⟩ := (hd' p hp').edgeViews hG'
    exact ⟨_, e, hl.map _⟩

end

end Verif.Part
