import Verif.Part.DiffusePlan
import Verif.Part.BalancerProps
import Verif.Agi.MigWitness
import Verif.Io.FileProps
/-!
# C52: the diffusive balancer as a whole

Specification: `gWeight` is the weight of a part, in terms of the hypergraph and the placement of its vertices.
-/
namespace Verif.Part
open Verif.Agi

/-! ## specification -/

/-- the weight of part `q` in dimension `dim` (-1: its vertices, 0: the hyperedges that touch it) when the vertices of
`G` are placed by `own` -/
def gWeight (G : GG) (own : Gid → Nat) (dim : Int) (q : Nat) : Rat :=
  if dim = -1 then ((G.verts.filter (fun v => decide (own v = q))).map G.wt).sum
  else ((G.edges.filter (fun E => decide (∃ v ∈ E.pins, own v = q))).map HEdge.w).sum

/-- the graphs `gs` hold the hypergraph `G` with its vertices placed by `own` -/
def HoldsG (G : GG) (n : Nat) (own : Gid → Nat) (gs : List Graph) : Prop :=
  ∃ (gr : Nat → Graph) (I : Nat → Input) (GH : Nat → List Gid), gs = (List.range n).map gr ∧ G.WF n own ∧
    ∀ p, p < n → PartDone G own n p (gr p) (I p) (GH p)

/-- weights the balancer can work with: vertex weights are not negative, hyperedge weights are positive integers, and no
hyperedge has 100 or more vertices -/
structure Weighable (G : GG) : Prop where
  verts : ∀ v ∈ G.verts, 0 ≤ G.wt v
  edges : ∀ e ∈ G.edges, ∃ w : Int, e.w = (w : Rat) ∧ 0 < w
  small : ∀ e ∈ G.edges, e.pins.dedup.length < 100

/-- no group of vertices that shares no hyperedge with the other vertices has exactly one or two hyperedges: whatever the
placement, no part is cut off from the others with one or two hyperedges, where the distance queue is undefined behaviour
(`c56_small_part_ub`) -/
def NoSmallIsland (G : GG) : Prop :=
  ∀ S : Gid → Bool, (∀ e ∈ G.edges, (∀ v ∈ e.pins, S v = true) ∨ ∀ v ∈ e.pins, S v = false) →
    (G.edges.filter (fun e => e.pins.any S)).length = 0 ∨ 3 ≤ (G.edges.filter (fun e => e.pins.any S)).length

/-- the parameters the theorem is about -/
structure ParOk (par : PlanPar) (I : DiffIn) : Prop where
  sides : par.sidesType = 0
  step : 0 < par.stepFactor
  minCon : par.minCon ≤ 1
  ghosts : par.countGhosts = I.countGhosts
  some_priority : I.priorities ≠ []
  six : I.priorities.length ≤ 6
  dims : ∀ d ∈ I.priorities, d = -1 ∨ d = 0

/-- what a criterion that was worked on promises about the parts afterwards: in its dimension no part weighs more than the
heaviest part did when the criterion was finished, or than the tolerated weight then; and what was recorded then is the weight of
the parts of the same hypergraph, placed in some way -/
def CritKept (G : GG) (n : Nat) (countGhosts : Bool) (gs : List Graph) (c : CritRec) : Prop :=
  ∃ ws, partWeights gs c.dim false = .ok ws ∧ ws.length = n ∧ c.ends.length = n ∧
    (∀ w ∈ ws, (∃ x ∈ c.ends, w ≤ x) ∨ w ≤ c.ends.sum / n * c.tol) ∧
    ∃ mid : Gid → Nat, (∀ v ∈ G.verts, mid v < n) ∧ ∀ q (hq : q < c.ends.length),
      gWeight G mid c.dim q ≤ c.ends[q] ∧ (c.dim ≠ -1 ∨ countGhosts = false → c.ends[q] = gWeight G mid c.dim q)

/-! ## proof -/

section
variable {G : GG} {n : Nat} {own : Gid → Nat}

theorem spot_of {gr : Nat → Graph} {I : Nat → Input} {GH : Nat → List Gid} (hG : G.WF n own) (hw : Weighable G)
    (h : ∀ p, p < n → PartDone G own n p (gr p) (I p) (GH p)) :
    Spot [G.edges] ((List.range n).map I) own ((List.range n).map gr) ∧
    (∀ v ∈ G.verts, weightOf ((List.range n).map I) own v = G.wt v) ∧
    ((allVerts ((List.range n).map I)).Perm G.verts) := by
  have hd := Io.done_hdist hG h
  have hwt : ∀ v ∈ G.verts, weightOf ((List.range n).map I) own v = G.wt v := by
    intro v hv
    have hlt := hG.own v hv
    have hp : own v < ((List.range n).map I).length := by simpa using hlt
    have h1 := weightOf_verts hd.verts (fun i hi => (hd.wf i hi).nodup) hp
    simp only [List.getElem_map, List.getElem_range] at h1
    rw [(h _ hlt).inv.wts] at h1
    exact (List.map_inj_left.mp h1 v (((h _ hlt).inv.verts v).mpr ⟨hv, rfl⟩)).symm
  have hmem : ∀ v, v ∈ allVerts ((List.range n).map I) ↔ v ∈ G.verts := by
    intro v
    rw [mem_allVerts]
    constructor
    · rintro ⟨p, hp, hv⟩
      have hp' : p < n := by simpa using hp
      simp only [List.getElem_map, List.getElem_range] at hv
      exact (((h p hp').inv.verts v).mp hv).1
    · intro hv
      have hlt := hG.own v hv
      refine ⟨own v, by simpa using hlt, ?_⟩
      simp only [List.getElem_map, List.getElem_range]
      exact ((h _ hlt).inv.verts v).mpr ⟨hv, rfl⟩
  refine ⟨⟨hd, ⟨?_, ?_⟩, ⟨by simp, ?_⟩, ?_⟩, hwt, ?_⟩
  · intro v hv
    have hv := (hmem v).mp hv
    rw [hwt v hv]
    exact hw.verts v hv
  · intro es hes e he
    rw [List.mem_singleton] at hes
    subst hes
    obtain ⟨w, h1, h2⟩ := hw.edges e he
    rw [h1]
    exact_mod_cast h2.le
  · intro p hg hp
    have hp' : p < n := by simpa using hp
    simp only [List.getElem_map, List.getElem_range, List.length_map, List.length_range]
    exact ⟨_, (h p hp').inv.rep⟩
  · intro h1 p hg hp
    have hp' : p < n := by simpa using hp
    have h1' : 1 < n := by simpa using h1
    simp only [List.getElem_map, List.getElem_range, List.length_map, List.length_range]
    refine ⟨_, (h p hp').inv.rep, ?_⟩
    rw [(h p hp').ghostW h1']
    congr 2
    apply List.map_congr_left
    intro v hv
    have hv' := (((h p hp').inv.rep.mem_ghosts v).mp hv).1
    have := hd.dist.pins p hp v (by simpa using hv')
    obtain ⟨hq, hvq⟩ := this
    rw [hwt v ((hmem v).mp (mem_allVerts.mpr ⟨_, hq, hvq⟩))]
  · exact (List.perm_ext_iff_of_nodup (allVerts_nodup (fun i hi => (hd.wf i hi).nodup) hd.verts) hG.nodup).mpr hmem

theorem partWeight_eq {ins : List Input} (hwt : ∀ v ∈ G.verts, weightOf ins own v = G.wt v)
    (hp : (allVerts ins).Perm G.verts) (own' : Gid → Nat) {dim : Int} (hdim : dim = -1 ∨ dim = 0) (q : Nat) :
    partWeight [G.edges] ins own own' dim q = gWeight G own' dim q := by
  unfold partWeight gWeight
  rcases hdim with rfl | rfl
  · rw [if_pos rfl, if_pos rfl]
    unfold vertexLoad
    rw [((hp.filter _).map _).sum_eq]
    congr 1
    apply List.map_congr_left
    intro v hv
    exact hwt v (List.mem_filter.mp hv).1
  · rw [if_neg (by omega), if_neg (by omega)]
    unfold edgeLoad
    simp only [Int.toNat_zero, List.getD_cons_zero]
    congr 2
    apply List.filter_congr
    intro e _
    rw [Bool.eq_iff_iff]
    simp [Touches]

theorem measured_of (hw : Weighable G) : Measured [G.edges] 0 :=
  ⟨by simp, by simpa using hw.edges, by simpa using hw.small⟩

theorem queueFits_of {k : QKind} {ins : List Input} (hd : HDist [G.edges] ins own) (hi : k.dist = true → NoSmallIsland G)
    (p : Nat) (hp : p < ins.length) : QueueFits k own p ins[p] := by
  intro hk
  by_cases ht : Touched own p ins[p]
  · exact .inl ht
  · right
    have hl : 0 < ins[p].types.length := by rw [hd.types p hp]; simp
    have h0 : ins[p].types.getD 0 ⟨[], [], []⟩ = ins[p].types[0] := by
      rw [List.getD_eq_getElem?_getD, List.getElem?_eq_getElem hl]; rfl
    rw [h0]
    have hperm := hd.edges p hp 0 hl (by simp)
    simp only [List.getElem_cons_zero] at hperm
    have hwf := (hd.wf _ (List.getElem_mem hp)).edges _ (List.getElem_mem hl)
    have hlen : (G.edges.filter (fun e => e.pins.any (fun v => decide (own v = p)))).length =
        ins[p].types[0].pins.length := by
      have h1 := hperm.length_eq
      have h2 : ins[p].types[0].edges.length = ins[p].types[0].pins.length := edges_length hwf
      rw [h2] at h1
      rw [h1]
      congr 1
      apply List.filter_congr
      intro e _
      rw [Bool.eq_iff_iff]
      simp
    have := hi hk (fun v => decide (own v = p)) (by
      intro e he
      by_cases hx : ∃ v ∈ e.pins, own v = p
      · left
        intro v hv
        rw [decide_eq_true_iff]
        by_contra hne
        apply ht
        have hm := hperm.mem_iff.mpr (List.mem_filter.mpr ⟨he, by simpa using hx⟩)
        obtain ⟨k, hk, hke⟩ := List.mem_iff_getElem.mp hm
        have hk' : k < ins[p].types[0].pins.length := by rw [← edges_length hwf]; exact hk
        obtain ⟨q1, q2, q3, q4⟩ := edges_get hl hwf hk'
        refine ⟨_, List.getElem_mem hl, _, List.getElem_mem hk', v, ?_, hne⟩
        rw [← q3, hke]
        exact hv
      · right
        intro v hv
        rw [decide_eq_false_iff_not]
        exact fun h => hx ⟨v, hv, h⟩)
    rwa [hlen] at this

/-- one step: the plans can be made and carried out, and what is finished stays within its limit -/
theorem step_world {par : PlanPar} {I : DiffIn} (hpar : ParOk par I) (hw : Weighable G) (h1 : 1 < n)
    {env : StepEnv} (henv : env.Ok n G.co.isSome) {gs : List Graph} (h : HoldsG G n own gs) (st : Int) {dim : Int}
    (hdim : dim = -1 ∨ dim = 0) {completed : List (Int × Rat)} (hc5 : completed.length ≤ 5)
    (hcd : ∀ c ∈ completed, c.1 = -1 ∨ c.1 = 0) (hisl : par.queue.dist = true → NoSmallIsland G) :
    ∃ (pl : List Plan) (gs' : List Graph) (own' : Gid → Nat) (W : Nat → Rat),
      planAll par env st gs dim completed = .ok pl ∧ migrate gs pl env.mig = .ok gs' ∧ HoldsG G n own' gs' ∧
      partWeights gs dim par.countGhosts = .ok ((List.range n).map W) ∧
      (∀ v ∈ G.verts, own' v ≠ own v → W (own' v) < W (own v) ∧
        ∃ e ∈ G.edges, (∃ u ∈ e.pins, own u = own v) ∧ ∃ u ∈ e.pins, own u = own' v) ∧
      ∀ q, q < n → ∀ c ∈ completed, gWeight G own' c.1 q ≤ max (gWeight G own c.1 q) c.2 := by
  obtain ⟨gr, I', GH, rfl, hG, hd⟩ := h
  obtain ⟨hs, hwt, hperm⟩ := spot_of hG hw hd
  have hdl : ∀ d : Int, d = -1 ∨ d = 0 → -1 ≤ d ∧ d < (([G.edges] : List (List HEdge)).length : Int) := by
    intro d hd
    simp only [List.length_singleton]
    omega
  have hlen : ((List.range n).map I').length = n := by simp
  have hm : Measured [G.edges] par.sidesType := by rw [hpar.sides]; exact measured_of hw
  obtain ⟨pl, sl, f, W, e1, hW, hpl, hfit⟩ := planAll_world hs (by rw [hlen]; exact h1) hm hpar.step hpar.minCon
    (env := env) (co := G.co.isSome) (by rw [hlen]; exact henv) st (hdl dim hdim) hc5 (fun c hc => hdl _ (hcd c hc))
    (fun p hp => queueFits_of hs.dist hisl p hp)
  obtain ⟨W2, e2, hW2, -⟩ := partWeights_world hs (by rw [hlen]; exact h1) (hdl dim hdim) par.countGhosts
  rw [hlen] at e1 e2
  have hWW : ∀ p, p < n → W2 p = W p := by
    intro p hp
    have h2 := hW2 p (by simpa using hp)
    rw [hW p (by simpa using hp)] at h2
    injection h2 with h2
    exact h2.symm
  have hpl' : ∀ p (hp : p < n), PlanRep (I' p).verts (pl p) (sl p) (f p) ∧
      ∀ v d, f p v = some d → ∃ k : Nat, d = (k : Int) ∧ k < n ∧ W k < W p ∧
        ∃ e ∈ G.edges, Touches own (p : Int) e ∧ Touches own (k : Int) e := by
    intro p hp
    obtain ⟨a, b⟩ := hpl p (by rw [hlen]; exact hp)
    simp only [List.getElem_map, List.getElem_range] at a
    refine ⟨a, fun v d hf => ?_⟩
    obtain ⟨k, h1, h2, h3, h4⟩ := b v d hf
    rw [hpar.sides] at h4
    exact ⟨k, h1, by rw [hlen] at h2; exact h2, h3, by simpa using h4⟩
  let own' : Gid → Nat := fun v => ((f (own v) v).getD (own v : Int)).toNat
  have hown' : ∀ p, p < n → ∀ v ∈ (I' p).verts, (own' v : Int) = (f p v).getD (p : Int) := by
    intro p hp v hv
    have hov := (((hd p hp).inv.verts v).mp hv).2
    simp only [own', hov]
    cases hf : f p v with
    | none => simp
    | some d =>
      obtain ⟨k, rfl, -⟩ := (hpl' p hp).2 v d hf
      simp
  have hlt : ∀ v ∈ G.verts, own' v < n := by
    intro v hv
    have hp := hG.own v hv
    have h1 := hown' _ hp v (((hd _ hp).inv.verts v).mpr ⟨hv, rfl⟩)
    cases hf : f (own v) v with
    | none => rw [hf, Option.getD_none] at h1; omega
    | some d =>
      obtain ⟨k, rfl, hk, -⟩ := (hpl' _ hp).2 v d hf
      rw [hf, Option.getD_some] at h1
      omega
  obtain ⟨gr', I2, GH2, e3, hd'⟩ := migrate_step (own' := own') hG hlt (fun p hp => (hd p hp).inv) (pl := pl)
    (fun p hp => ⟨sl p, f p, (hpl' p hp).1, hown' p hp⟩) henv.mig
  refine ⟨_, _, own', W, e1, e3, ⟨gr', I2, GH2, rfl,
    ⟨hG.some_vertex, hG.nodup, hG.ids, hG.ne, hG.pins, hlt⟩, hd'⟩, ?_, ?_, ?_⟩
  · rw [e2]
    congr 1
    apply List.map_congr_left
    intro p hp
    exact hWW p (List.mem_range.mp hp)
  · intro v hv hne
    have hp := hG.own v hv
    have h1 := hown' _ hp v (((hd _ hp).inv.verts v).mpr ⟨hv, rfl⟩)
    cases hf : f (own v) v with
    | none => rw [hf, Option.getD_none] at h1; exact absurd (by exact_mod_cast h1) hne
    | some d =>
      obtain ⟨k, rfl, hk, h2, e, he, ht1, ht2⟩ := (hpl' _ hp).2 v d hf
      rw [hf, Option.getD_some] at h1
      have h3 : own' v = k := by exact_mod_cast h1
      rw [h3]
      refine ⟨h2, e, he, ?_, ?_⟩
      · obtain ⟨u, hu, h4⟩ := ht1; exact ⟨u, hu, by exact_mod_cast h4⟩
      · obtain ⟨u, hu, h4⟩ := ht2; exact ⟨u, hu, by exact_mod_cast h4⟩
  · intro q hq c hc
    have := hfit own' (by
      intro p hp v hv
      simp only [List.getElem_map, List.getElem_range] at hv
      exact hown' p (by rw [hlen] at hp; exact hp) v hv) q (by rw [hlen]; exact hq) c hc
    rwa [partWeight_eq hwt hperm _ (hcd c hc), partWeight_eq hwt hperm _ (hcd c hc)] at this

/-- what a run keeps -/
def RunInv (G : GG) (n : Nat) (gs : List Graph) (co : List (Int × Rat)) : Prop :=
  ∃ own, HoldsG G n own gs ∧ (∀ c ∈ co, c.1 = -1 ∨ c.1 = 0) ∧ ∀ c ∈ co, ∀ q, q < n → gWeight G own c.1 q ≤ c.2

theorem weights_world (hw : Weighable G) (h1 : 1 < n) {gs : List Graph} (h : HoldsG G n own gs) {dim : Int}
    (hdim : dim = -1 ∨ dim = 0) (cg : Bool) : ∃ W : Nat → Rat, partWeights gs dim cg = .ok ((List.range n).map W) ∧
      ∀ p, p < n → gWeight G own dim p ≤ W p ∧ (dim ≠ -1 ∨ cg = false → W p = gWeight G own dim p) := by
  obtain ⟨gr, I', GH, rfl, hG, hd⟩ := h
  obtain ⟨hs, hwt, hperm⟩ := spot_of hG hw hd
  obtain ⟨W, e, -, h2⟩ := partWeights_world hs (by simpa using h1) (dim := dim)
    (by simp only [List.length_singleton]; omega) cg
  simp only [List.length_map, List.length_range] at e h2
  refine ⟨W, e, fun p hp => ?_⟩
  have := h2 p hp
  rwa [partWeight_eq hwt hperm _ hdim] at this

theorem run_keeps {par : PlanPar} {I : DiffIn} (hpar : ParOk par I) (hw : Weighable G) (h1 : 1 < n)
    (hisl : par.queue.dist = true → NoSmallIsland G) {env : Nat → StepEnv} (henv : ∀ k, (env k).Ok n G.co.isSome) {d : Int} (hd : d ∈ I.priorities) :
    Keeps (diffMoves par env) I.countGhosts d (fun gs co => RunInv G n gs co ∧ co.length < 6) := by
  refine ⟨?_, ?_, ?_⟩
  · rintro k gs co ⟨⟨own, ⟨gr, I', GH, rfl, hG, hdn⟩, -⟩, -⟩
    obtain ⟨hs, -, -⟩ := spot_of hG hw hdn
    exact startSides_world hs (by simpa using h1) (by rw [hpar.sides]; exact measured_of hw)
  · rintro gs co ⟨⟨own, hh, -⟩, -⟩
    obtain ⟨W, e, -⟩ := weights_world hw h1 hh (hpar.dims d hd) I.countGhosts
    exact ⟨_, e⟩
  · rintro k st gs co ⟨⟨own, hh, hcd, hlim⟩, h6⟩
    obtain ⟨pl, gs', own', W, e1, e2, hh', -, -, hfit⟩ := step_world hpar hw h1 (henv k) hh st (hpar.dims d hd)
      (by omega) hcd hisl
    exact ⟨pl, e1, gs', e2, ⟨own', hh', hcd, fun c hc q hq => le_trans (hfit q hq c hc) (max_le (hlim c hc q hq) le_rfl)⟩, h6⟩

end

theorem mem_completed {ws : List Rat} {tol x : Rat} (hne : ws ≠ []) (h : x ≤ completedWeight ws tol) :
    (∃ w ∈ ws, x ≤ w) ∨ x ≤ ws.sum / ws.length * tol := by
  unfold completedWeight at h
  dsimp only at h
  split at h
  · exact .inr h
  · exact .inl ⟨_, (mpiMax_spec ws hne).1, h⟩

theorem holds_set {G : GG} {n : Nat} {own : Gid → Nat} {gs : List Graph} (h : HoldsG G n own gs) :
    gs.map Graph.setOriginalOwners = gs := by
  obtain ⟨gr, I0, GH, rfl, hG, hd⟩ := h
  rw [List.map_map]
  apply List.map_congr_left
  intro p hp
  have := (hd p (List.mem_range.mp hp)).origSet
  simp only [Function.comp, Graph.setOriginalOwners]
  rcases Option.eq_none_or_eq_some (gr p).originalOwners with h1 | ⟨m, h1⟩
  · rw [h1] at this; simp at this
  · simp [h1]

theorem holds_length {G : GG} {n : Nat} {own : Gid → Nat} {gs : List Graph} (h : HoldsG G n own gs) : gs.length = n := by
  obtain ⟨gr, I0, GH, rfl, hG, hd⟩ := h
  simp

/-- from the limits that hold at the end to what the criteria promise -/
theorem crit_kept {G : GG} {n : Nat} {own' : Gid → Nat} {gs : List Graph} {cg : Bool} (hw : Weighable G) (h1 : 1 < n) (hh : HoldsG G n own' gs)
    {c : CritRec} (hcdim : c.dim = -1 ∨ c.dim = 0)
    (hlim : ∀ q, q < n → gWeight G own' c.dim q ≤ completedWeight c.ends c.tol) {gsm : List Graph} {cm : List (Int × Rat)}
    (hm : RunInv G n gsm cm) (hwm : partWeights gsm c.dim cg = .ok c.ends) : CritKept G n cg gs c := by
  obtain ⟨mid, hmid, -, -⟩ := hm
  obtain ⟨W, e, hW⟩ := weights_world (own := own') hw h1 hh hcdim false
  obtain ⟨W2, e2, hW2⟩ := weights_world hw h1 hmid hcdim cg
  rw [hwm] at e2
  injection e2 with e2
  have hel : c.ends.length = n := by rw [e2]; simp
  have hne : c.ends ≠ [] := by
    intro h0; rw [h0] at hel; simp at hel; omega
  refine ⟨_, e, by simp, hel, ?_, mid, ?_, ?_⟩
  · intro w hwm
    obtain ⟨q, hq, rfl⟩ := List.mem_map.mp hwm
    have hq := List.mem_range.mp hq
    rw [(hW q hq).2 (.inr rfl), ← hel]
    exact mem_completed hne (hlim q hq)
  · obtain ⟨_, _, _, _, hGm, _⟩ := hmid
    exact hGm.own
  · intro q hq
    have hq' : q < n := by omega
    have : c.ends[q] = W2 q := by simp [e2]
    rw [this]
    exact hW2 q hq'

/-- `balance()` on parts that hold the hypergraph -/
theorem balance_world {G : GG} {n : Nat} {own : Gid → Nat} {gs : List Graph} (hh0 : HoldsG G n own gs) (hw : Weighable G) (h1 : 1 < n)
    {par : PlanPar} {I : DiffIn} (hpar : ParOk par I) (hisl : par.queue.dist = true → NoSmallIsland G)
    {env : Nat → StepEnv} (henv : ∀ k, (env k).Ok n G.co.isSome) :
    ∃ (b : Bal) (cs : List CritRec) (step : Int) (own' : Gid → Nat), balance (diffMoves par env) I gs = .ok (b, cs, step) ∧
      HoldsG G n own' b.gs ∧ ∀ c ∈ cs, CritKept G n I.countGhosts b.gs c := by
  have hloop := critLoop_ok (M := diffMoves par env) (I := I) (N := 6)
    (P := RunInv G n) (fun d hd => run_keeps hpar hw h1 hisl henv hd)
    (by
      rintro gs cm d ws tol ⟨own', hh, hcd, hlim⟩ hdp hws
      obtain ⟨W, e, hW⟩ := weights_world hw h1 hh (hpar.dims d hdp) I.countGhosts
      rw [hws] at e
      injection e with e
      refine ⟨own', hh, ?_, ?_⟩
      · intro c hc
        rcases List.mem_append.mp hc with hc | hc
        · exact hcd c hc
        · rw [List.mem_singleton.mp hc]; exact hpar.dims d hdp
      · intro c hc q hq
        rcases List.mem_append.mp hc with hc | hc
        · exact hlim c hc q hq
        · rw [List.mem_singleton.mp hc]
          refine le_trans (hW q hq).1 ((c37_completed_weight ws tol).1 _ ?_)
          rw [e]
          exact List.mem_map.mpr ⟨q, List.mem_range.mpr hq, rfl⟩)
    I.priorities 0 ⟨gs, SDSlope.new, [], 0, 0⟩ 0 hpar.some_priority (fun d h => h)
    ⟨own, hh0, by simp, by simp⟩ (by simpa using hpar.six)
  obtain ⟨b, cs, s, e1, ⟨own', hh, hcd, hlim⟩, hco, hends⟩ := hloop
  refine ⟨b, cs, s, own', ?_, hh, ?_⟩
  · unfold balance
    rw [if_neg (by rw [holds_length hh0]; omega), holds_set hh0]
    exact e1
  · intro c hc
    obtain ⟨hdim, gsm, cm, hm, hwm⟩ := hends c hc
    refine crit_kept hw h1 hh (hpar.dims _ hdim) (fun q hq => ?_) hm hwm
    refine hlim (c.dim, completedWeight c.ends c.tol) ?_ q hq
    rw [hco]
    simp only [List.nil_append]
    exact List.mem_map.mpr ⟨c, hc, rfl⟩

/-! ## the property -/

section
variable {es : List HEdge} {ins : List Input} {own : Gid → Nat} {owns : List (GMap Part)} {o1 o2 : Nat → List Nat}

/-- **C52, one step.**  For every distributed hypergraph with one edge type, however its vertices were migrated before,
both queues, every dimension, side tolerance, set of finished criteria with their limits, and all delivery and hash orders: a step of
the diffusive balancer (sides, weights, targets, queue, selection, trim, cancel, migration) succeeds; every vertex is
afterwards on exactly one part; a vertex that moved went from its part to a strictly lighter one (in the dimension being
balanced) that shares a hyperedge with it; and in a finished dimension no part is heavier than before or than the limit.
Missing compared to C52: several edge types, traditional graphs, hyperedges with 100 or more vertices, more than five
finished criteria, `minConnectivity` above 1, and, for the distance queue (the default), parts cut off from all others
with one or two hyperedges. -/
theorem c52_step_partial (h : Start es ins own owns o1 o2) (co : Option (Gid → Coord)) (rs : List Round)
    (hr : RoundsOk (allVerts ins) ins.length co.isSome own rs) (hw : Weighable (startG es ins own co)) (h1 : 1 < ins.length)
    (par : PlanPar) (I : DiffIn) (hpar : ParOk par I) (env : StepEnv) (henv : env.Ok ins.length co.isSome) (st dim : Int)
    (hdim : dim = -1 ∨ dim = 0) (completed : List (Int × Rat)) (hc5 : completed.length ≤ 5)
    (hcd : ∀ c ∈ completed, c.1 = -1 ∨ c.1 = 0) (hisl : par.queue.dist = true → NoSmallIsland (startG es ins own co)) :
    ∃ (gs0 gs : List Graph) (pl : List Plan) (gs' : List Graph) (own' : Gid → Nat) (W : Nat → Rat),
      setupAll ins co owns o1 o2 = .ok gs0 ∧ migrateRounds gs0 rs = .ok gs ∧
      planAll par env st gs dim completed = .ok pl ∧ migrate gs pl env.mig = .ok gs' ∧
      (∀ v ∈ allVerts ins, own' v < ins.length) ∧ gs'.length = ins.length ∧
      (∀ p (hp : p < gs'.length), ∃ vs, gs'[p].localGids = .ok vs ∧ vs.Nodup ∧
        ∀ v, v ∈ vs ↔ v ∈ allVerts ins ∧ own' v = p) ∧
      partWeights gs dim par.countGhosts = .ok ((List.range ins.length).map W) ∧
      (∀ v ∈ allVerts ins, own' v ≠ placeAll own rs v → W (own' v) < W (placeAll own rs v) ∧
        ∃ e ∈ es, (∃ u ∈ e.pins, placeAll own rs u = placeAll own rs v) ∧ ∃ u ∈ e.pins, placeAll own rs u = own' v) ∧
      ∀ q, q < ins.length → ∀ c ∈ completed, gWeight (startG es ins own co) own' c.1 q ≤
        max (gWeight (startG es ins own co) (placeAll own rs) c.1 q) c.2 := by
  obtain ⟨hG, gs0, gs, e0, e, gr, I0, GH, rfl, hd⟩ := run_spec h co rs hr
  obtain ⟨pl, gs', own', W, e1, e2, ⟨gr', I', GH', rfl, hG', hd'⟩, e3, hmove, hfit⟩ := step_world hpar hw h1 henv
    ⟨gr, I0, GH, rfl, hG, hd⟩ st hdim hc5 hcd hisl
  refine ⟨gs0, _, pl, _, own', W, e0, e, e1, e2, hG'.own, by simp, ?_, e3, hmove, hfit⟩
  intro p hp
  have hp' : p < ins.length := by simpa using hp
  simp only [List.getElem_map, List.getElem_range]
  exact ⟨_, (hd' p hp').gids, (hd' p hp').nodup, (hd' p hp').inv.verts⟩

/-- **C52.**  For every distributed hypergraph with one edge type, on two or more parts, all tolerances, iteration
limits, step factors and plan limits, both queues, up to six criteria, and all delivery and hash orders of every step: `balance()`
ends normally; afterwards the parts hold the same hypergraph - every vertex on exactly one part, with its weight,
coordinates and original owner, every part listing exactly the hyperedges that touch it, with id, weight and pins and
where each pin lives; and for every criterion worked on, no part weighs more in its dimension than the heaviest part did
when that criterion was finished, or than the tolerated weight then: later criteria do not undo it.  What was recorded
when the criterion was finished is the weight of the parts of the same hypergraph, placed in some way.
Missing compared to C52: as for `c52_step_partial`. -/
theorem c52_balance_partial (h : Start es ins own owns o1 o2) (co : Option (Gid → Coord))
    (hw : Weighable (startG es ins own co)) (h1 : 1 < ins.length) (par : PlanPar) (I : DiffIn) (hpar : ParOk par I)
    (hisl : par.queue.dist = true → NoSmallIsland (startG es ins own co))
    (env : Nat → StepEnv) (henv : ∀ k, (env k).Ok ins.length co.isSome) :
    ∃ (gs : List Graph) (b : Bal) (cs : List CritRec) (step : Int) (own' : Gid → Nat),
      setupAll ins co owns o1 o2 = .ok gs ∧ balance (diffMoves par env) I gs = .ok (b, cs, step) ∧
      b.gs.length = ins.length ∧ (∀ v ∈ allVerts ins, own' v < ins.length) ∧
      (∀ p (hp : p < b.gs.length), ∃ vs, b.gs[p].localGids = .ok vs ∧ vs.Nodup ∧
        (∀ v, v ∈ vs ↔ v ∈ allVerts ins ∧ own' v = p) ∧
        (∀ v ∈ vs, b.gs[p].weightG v = .ok (weightOf ins own v) ∧ b.gs[p].origG v = .ok (own v : Int) ∧
          ∀ c, co = some c → b.gs[p].coordG v = .ok (c v)) ∧
        ∃ l, b.gs[p].edgeViews 0 = .ok l ∧
          l.Perm ((es.filter (fun E => decide (∃ v ∈ E.pins, own' v = p))).map (HEdge.viewed own'))) ∧
      (∀ c ∈ cs, ∃ ws, partWeights b.gs c.dim false = .ok ws ∧ ws.length = ins.length ∧ c.ends.length = ins.length ∧
        (∀ w ∈ ws, (∃ x ∈ c.ends, w ≤ x) ∨ w ≤ c.ends.sum / ins.length * c.tol) ∧
        ∃ mid : Gid → Nat, (∀ v ∈ allVerts ins, mid v < ins.length) ∧ ∀ q (hq : q < c.ends.length),
          gWeight (startG es ins own co) mid c.dim q ≤ c.ends[q] ∧
          (c.dim ≠ -1 ∨ I.countGhosts = false → c.ends[q] = gWeight (startG es ins own co) mid c.dim q)) := by
  obtain ⟨gr, I0, GH, e0, hd⟩ := setupAll_spec h co
  have hG := h.wf co
  obtain ⟨b, cs, s, own', e1, ⟨gr', I', GH', hgs, hG', hd'⟩, hk⟩ := balance_world (own := own) ⟨gr, I0, GH, rfl, hG, hd⟩ hw h1 hpar hisl henv
  refine ⟨_, b, cs, s, own', e0, e1, by rw [hgs]; simp, hG'.own, ?_, hk⟩
  intro p hp
  have hp' : p < ins.length := by rw [hgs] at hp; simpa using hp
  have hb : b.gs[p] = gr' p := by simp [hgs]
  rw [hb]
  refine ⟨_, (hd' p hp').gids, (hd' p hp').nodup, (hd' p hp').inv.verts, ?_, ?_⟩
  · intro v hv
    refine ⟨(hd' p hp').weight hv, ?_, fun c hc => (hd' p hp').coord hG' hv hc⟩
    unfold Graph.origG
    rw [findGID_eq (hd' p hp').inv.rep.core.v (by simp [hv]), Outcome.bind_ok]
    exact (hd' p hp').orig hv
  · obtain ⟨l, e, hl⟩ := (hd' p hp').edgeViews hG'
    exact ⟨_, e, hl.map _⟩

end

end Verif.Part
