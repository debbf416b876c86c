import Verif.Part.MetricsModel
import Verif.Agi.GhostProps
import Mathlib.Algebra.Order.Ring.Rat
import Mathlib.Algebra.Order.Field.Basic
import Mathlib.Algebra.Order.BigOperators.Group.List
import Mathlib.Tactic.Ring
import Mathlib.Tactic.Linarith
import Mathlib.Tactic.FieldSimp
import Mathlib.Tactic.NormNum
/-!
# C39: part weights and imbalance
-/
namespace Verif.Part
open Verif.Agi

theorem loop_sum {α : Type} {body : Rat → Handle → Outcome (Rat × Bool)} {hd : α → Handle} {W : α → Rat} :
    ∀ (xs : List α) (acc : Rat), (∀ acc, ∀ x ∈ xs, body acc (hd x) = .ok (acc + W x, false)) →
      loopList body (xs.map hd) acc = .ok (acc + (xs.map W).sum) := by
  intro xs
  induction xs with
  | nil => intro acc _; simp [loopList]
  | cons x xs ih =>
    intro acc h
    rw [List.map_cons, loopList, h acc x (by simp), Outcome.bind_ok]
    simp only [Bool.false_eq_true, if_false]
    rw [ih _ (fun acc y hy => h acc y (by simp [hy]))]
    simp [add_assoc]

theorem range_map_getD {α : Type} (l : List α) (d : α) : (List.range l.length).map (fun k => l.getD k d) = l := by
  apply List.ext_getElem
  · simp
  · intro k h1 h2; simp [h2]

theorem getWeight_verts {g : Graph} {verts ghosts : List Gid} (hv : VRep g verts ghosts) {ws : List Wgt}
    (hw : g.weights = Mem.ofList ws) (hl : ws.length = verts.length) :
    getWeight g (-1) false = .ok ws.sum := by
  unfold getWeight
  rw [if_pos rfl]
  unfold vtxWeight
  rw [iterLoop_yields _ _ _ _ _ (yields_vertices g) (by simp [Graph.bound]; omega),
    loop_sum (W := fun k => ws.getD k 0)]
  · rw [hv.nl, ← hl, range_map_getD]; simp
  · intro acc k hk
    rw [List.mem_range, hv.nl] at hk
    unfold addVtxWeight
    rw [weight_local hv hw hk (by omega), Outcome.bind_ok]
    have : k < ws.length := by omega
    simp [this]

theorem getWeight_ghosts {g : Graph} {verts ghosts : List Gid} (hv : VRep g verts ghosts) {ws gw : List Wgt}
    (hw : g.weights = Mem.ofList ws) (hl : ws.length = verts.length)
    (hg : g.ghostWeights = some (Mem.ofList gw)) (hgl : gw.length = ghosts.length) :
    getWeight g (-1) true = .ok (ws.sum + gw.sum) := by
  have h1 := getWeight_verts hv hw hl
  unfold getWeight at h1 ⊢
  rw [if_pos rfl] at h1 ⊢
  unfold vtxWeight at h1 ⊢
  rw [bind_ok_iff] at h1
  obtain ⟨a, e, h1⟩ := h1
  rw [e, Outcome.bind_ok]
  simp only [Bool.false_eq_true, if_false, Outcome.pure_eq, Outcome.ok.injEq] at h1
  subst h1
  rw [if_pos rfl, iterLoop_yields _ _ _ _ _ (yields_ghosts g) (by simp [Graph.bound]; omega),
    loop_sum (W := fun k => gw.getD k 0)]
  · rw [hv.ng, ← hgl, range_map_getD]
  · intro acc k hk
    rw [List.mem_range, hv.ng] at hk
    unfold addVtxWeight Graph.weight
    rw [vidx_getVertex, Outcome.bind_ok, hv.nl, hv.ng, if_neg (by omega), if_pos (by omega), hg]
    simp only [deref, Outcome.ofOption_some, Outcome.bind_ok]
    unfold Graph.getVtxTag
    rw [vidx_getVertex, Outcome.bind_ok, hv.nl, if_pos (by omega), Nat.add_sub_cancel_left,
      Mem.load_ofList (by omega), Outcome.bind_ok]
    have : k < gw.length := by omega
    simp [this]

theorem getWeight_edges {g : Graph} {hyper : Bool} {verts ghosts : List Gid} {types : List EdgeInput}
    (hc : CRep g hyper verts ghosts types) {t : Nat} (ht : t < types.length)
    (hl : types[t].weights.length = types[t].pins.length) (cg : Bool) :
    getWeight g (t : Int) cg = .ok types[t].weights.sum := by
  obtain ⟨e, he, hr, -⟩ := hc.typ t ht
  unfold getWeight
  rw [if_neg (by omega), if_neg (by omega), Int.toNat_natCast]
  unfold edgeWeight
  obtain ⟨it, e1, hy⟩ := yields_edgeBegin hc ht
  rw [e1, Outcome.bind_ok, iterLoop_yields _ _ _ _ _ hy (by
    have := bound_ge he; simp only [List.length_map, List.length_range]; have := hr.numE; omega),
    loop_sum (W := fun k => types[t].weights.getD k 0)]
  · rw [← hl, range_map_getD]; simp
  · intro acc k hk
    rw [List.mem_range] at hk
    unfold addEdgeWeight
    rw [weightE_eq hc ht (by omega), Outcome.bind_ok]
    have : k < types[t].weights.length := by omega
    simp [this]

/-- **C39**, what is measured: once the ghosts of a distributed graph (hypergraph or traditional) are set,
for every part the vertex weight is the sum of the weights of its own vertices, the weight of edge type `t`
the sum of the weights of its edges of that type (with or without ghost counting), and counting ghosts adds,
for each ghost once, the weight the vertex has on its owner. -/
theorem c39_part_weights (ins : List Input) (own : Gid → Nat) (hd : Dist ins own) (hyper : Bool) (T : Nat)
    (hu : Uniform ins hyper T) (owns : List (GMap Part)) (ho : OwnMaps ins own owns)
    (o1 o2 : Nat → List Nat) (ho1 : Orders ins.length o1) (ho2 : Orders ins.length o2) :
    ∃ gs gs', buildAll ins = .ok gs ∧ constructGhosts gs owns o1 o2 = .ok gs' ∧
      gs'.length = ins.length ∧ ∀ p (hp : p < ins.length) (hg : p < gs'.length),
      getWeight gs'[p] (-1) false = .ok (vertWeights ins[p].verts ins[p].wgts).sum ∧
      (∀ t (ht : t < ins[p].types.length) cg,
        getWeight gs'[p] (t : Int) cg = .ok ins[p].types[t].weights.sum) ∧
      (1 < ins.length → ∃ gh : List Gid, gh.Nodup ∧
        (∀ v, v ∈ gh ↔ v ∈ ins[p].allPins ∧ v ∉ ins[p].verts) ∧
        getWeight gs'[p] (-1) true =
          .ok ((vertWeights ins[p].verts ins[p].wgts).sum + (gh.map (weightOf ins own)).sum)) := by
  obtain ⟨gs, e, hb⟩ := buildAll_spec ins hd.wf
  obtain ⟨gs', e', hw, hr⟩ := constructGhosts_spec hb hd hu ho ho1 ho2
  have hl := hw.1
  have hl0 := hb.1
  refine ⟨gs, gs', e, e', hl, fun p hp hg => ?_⟩
  obtain ⟨ghosts, hrep⟩ := hw.2 p hg hp
  refine ⟨getWeight_verts hrep.core.v hrep.weights (vertWeights_length _ _), ?_, ?_⟩
  · intro t ht cg
    have hwf := (hd.wf _ (List.getElem_mem hp)).edges _ (List.getElem_mem ht)
    exact getWeight_edges hrep.core ht (weights_length hwf) cg
  · intro hn
    obtain ⟨-, -, -, -, r3⟩ := hr p hg (by omega) hp
    obtain ⟨gh, hgr, hgw⟩ := r3 hn
    exact ⟨gh, (List.nodup_append.mp hgr.core.v.nodup).2.1, hgr.mem_ghosts,
      getWeight_ghosts hgr.core.v hgr.weights (vertWeights_length _ _) hgw (by simp)⟩

theorem mpiMax_spec (l : List Rat) (h : l ≠ []) : mpiMax l ∈ l ∧ ∀ x ∈ l, x ≤ mpiMax l := by
  match l, h with
  | a :: l, _ =>
    show l.foldl (fun m x => if m < x then x else m) a ∈ a :: l ∧
      ∀ x ∈ a :: l, x ≤ l.foldl (fun m x => if m < x then x else m) a
    clear h
    induction l generalizing a with
    | nil => simp
    | cons b l ih =>
      rw [List.foldl_cons]
      by_cases hab : a < b
      · rw [if_pos hab]
        obtain ⟨h1, h2⟩ := ih b (by simp)
        refine ⟨List.mem_cons_of_mem _ h1, ?_⟩
        intro x hx
        rcases List.mem_cons.mp hx with rfl | hx
        · exact le_trans hab.le (h2 b (by simp))
        · exact h2 x hx
      · rw [if_neg hab]
        obtain ⟨h1, h2⟩ := ih a (by simp)
        refine ⟨?_, ?_⟩
        · rcases List.mem_cons.mp h1 with h | h
          · rw [h]; simp
          · simp [h]
        · intro x hx
          rcases List.mem_cons.mp hx with rfl | hx
          · exact h2 x (by simp)
          · rcases List.mem_cons.mp hx with rfl | hx
            · exact le_trans (not_lt.mp hab) (h2 a (by simp))
            · exact h2 x (by simp [hx])

theorem sum_le_max (m : Rat) : ∀ (l : List Rat), (∀ x ∈ l, x ≤ m) →
    l.sum ≤ l.length * m ∧ (l.sum = l.length * m → ∀ x ∈ l, x = m)
  | [], _ => by simp
  | a :: l, h => by
    obtain ⟨h1, h2⟩ := sum_le_max m l (fun x hx => h x (by simp [hx]))
    have ha := h a (by simp)
    simp only [List.sum_cons, List.length_cons]
    push_cast
    refine ⟨by linarith, fun he => ?_⟩
    have : l.sum = l.length * m := by linarith
    intro x hx
    rcases List.mem_cons.mp hx with rfl | hx
    · linarith
    · exact h2 this x hx

/-- **C39**, the ratio: for any number of parts with any weights of positive sum, the reported imbalance is
the largest part weight divided by the average; it is at least 1, and 1 exactly when all parts weigh the
same. -/
theorem c39_imbalance (ws : List Rat) (hpos : 0 < ws.sum) :
    ∃ m r, imbalance ws = some r ∧ m ∈ ws ∧ (∀ w ∈ ws, w ≤ m) ∧ r * (ws.sum / ws.length) = m ∧ 1 ≤ r ∧
      (r = 1 ↔ ∀ w ∈ ws, ∀ w' ∈ ws, w = w') := by
  have hne : ws ≠ [] := by rintro rfl; simp at hpos
  obtain ⟨hm1, hm2⟩ := mpiMax_spec ws hne
  have hn : (0 : Rat) < ws.length := by
    have : 0 < ws.length := List.length_pos_of_ne_nil hne
    exact_mod_cast this
  have havg : 0 < ws.sum / ws.length := div_pos hpos hn
  obtain ⟨hs1, hs2⟩ := sum_le_max (mpiMax ws) ws hm2
  have hle : ws.sum / ws.length ≤ mpiMax ws := by
    rw [div_le_iff₀ hn, mul_comm]; exact hs1
  refine ⟨mpiMax ws, mpiMax ws / (ws.sum / ws.length), ?_, hm1, hm2, ?_, ?_, ?_⟩
  · simp [imbalance, divD, ne_of_gt havg]
  · rw [div_mul_cancel₀ _ (ne_of_gt havg)]
  · rw [one_le_div₀ havg]; exact hle
  · rw [div_eq_one_iff_eq (ne_of_gt havg)]
    constructor
    · intro he w hw w' hw'
      have : ws.sum = ws.length * mpiMax ws := by
        rw [he]; field_simp
      rw [hs2 this w hw, hs2 this w' hw']
    · intro h
      have : ∀ (l : List Rat), (∀ x ∈ l, x = mpiMax ws) → l.sum = l.length * mpiMax ws := by
        intro l
        induction l with
        | nil => simp
        | cons a l ih =>
          intro hl
          rw [List.sum_cons, ih (fun x hx => hl x (by simp [hx])), hl a (by simp)]
          simp only [List.length_cons]; push_cast; ring
      rw [this ws (fun x hx => h x hx _ hm1)]
      field_simp

/-- **C39**, the exception: when the weights add up to 0 (an empty graph, or an edge type without edges) the
result is not a number at all. -/
theorem c39_zero_total (ws : List Rat) (h : ws.sum = 0) : imbalance ws = none := by
  simp [imbalance, divD, h]

example : imbalance [3, 1, 2] = some (3 / 2) ∧ imbalance [2, 2, 2] = some 1 ∧ imbalance [0, 0] = none := by
  decide +kernel

/-- the world of the C12 example: part weights 3 and 9, counting ghosts 7 and 12 -/
example : (do
    let gs ← buildAll sampleWorld
    let gs ← constructGhosts gs [fun v => some (sampleOwn v : Int), fun v => some (sampleOwn v : Int)]
      (fun _ => [0, 1]) (fun _ => [1, 0])
    let a ← gs.mapM (fun g => getWeight g (-1) false)
    let b ← gs.mapM (fun g => getWeight g (-1) true)
    let c ← gs.mapM (fun g => getWeight g 0 false)
    return (a, b, c) : Outcome _) = .ok ([(3 : Rat), 9], [(7 : Rat), 12], [(2 : Rat), 2]) := by decide +kernel

/-! ## C49 -/

theorem evalAvg_ok (nt peers : Nat) (total : List Rat) (hl : total.length = 4 + nt * 2) (hn : 1 ≤ nt) :
    ∃ avg, evalAvg nt peers total = .ok avg ∧ avg.length = 4 + nt * 2 ∧
      (∀ k, k < 5 + nt → avg[k]? = some (some (total.getD k 0 / peers))) ∧
      (∀ k, 5 + nt ≤ k → k < 4 + nt * 2 → avg[k]? = some none) := by
  unfold evalAvg
  obtain ⟨avg, e, h1, h2, h3⟩ := range_inv (avgStep total peers)
    (fun k avg => avg.length = 4 + nt * 2 ∧
      (∀ j, j < k → avg[j]? = some (some (total.getD j 0 / peers))) ∧
      (∀ j, k ≤ j → j < 4 + nt * 2 → avg[j]? = some none)) 0 (5 + nt)
    (by
      rintro k avg hk ⟨h1, h2, h3⟩
      unfold avgStep
      rw [Nat.zero_add, rd_ok (by omega), Outcome.bind_ok, Mem.store_ok _ (by omega)]
      refine ⟨_, rfl, by simpa using h1, ?_, ?_⟩
      · intro j hj
        rw [Mem.getElem?_set']
        by_cases hjk : k = j
        · subst hjk
          have : k < total.length := by omega
          simp [h1, this]; omega
        · rw [if_neg hjk]; exact h2 j (by omega)
      · intro j hj hj'
        rw [Mem.getElem?_set', if_neg (by omega)]
        exact h3 j (by omega) hj')
    (Mem.alloc (4 + nt * 2)) ⟨by simp, by intro j hj; omega, by
      intro j _ hj; simp [Mem.alloc, hj]⟩
  exact ⟨avg, e, h1, h2, h3⟩

/-- **C49** for graphs with one or two edge types: the averages `evaluatePartition` prints are the reduced
totals divided by the number of parts, for neighbours, local vertices, all vertices and each edge type.
Missing compared to C49: no edge type, and more than two edge types, where the claim is false
(`c49_no_edge_type_ub`, `c49_many_types_ub`). -/
theorem c49_averages_partial (nt peers : Nat) (total : List Rat) (hl : total.length = 4 + nt * 2)
    (hn : nt = 1 ∨ nt = 2) :
    evalPrinted nt peers total = .ok
      (([1, 2, 3] ++ (List.range nt).map (fun i => 4 + i * 2)).map (fun k => total.getD k 0 / peers)) := by
  obtain ⟨avg, e, h1, h2, h3⟩ := evalAvg_ok nt peers total hl (by omega)
  unfold evalPrinted
  rw [e, Outcome.bind_ok]
  apply mapM_ok
  intro k hk
  apply Mem.load_ok
  apply h2
  simp only [List.mem_append, List.mem_cons, List.not_mem_nil, or_false, List.mem_map, List.mem_range] at hk
  omega

example : evalPrinted 2 4 [0, 8, 4, 6, 12, 0, 20, 0] = .ok [(2 : Rat), 1, 3 / 2, 3, 5] := by decide +kernel

/-- with no edge type the loop runs past the arrays -/
theorem c49_no_edge_type_ub (peers : Nat) (total : List Rat) (hl : total.length = 4) :
    evalPrinted 0 peers total = .ub := by
  match total, hl with
  | [a, b, c, d], _ => rfl

theorem mapM_ub {α β : Type} {f : α → Outcome β} {l : List α} {x : α} (hx : x ∈ l) (h : f x = .ub)
    (hnf : ∀ y ∈ l, f y ≠ .fail) : l.mapM f = .ub := by
  induction l with
  | nil => simp at hx
  | cons a l ih =>
    rw [List.mapM_cons]
    rcases List.mem_cons.mp hx with rfl | hx
    · rw [h]; rfl
    · cases ha : f a with
      | ok b => rw [Outcome.bind_ok, ih hx (fun y hy => hnf y (by simp [hy]))]; rfl
      | fail => exact absurd ha (hnf a (by simp))
      | ub => rfl

/-- with three or more edge types the average of the last type is never computed: uninitialised memory is
printed -/
theorem c49_many_types_ub (nt peers : Nat) (total : List Rat) (hl : total.length = 4 + nt * 2) (hn : 3 ≤ nt) :
    evalPrinted nt peers total = .ub := by
  obtain ⟨avg, e, h1, h2, h3⟩ := evalAvg_ok nt peers total hl (by omega)
  unfold evalPrinted
  rw [e, Outcome.bind_ok]
  apply mapM_ub (x := 4 + (nt - 1) * 2)
  · simp only [List.mem_append, List.mem_map, List.mem_range]
    exact .inr ⟨nt - 1, by omega, rfl⟩
  · unfold Mem.load
    rw [h3 _ (by omega) (by omega)]
  · intro y _
    unfold Mem.load
    split <;> simp

end Verif.Part
