import Verif.Part.PwStep
import Verif.Part.DiffuseProps
/-!
# Runs of the diffusive balancer with the part weight balancer
-/
namespace Verif.Part
open Verif.Agi

/-! ## specification -/

/-- the weight of the whole hypergraph in dimension `dim` -/
def gTotal (G : GG) (dim : Int) : Rat := if dim = -1 then (G.verts.map G.wt).sum else (G.edges.map HEdge.w).sum

/-- what the vertices that go from part `p` to part `q` bring with them in dimension `dim`: their own weights, or the
hyperedges that did not touch `q` before -/
def gSent (G : GG) (own own' : Gid → Nat) (dim : Int) (p q : Nat) : Rat :=
  if dim = -1 then ((G.verts.filter (fun v => decide (own v = p ∧ own' v = q))).map G.wt).sum
  else ((G.edges.filter (fun E => decide ((∃ v ∈ E.pins, own v = p ∧ own' v = q) ∧ ∀ v ∈ E.pins, own v ≠ q))).map HEdge.w).sum

/-- what a table still plans to send to part `q` -/
def amountTo (t : PwTable) (q : Nat) : Rat := ((t.getD []).lookup (q : Int)).getD 0

/-- some hyperedge touches both parts -/
def Neigh (G : GG) (own : Gid → Nat) (p q : Nat) : Prop := ∃ e ∈ G.edges, (∃ u ∈ e.pins, own u = p) ∧ ∃ u ∈ e.pins, own u = q

/-! ## proof -/

section
variable {G : GG} {n : Nat} {own : Gid → Nat}

theorem share_iff {G : GG} {own : Gid → Nat} {p q : Nat} :
    Neigh G own p q ↔ ∃ e ∈ G.edges, Touches own (p : Int) e ∧ Touches own (q : Int) e := by
  unfold Neigh Touches
  simp only [Nat.cast_inj]

theorem NewTable.amount {W : Part → Rat} {sent : Part → Prop} {t t' : PwTable} (h : NewTable W sent t t') {q : Nat}
    (hs : sent (q : Int) → t.isSome = true) (h0 : ¬ sent (q : Int) → W (q : Int) = 0) :
    amountTo t' q = amountTo t q - W (q : Int) := by
  unfold amountTo
  rcases h with ⟨rfl, rfl⟩ | ⟨l, l', rfl, rfl, -, h1, h2⟩
  · have : ¬ sent (q : Int) := fun h => by have := hs h; simp at this
    rw [h0 this]; simp
  · simp only [Option.getD_some]
    by_cases h : sent (q : Int)
    · rw [h1 _ h]; rfl
    · rw [h2 _ h, h0 h, sub_zero]

/-- one step -/
theorem pwStep_world {par : PlanPar} {I : DiffIn} (hpar : ParOk par I) (hw : Weighable G) (h1 : 1 < n)
    {env : PwStep} (henv : env.Ok n G.co.isSome) {gs : List Graph} (h : HoldsG G n own gs) (st : Int) {dim : Int}
    (hdim : dim = -1 ∨ dim = 0) {completed : List (Int × Rat)} (hc5 : completed.length ≤ 5)
    (hcd : ∀ c ∈ completed, c.1 = -1 ∨ c.1 = 0) (hisl : par.queue.dist = true → NoSmallIsland G)
    {tabs : Nat → PwTable} (htab : ∀ p, p < n → TabOk n (tabs p)) :
    ∃ (pl : List Plan) (tabs' : Nat → PwTable) (gs' : List Graph) (own' : Gid → Nat),
      pwPlanAll par env st gs dim completed ((List.range n).map tabs) = .ok (pl, (List.range n).map tabs') ∧
      migrate gs pl env.base.mig = .ok gs' ∧ HoldsG G n own' gs' ∧ (∀ p, p < n → TabOk n (tabs' p)) ∧
      (∀ v ∈ G.verts, own' v ≠ own v → 0 < amountTo (tabs (own v)) (own' v) ∧ Neigh G own (own v) (own' v)) ∧
      (∀ p q, p < n → q < n → q ≠ p → amountTo (tabs' p) q = amountTo (tabs p) q - gSent G own own' dim p q) ∧
      ∀ q, q < n → ∀ c ∈ completed, gWeight G own' c.1 q ≤ max (gWeight G own c.1 q) c.2 := by
  obtain ⟨gr, I', GH, rfl, hG, hd⟩ := h
  obtain ⟨hs, hwt, hperm⟩ := spot_of hG hw hd
  have hdl : ∀ d : Int, d = -1 ∨ d = 0 → -1 ≤ d ∧ d < (([G.edges] : List (List HEdge)).length : Int) := by
    intro d hd
    simp only [List.length_singleton]
    omega
  have hlen : ((List.range n).map I').length = n := by simp
  have hm : Measured [G.edges] par.sidesType := by rw [hpar.sides]; exact measured_of hw
  obtain ⟨pl, sl, f, tabs', e1, hpl, htabs, hfit⟩ := pwPlanAll_world hs (by rw [hlen]; exact h1) hm hpar.minCon
    (env := env) (co := G.co.isSome) (by rw [hlen]; exact henv) st (hdl dim hdim) hc5 (fun c hc => hdl _ (hcd c hc))
    (fun p hp => queueFits_of hs.dist hisl p hp) (tabs := tabs) (by rw [hlen]; exact htab)
  rw [hlen] at e1
  have hpl' : ∀ p (hp : p < n), PlanRep (I' p).verts (pl p) (sl p) (f p) ∧
      ∀ v d, f p v = some d → ∃ k : Nat, d = (k : Int) ∧ k < n ∧ k ≠ p ∧ 0 < amountTo (tabs p) k ∧ Neigh G own p k := by
    intro p hp
    obtain ⟨a, b⟩ := hpl p (by rw [hlen]; exact hp)
    simp only [List.getElem_map, List.getElem_range] at a
    refine ⟨a, fun v d hf => ?_⟩
    obtain ⟨k, rfl, h2, h3, ⟨x, hx, hx0⟩, h4⟩ := b v d hf
    rw [hpar.sides] at h4
    refine ⟨k, rfl, by rw [hlen] at h2; exact h2, h3, ?_, share_iff.mpr (by simpa using h4)⟩
    unfold amountTo
    rw [(lookup_iff_mem _ (htab p hp).keys _ _).mpr hx]
    exact hx0
  let own' : Gid → Nat := fun v => ((f (own v) v).getD (own v : Int)).toNat
  have hown' : ∀ p, p < n → ∀ v ∈ (I' p).verts, (own' v : Int) = (f p v).getD (p : Int) := by
    intro p hp v hv
    have hov := (((hd p hp).inv.verts v).mp hv).2
    simp only [own', hov]
    cases hf : f p v with
    | none => simp
    | some d =>
      obtain ⟨k, rfl, -⟩ := (hpl' p hp).2 v d hf
      simp
  have hlt : ∀ v ∈ G.verts, own' v < n := by
    intro v hv
    have hp := hG.own v hv
    have h1 := hown' _ hp v (((hd _ hp).inv.verts v).mpr ⟨hv, rfl⟩)
    cases hf : f (own v) v with
    | none => rw [hf, Option.getD_none] at h1; omega
    | some d =>
      obtain ⟨k, rfl, hk, -⟩ := (hpl' _ hp).2 v d hf
      rw [hf, Option.getD_some] at h1
      omega
  -- who goes where
  have hgo : ∀ p, p < n → ∀ q : Nat, q ≠ p → ∀ v ∈ (I' p).verts, (f p v = some (q : Int) ↔ own' v = q) := by
    intro p hp q hne v hv
    have h1 := hown' p hp v hv
    cases hf : f p v with
    | none =>
      rw [hf, Option.getD_none] at h1
      constructor
      · intro h; cases h
      · intro h; omega
    | some d =>
      rw [hf, Option.getD_some] at h1
      rw [Option.some.injEq]
      constructor
      · intro h; omega
      · intro h; omega
  have hbring : ∀ p, p < n → ∀ q : Nat, q ≠ p → bringWeight [G.edges] ((List.range n).map I') own dim q
      (sentTo (I' p).verts (f p) (q : Int)) = gSent G own own' dim p q := by
    intro p hp q hne
    have hmem : ∀ v, v ∈ sentTo (I' p).verts (f p) (q : Int) ↔ v ∈ G.verts ∧ own v = p ∧ own' v = q := by
      intro v
      unfold sentTo
      rw [List.mem_filter, decide_eq_true_eq]
      constructor
      · rintro ⟨hv, hfv⟩
        obtain ⟨k1, k2⟩ := ((hd p hp).inv.verts v).mp hv
        exact ⟨k1, k2, (hgo p hp q hne v hv).mp hfv⟩
      · rintro ⟨k1, k2, k3⟩
        have hv := ((hd p hp).inv.verts v).mpr ⟨k1, k2⟩
        exact ⟨hv, (hgo p hp q hne v hv).mpr k3⟩
    unfold bringWeight gSent
    rcases hdim with rfl | rfl
    · rw [if_pos rfl, if_pos rfl]
      have hp2 : (sentTo (I' p).verts (f p) (q : Int)).Perm (G.verts.filter (fun v => decide (own v = p ∧ own' v = q))) := by
        refine (List.perm_ext_iff_of_nodup ?_ (hG.nodup.filter _)).mpr ?_
        · unfold sentTo; exact (hd p hp).nodup.filter _
        · intro v
          rw [hmem, List.mem_filter, decide_eq_true_eq]
      rw [(hp2.map _).sum_eq]
      congr 1
      apply List.map_congr_left
      intro v hv
      exact hwt v (List.mem_filter.mp hv).1
    · rw [if_neg (by omega), if_neg (by omega)]
      simp only [Int.toNat_zero, List.getD_cons_zero]
      congr 2
      apply List.filter_congr
      intro e he
      rw [decide_eq_decide]
      unfold Touches
      simp only [Nat.cast_inj]
      constructor
      · rintro ⟨⟨v, hv, hve⟩, hn⟩
        exact ⟨⟨v, hve, ((hmem v).mp hv).2⟩, fun u hu hq => hn ⟨u, hu, hq⟩⟩
      · rintro ⟨⟨v, hve, hv⟩, hn⟩
        exact ⟨⟨v, (hmem v).mpr ⟨hG.pins e he v hve, hv⟩, hve⟩, fun ⟨u, hu, hq⟩ => hn u hu hq⟩
  obtain ⟨gr', I2, GH2, e3, hd'⟩ := migrate_step (own' := own') hG hlt (fun p hp => (hd p hp).inv) (pl := pl)
    (fun p hp => ⟨sl p, f p, (hpl' p hp).1, hown' p hp⟩) henv.base.mig
  refine ⟨_, tabs', _, own', e1, e3, ⟨gr', I2, GH2, rfl,
    ⟨hG.some_vertex, hG.nodup, hG.ids, hG.ne, hG.pins, hlt⟩, hd'⟩, ?_, ?_, ?_, ?_⟩
  · intro p hp
    have := (htabs p (by rw [hlen]; exact hp)).1
    rwa [hlen] at this
  · intro v hv hne
    have hp := hG.own v hv
    have h1 := hown' _ hp v (((hd _ hp).inv.verts v).mpr ⟨hv, rfl⟩)
    cases hf : f (own v) v with
    | none => rw [hf, Option.getD_none] at h1; exact absurd (by exact_mod_cast h1) hne
    | some d =>
      obtain ⟨k, rfl, hk, h2, h3⟩ := (hpl' _ hp).2 v d hf
      rw [hf, Option.getD_some] at h1
      have h4 : own' v = k := by exact_mod_cast h1
      rw [h4]
      exact h3
  · intro p q hp hq hne
    have hnt := (htabs p (by rw [hlen]; exact hp)).2
    simp only [List.getElem_map, List.getElem_range] at hnt
    rw [hnt.amount (q := q), Int.toNat_natCast, hbring p hp q hne]
    · rintro ⟨v, hv, hfv⟩
      obtain ⟨k, hk, -, -, h3, -⟩ := (hpl' p hp).2 v _ hfv
      cases htp : tabs p with
      | none => rw [htp] at h3; unfold amountTo at h3; simp at h3
      | some l => rfl
    · intro hno
      have he : sentTo (I' p).verts (f p) (q : Int) = [] := by
        unfold sentTo
        rw [List.filter_eq_nil_iff]
        intro v hv
        rw [decide_eq_true_eq]
        exact fun h => hno ⟨v, hv, h⟩
      rw [he]
      unfold bringWeight
      simp
  · intro q hq c hc
    have := hfit own' (by
      intro p hp v hv
      simp only [List.getElem_map, List.getElem_range] at hv
      exact hown' p (by rw [hlen] at hp; exact hp) v hv) q (by rw [hlen]; exact hq) c hc
    rwa [partWeight_eq hwt hperm _ (hcd c hc), partWeight_eq hwt hperm _ (hcd c hc)] at this

theorem gWeight_le (hw : Weighable G) (dim : Int) (p : Nat) : 0 ≤ gWeight G own dim p ∧ gWeight G own dim p ≤ gTotal G dim := by
  unfold gWeight gTotal
  have hmono : ∀ {α : Type} (l : List α) (F : α → Rat) (P : α → Bool), (∀ x ∈ l, 0 ≤ F x) →
      0 ≤ ((l.filter P).map F).sum ∧ ((l.filter P).map F).sum ≤ (l.map F).sum := by
    intro α l F P
    induction l with
    | nil => simp
    | cons x l ih =>
      intro h
      obtain ⟨a, b⟩ := ih (fun y hy => h y (by simp [hy]))
      have h0 := h x (by simp)
      rw [List.filter_cons]
      split
      · simp only [List.map_cons, List.sum_cons]; constructor <;> linarith
      · simp only [List.map_cons, List.sum_cons]; constructor <;> linarith
  split
  · exact hmono _ _ _ hw.verts
  · refine hmono _ _ _ ?_
    intro e he
    obtain ⟨w, h1, h2⟩ := hw.edges e he
    rw [h1]
    exact_mod_cast h2.le

/-- the weights of the parts, ghosts counted or not, are between 0 and the total -/
theorem weights_range (hw : Weighable G) (h1 : 1 < n) {gs : List Graph} (h : HoldsG G n own gs) {dim : Int}
    (hdim : dim = -1 ∨ dim = 0) (cg : Bool) : ∃ W : Nat → Rat, partWeights gs dim cg = .ok ((List.range n).map W) ∧
      ∀ p, p < n → 0 ≤ W p ∧ W p ≤ gTotal G dim := by
  obtain ⟨W, e, hW⟩ := weights_world hw h1 h hdim cg
  refine ⟨W, e, fun p hp => ⟨le_trans (gWeight_le hw dim p).1 (hW p hp).1, ?_⟩⟩
  by_cases hc : dim ≠ -1 ∨ cg = false
  · rw [(hW p hp).2 hc]
    exact (gWeight_le hw dim p).2
  · obtain ⟨rfl, rfl⟩ : dim = -1 ∧ cg = true := by
      constructor
      · by_contra hh; exact hc (.inl hh)
      · by_contra hh; exact hc (.inr (by simpa using hh))
    obtain ⟨gr, I', GH, rfl, hG, hd⟩ := h
    have hrep := (hd p hp).inv.rep
    have hwl : (vertWeights (I' p).verts (I' p).wgts).length = (I' p).verts.length := by
      rw [(hd p hp).inv.wts]; simp
    have e2 := getWeight_ghosts hrep.core.v hrep.weights hwl ((hd p hp).ghostW h1) (by simp)
    have e3 : getWeight (gr p) (-1) true = .ok (W p) := by
      have hh : ∀ (l : List Nat) {ws : List Rat}, (l.map gr).mapM (fun g => getWeight g (-1) true) = .ok ws →
          ws = l.map W → ∀ x ∈ l, getWeight (gr x) (-1) true = .ok (W x) := by
        intro l
        induction l with
        | nil => intro _ _ _ x hx; cases hx
        | cons y l ih =>
          intro ws e hws x hx
          rw [List.map_cons, List.mapM_cons, bind_ok_iff] at e
          obtain ⟨w, e1, e⟩ := e
          rw [bind_ok_iff] at e
          obtain ⟨ws', e2, e⟩ := e
          simp only [Outcome.pure_eq, Outcome.ok.injEq] at e
          subst e
          rw [List.map_cons, List.cons.injEq] at hws
          rcases List.mem_cons.mp hx with rfl | hx
          · rw [e1, hws.1]
          · exact ih e2 hws.2 x hx
      exact hh (List.range n) e rfl p (List.mem_range.mpr hp)
    rw [e2] at e3
    injection e3 with e3
    rw [← e3, (hd p hp).inv.wts, ← List.sum_append, ← List.map_append]
    unfold gTotal
    rw [if_pos rfl]
    apply sum_subset hrep.core.v.nodup
    · intro v hv
      rcases List.mem_append.mp hv with hv | hv
      · exact (((hd p hp).inv.verts v).mp hv).1
      · have hv' := ((hrep.mem_ghosts v).mp hv).1
        have hdist := Io.done_hdist hG hd
        have := hdist.dist.pins p (by simpa using hp) v (by simpa using hv')
        obtain ⟨hq, hvq⟩ := this
        simp only [List.getElem_map, List.getElem_range] at hvq
        exact (((hd _ (by simpa using hq)).inv.verts v).mp hvq).1
    · exact hw.verts

/-- the start of a criterion: the planned amounts -/
theorem pwStartAll_world {par : PlanPar} {I : DiffIn} (hpar : ParOk par I) (hw : Weighable G) (h1 : 1 < n)
    {env : PwStart} (henv : env.Ok n) {gs : List Graph} (h : HoldsG G n own gs) {dim : Int} (hdim : dim = -1 ∨ dim = 0)
    (htot : (n : Rat) * gTotal G dim < 2147483648) (tol : Rat) :
    ∃ (st : Int) (tabs : Nat → PwTable) (r : Nat → Nat → Nat) (W : Nat → Rat),
      pwStartAll par env gs dim tol = .ok (st, (List.range n).map tabs) ∧ (∀ p, p < n → TabOk n (tabs p)) ∧
      partWeights gs dim par.countGhosts = .ok ((List.range n).map W) ∧
      PartPlanned n W (Neigh G own) r ∧ ∀ p q, p < n → q < n → amountTo (tabs p) q = (r p q : Rat) := by
  obtain ⟨W, eW, hW⟩ := weights_range hw h1 h hdim par.countGhosts
  obtain ⟨gr, I', GH, rfl, hG, hd⟩ := h
  obtain ⟨hs, hwt, hperm⟩ := spot_of hG hw hd
  have hlen : ((List.range n).map I').length = n := by simp
  have hm : Measured [G.edges] par.sidesType := by rw [hpar.sides]; exact measured_of hw
  obtain ⟨w, hwe, -⟩ := hm.weight
  obtain ⟨ss, es, hsl, -⟩ := sides_world hs hm.type hwe
  have hsum : ((List.range n).map W).sum < 2147483648 := by
    refine lt_of_le_of_lt ?_ htot
    have := List.sum_le_card_nsmul ((List.range n).map W) (gTotal G dim) (by
      intro x hx
      obtain ⟨p, hp, rfl⟩ := List.mem_map.mp hx
      exact (hW p (List.mem_range.mp hp)).2)
    rw [List.length_map, List.length_range, nsmul_eq_mul] at this
    exact this
  obtain ⟨wps, r, e1, hl, hr, hp⟩ := partWeightBalance_world hs (by rw [hlen]; exact h1) hm hpar.step (env := env)
    (by rw [hlen]; exact henv) es tol (dim := dim) (W := W) (by rw [hlen]; exact eW)
    (by rw [hlen]; exact fun p hp => (hW p hp).1) (by rw [hlen]; exact hsum)
  rw [hlen] at hl hr hp
  refine ⟨sideTolOf ss, fun p => tableOf env p (wps.getD p (fun _ _ => 0)), r, W, ?_, ?_, eW, ?_, ?_⟩
  · unfold pwStartAll
    rw [es, Outcome.bind_ok, e1, Outcome.bind_ok, hl]
    rfl
  · intro p hp'
    have hsub : ((env.order p).filterMap (fun q : Nat => if 0 < wps.getD p (fun _ _ => 0) (p : Int) (q : Int) then
        some ((q : Int), wps.getD p (fun _ _ => 0) (p : Int) (q : Int)) else none)).map Prod.fst =
        ((env.order p).filter (fun q : Nat => decide (0 < wps.getD p (fun _ _ => 0) (p : Int) (q : Int)))).map (fun q : Nat => (q : Int)) := by
      induction env.order p with
      | nil => rfl
      | cons q l ih =>
        rw [List.filterMap_cons, List.filter_cons]
        by_cases h0 : 0 < wps.getD p (fun _ _ => 0) (p : Int) (q : Int)
        · simp only [h0, if_true, decide_true, List.map_cons]
          rw [ih]
        · simp only [h0, if_false, decide_false]
          rw [ih]; rfl
    have hnd : (env.order p).Nodup := ((henv.order p).nodup_iff).mpr List.nodup_range
    have hbase : TabOk n (some ((env.order p).filterMap (fun q : Nat => if 0 < wps.getD p (fun _ _ => 0) (p : Int) (q : Int) then
        some ((q : Int), wps.getD p (fun _ _ => 0) (p : Int) (q : Int)) else none))) := by
      constructor
      · rw [Option.getD_some, hsub]
        exact (hnd.filter _).map (fun a b hab => by have h0 : (a : Int) = b := hab; omega)
      · intro e he
        rw [Option.getD_some] at he
        have he1 : e.1 ∈ ((env.order p).filter (fun q : Nat => decide (0 < wps.getD p (fun _ _ => 0) (p : Int) (q : Int)))).map
            (fun q : Nat => (q : Int)) := by rw [← hsub]; exact List.mem_map.mpr ⟨e, he, rfl⟩
        obtain ⟨q, hq, hqe⟩ := List.mem_map.mp he1
        have := ((henv.order p).mem_iff).mp (List.mem_filter.mp hq).1
        exact ⟨q, hqe.symm, List.mem_range.mp this⟩
    unfold tableOf
    dsimp only
    split
    · split
      · exact ⟨by simp, by simp⟩
      · exact ⟨by simp, by simp⟩
    · exact hbase
  · refine ⟨fun p q hpq => ?_, hp.loads⟩
    obtain ⟨a, b, c, d, e⟩ := hp.between p q hpq
    rw [hpar.sides] at d
    exact ⟨a, b, c, share_iff.mpr (by simpa using d), e⟩
  · intro p q hp' hq
    have hpw : p < wps.length := by rw [hl]; exact hp'
    have hval : wps.getD p (fun _ _ => 0) (p : Int) (q : Int) = (r p q : Rat) := by
      rw [List.getD_eq_getElem?_getD, List.getElem?_eq_getElem hpw, Option.getD_some]
      exact hr p hpw q hq
    -- look up in the list of positive entries
    have hlk : ∀ l : List Nat, q ∈ l → l.Nodup → ((l.filterMap (fun q : Nat => if 0 < wps.getD p (fun _ _ => 0) (p : Int) (q : Int) then
        some ((q : Int), wps.getD p (fun _ _ => 0) (p : Int) (q : Int)) else none)).lookup (q : Int)).getD 0 = (r p q : Rat) := by
      have hnone : ∀ l : List Nat, q ∉ l → (l.filterMap (fun q : Nat => if 0 < wps.getD p (fun _ _ => 0) (p : Int) (q : Int) then
          some ((q : Int), wps.getD p (fun _ _ => 0) (p : Int) (q : Int)) else none)).lookup (q : Int) = none := by
        intro l
        induction l with
        | nil => intro _; rfl
        | cons x l ih =>
          intro hx
          rw [List.filterMap_cons]
          have hne : ((q : Int) == (x : Int)) = false := by
            rw [beq_eq_false_iff_ne]
            intro hh
            exact hx (by rw [Nat.cast_inj.mp hh]; simp)
          by_cases h0 : 0 < wps.getD p (fun _ _ => 0) (p : Int) (x : Int)
          · simp only [h0, if_true]
            rw [List.lookup_cons, hne]
            exact ih (fun hm => hx (by simp [hm]))
          · simp only [h0, if_false]
            exact ih (fun hm => hx (by simp [hm]))
      intro l
      induction l with
      | nil => intro h; cases h
      | cons x l ih =>
        intro hx hnd
        rw [List.nodup_cons] at hnd
        rw [List.filterMap_cons]
        by_cases hxq : x = q
        · subst hxq
          by_cases h0 : 0 < wps.getD p (fun _ _ => 0) (p : Int) (x : Int)
          · simp only [h0, if_true]
            rw [List.lookup_cons, beq_self_eq_true]
            exact hval
          · simp only [h0, if_false]
            rw [hnone l hnd.1]
            rw [hval] at h0
            have : (0 : Rat) ≤ (r p x : Rat) := Nat.cast_nonneg _
            rw [Option.getD_none]
            linarith
        · have hne : ((q : Int) == (x : Int)) = false := by
            rw [beq_eq_false_iff_ne]
            intro hh
            exact hxq (Nat.cast_inj.mp hh).symm
          have hxl : q ∈ l := by
            rcases List.mem_cons.mp hx with h | h
            · exact absurd h.symm hxq
            · exact h
          by_cases h0 : 0 < wps.getD p (fun _ _ => 0) (p : Int) (x : Int)
          · simp only [h0, if_true]
            rw [List.lookup_cons, hne]
            exact ih hxl hnd.2
          · simp only [h0, if_false]
            exact ih hxl hnd.2
    have := hlk (env.order p) (((henv.order p).mem_iff).mpr (List.mem_range.mpr hq))
      (((henv.order p).nodup_iff).mpr List.nodup_range)
    unfold amountTo tableOf
    dsimp only
    split
    · rename_i h0
      rw [h0] at this
      simp only [List.lookup_nil, Option.getD_none] at this
      split
      · simpa using this
      · simpa using this
    · exact this

end
end Verif.Part
