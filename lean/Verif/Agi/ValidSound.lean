import Verif.Agi.ValidLemmas
/-!
# What `checkValidity` accepts
-/
namespace Verif.Agi

variable {σ : Type} {step : σ → Outcome (Handle × σ)}

/-- iterating from `s` visits `x` -/
inductive Visits (step : σ → Outcome (Handle × σ)) : σ → Handle → Prop where
  | here {s s' : σ} {h : Handle} : step s = .ok (h, s') → h ≠ 0 → Visits step s h
  | later {s s' : σ} {h x : Handle} : step s = .ok (h, s') → h ≠ 0 → Visits step s' x → Visits step s x

theorem bind_ok_inv {α β : Type} {x : Outcome α} {f : α → Outcome β} {b : β} (h : x >>= f = .ok b) :
    ∃ a, x = .ok a ∧ f a = .ok b := by
  cases x with
  | ok a => exact ⟨a, rfl, h⟩
  | ub => exact absurd h (by simp)
  | fail => exact absurd h (by simp)

theorem iterCount_inv : ∀ (fuel : Nat) (s : σ) (n0 n : Nat),
    iterLoop step (fun n _ => .ok (n + 1, false)) fuel s n0 = .ok n →
    ∃ hs, Yields step s hs ∧ n = n0 + hs.length := by
  intro fuel
  induction fuel with
  | zero => intro s n0 n h; simp [iterLoop] at h
  | succ f ih =>
    intro s n0 n h
    rw [iterLoop] at h
    obtain ⟨⟨x, s'⟩, e1, h⟩ := bind_ok_inv h
    simp only at h
    split at h
    · rename_i hx
      simp only [Outcome.pure_eq, Outcome.ok.injEq] at h
      exact ⟨[], ⟨s', by rw [e1, hx]⟩, by simp [h]⟩
    · rename_i hx
      simp only [Outcome.bind_ok, Bool.false_eq_true, if_false] at h
      obtain ⟨hs, hy, hn⟩ := ih _ _ _ h
      exact ⟨x :: hs, ⟨hx, s', e1, hy⟩, by simp; omega⟩

theorem iterAll_inv {check : Handle → Outcome Bool} : ∀ (fuel : Nat) (s : σ) (b : Bool),
    iterLoop step (fun (_ : Bool) h => do
      let b ← check h
      return (b, !b)) fuel s b = .ok true →
    ∃ hs, Yields step s hs ∧ ∀ x ∈ hs, check x = .ok true := by
  intro fuel
  induction fuel with
  | zero => intro s b h; simp [iterLoop] at h
  | succ f ih =>
    intro s b h
    rw [iterLoop] at h
    obtain ⟨⟨x, s'⟩, e1, h⟩ := bind_ok_inv h
    simp only at h
    split at h
    · rename_i hx
      exact ⟨[], ⟨s', by rw [e1, hx]⟩, by simp⟩
    · rename_i hx
      obtain ⟨⟨c, st⟩, e2, h⟩ := bind_ok_inv h
      obtain ⟨c', e3, e4⟩ := bind_ok_inv e2
      simp only [Outcome.pure_eq, Outcome.ok.injEq, Prod.mk.injEq] at e4
      obtain ⟨rfl, rfl⟩ := e4
      cases c' with
      | false => simp at h
      | true =>
        simp only [Bool.not_true, Bool.false_eq_true, if_false] at h
        obtain ⟨hs, hy, hc⟩ := ih _ _ h
        refine ⟨x :: hs, ⟨hx, s', e1, hy⟩, ?_⟩
        intro y hy'
        rcases List.mem_cons.mp hy' with rfl | hy'
        · exact e3
        · exact hc y hy'

theorem visits_inv {v : Handle} : ∀ (fuel : Nat) (s : σ) (b : Bool), b = false →
    iterLoop step (fun (_ : Bool) other => .ok (decide (other = v), decide (other = v))) fuel s b = .ok true →
    Visits step s v := by
  intro fuel
  induction fuel with
  | zero => intro s b _ h; simp [iterLoop] at h
  | succ f ih =>
    intro s b hb h
    rw [iterLoop] at h
    obtain ⟨⟨x, s'⟩, e1, h⟩ := bind_ok_inv h
    simp only at h
    split at h
    · simp [hb] at h
    · rename_i hx
      simp only [Outcome.bind_ok] at h
      by_cases hxv : x = v
      · subst hxv; exact .here e1 hx
      · simp only [hxv, decide_false, Bool.false_eq_true, if_false] at h
        exact .later e1 hx (ih _ _ rfl h)

theorem forTypes_inv {check : Nat → Outcome Bool} {ts : List Nat} (h : forTypes check ts = .ok true) :
    ∀ t ∈ ts, check t = .ok true := by
  induction ts with
  | nil => simp
  | cons t ts ih =>
    rw [forTypes] at h
    obtain ⟨b, e, h⟩ := bind_ok_inv h
    cases b with
    | false => simp at h
    | true =>
      rw [if_pos rfl] at h
      intro x hx
      rcases List.mem_cons.mp hx with rfl | hx
      · exact e
      · exact ih h x hx

/-- the counting loop: the first number is the number of edges, the last the sum of their degrees -/
theorem validCounts_inv {g : Graph} : ∀ (fuel : Nat) (it : EdgeIt) (s r : Int × Int × Int × Int),
    iterLoop g.iterEdge g.countEdge fuel it s = .ok r →
    ∃ hs, ∃ ds : List Int, Yields g.iterEdge it hs ∧ hs.mapM g.degreeE = .ok ds ∧
      r.1 = s.1 + hs.length ∧ r.2.2.2 = s.2.2.2 + ds.sum := by
  intro fuel
  induction fuel with
  | zero => intro it s r h; simp [iterLoop] at h
  | succ f ih =>
    intro it s r h
    rw [iterLoop] at h
    obtain ⟨⟨x, s'⟩, e1, h⟩ := bind_ok_inv h
    simp only at h
    split at h
    · rename_i hx
      simp only [Outcome.pure_eq, Outcome.ok.injEq] at h
      exact ⟨[], [], ⟨s', by rw [e1, hx]⟩, rfl, by simp [h], by simp [h]⟩
    · rename_i hx
      obtain ⟨⟨c, st⟩, e2, h⟩ := bind_ok_inv h
      unfold Graph.countEdge at e2
      obtain ⟨d, e3, e2⟩ := bind_ok_inv e2
      obtain ⟨res, -, e2⟩ := bind_ok_inv e2
      have hst : st = false ∧ c.1 = s.1 + 1 ∧ c.2.2.2 = s.2.2.2 + d := by
        split at e2 <;> simp only [Outcome.pure_eq, Outcome.ok.injEq, Prod.mk.injEq] at e2 <;>
          (obtain ⟨rfl, rfl⟩ := e2; exact ⟨rfl, rfl, rfl⟩)
      obtain ⟨rfl, h1, h2⟩ := hst
      simp only [Bool.false_eq_true, if_false] at h
      obtain ⟨hs, ds, hy, hd, h3, h4⟩ := ih _ _ _ h
      refine ⟨x :: hs, d :: ds, ⟨hx, s', e1, hy⟩, ?_, ?_, ?_⟩
      · rw [List.mapM_cons, e3, Outcome.bind_ok, hd]; rfl
      · rw [h3, h1]; simp; omega
      · rw [h4, h2]; simp; omega

/-- **C11, second half**: what an accepting `checkValidity` establishes about an arbitrary graph object
(`sumV`, `sumE`, `sumP`: the sums over all parts). -/
theorem c11_validity_sound (g : Graph) (sumV : Int) (sumE sumP : Nat → Int)
    (h : g.checkValidity sumV sumE sumP = .ok true) :
    g.globalVerts = sumV ∧
    (∀ u, u < g.numLocal → ∀ t, t < g.numTypes →
      ∃ hs, YieldsFrom (g.edges (getVertex u) t) g.iterEdge hs ∧
        g.degreeV (getVertex u) t = .ok (hs.length : Int) ∧
        ∀ e ∈ hs, ∃ it, g.pins e = .ok it ∧ Visits g.iterPin it (getVertex u)) ∧
    (∀ t, t < g.numTypes → ∃ hs, ∃ ds : List Int, YieldsFrom (g.edgeBegin t) g.iterEdge hs ∧
      g.numLocalEdges t = .ok hs.length ∧ g.numGlobalEdges t = .ok (sumE t) ∧
      g.numGlobalPins t = .ok (sumP t) ∧
      hs.mapM g.degreeE = .ok ds ∧ (∃ np : Nat, g.numLocalPins t = .ok np ∧ ds.sum = (np : Int)) ∧
      ∀ e ∈ hs, ∃ ps, YieldsFrom (g.pins e) g.iterPin ps ∧ g.degreeE e = .ok (ps.length : Int)) ∧
    (∀ k, k < g.numGhost → ∃ o, g.owner (getVertex (g.numLocal + k)) = .ok o ∧ o ≠ g.self ∧
      o < (g.peers : Int)) := by
  unfold Graph.checkValidity at h
  obtain ⟨i, -, h⟩ := bind_ok_inv h
  split at h
  · simp at h
  split at h
  · simp at h
  rename_i hV
  obtain ⟨a, ea, h⟩ := bind_ok_inv h
  cases a with
  | false => simp at h
  | true =>
  rw [if_neg (by simp)] at h
  obtain ⟨b, eb, h⟩ := bind_ok_inv h
  cases b with
  | false => simp at h
  | true =>
  rw [if_neg (by simp)] at h
  obtain ⟨c, ec, h⟩ := bind_ok_inv h
  cases c with
  | false => simp at h
  | true =>
  rw [if_neg (by simp)] at h
  obtain ⟨hsa, ya, ca⟩ := iterAll_inv _ _ _ ea
  obtain ⟨hsb, yb, cb⟩ := iterAll_inv _ _ _ eb
  obtain ⟨hsg, yg, cg⟩ := iterAll_inv _ _ _ h
  have ua := yields_unique _ _ _ ya (yields_vertices g)
  have ub := yields_unique _ _ _ yb (yields_vertices g)
  have ug := yields_unique _ _ _ yg (yields_ghosts g)
  subst ua ub ug
  refine ⟨by simpa using hV, ?_, ?_, ?_⟩
  · intro u hu t ht
    have hm : getVertex u ∈ (List.range g.numLocal).map getVertex :=
      List.mem_map.mpr ⟨u, by simpa using hu, rfl⟩
    have h1 := forTypes_inv (ca _ hm) t (by simpa using ht)
    have h2 := forTypes_inv (cb _ hm) t (by simpa using ht)
    unfold Graph.checkDegree at h1
    obtain ⟨it, e1, h1⟩ := bind_ok_inv h1
    obtain ⟨j, e2, h1⟩ := bind_ok_inv h1
    obtain ⟨d, e3, h1⟩ := bind_ok_inv h1
    obtain ⟨hs, hy, hj⟩ := iterCount_inv _ _ _ _ e2
    simp only [Outcome.pure_eq, Outcome.ok.injEq, decide_eq_true_eq] at h1
    refine ⟨hs, ⟨it, e1, hy⟩, by rw [e3, h1, hj]; simp, ?_⟩
    unfold Graph.checkAdjacent at h2
    rw [e1, Outcome.bind_ok] at h2
    obtain ⟨hs', hy', hc'⟩ := iterAll_inv _ _ _ h2
    have := yields_unique _ _ _ hy hy'
    subst this
    intro e he
    have h3 := hc' e he
    unfold Graph.checkPin at h3
    obtain ⟨pit, e4, h3⟩ := bind_ok_inv h3
    exact ⟨pit, e4, visits_inv _ _ _ rfl h3⟩
  · intro t ht
    have h1 := forTypes_inv ec t (by simpa using ht)
    unfold Graph.checkType at h1
    obtain ⟨⟨i, j, k, l⟩, e1, h1⟩ := bind_ok_inv h1
    simp only at h1
    obtain ⟨ne, e2, h1⟩ := bind_ok_inv h1
    obtain ⟨ge, e3, h1⟩ := bind_ok_inv h1
    obtain ⟨np, e4, h1⟩ := bind_ok_inv h1
    obtain ⟨gp, e5, h1⟩ := bind_ok_inv h1
    split at h1
    · simp at h1
    rename_i c1
    split at h1
    · simp at h1
    rename_i c2
    split at h1
    · simp at h1
    rename_i c3
    split at h1
    · simp at h1
    rename_i c4
    obtain ⟨it, e6, h1⟩ := bind_ok_inv h1
    unfold Graph.validCounts at e1
    rw [e6, Outcome.bind_ok] at e1
    obtain ⟨hs, ds, hy, hd, r1, r2⟩ := validCounts_inv _ _ _ _ e1
    obtain ⟨hs', hy', hc'⟩ := iterAll_inv _ _ _ h1
    have := yields_unique _ _ _ hy hy'
    subst this
    simp only [ne_eq, Decidable.not_not] at c1 c2 c3 c4
    simp only [Int.zero_add] at r1 r2
    refine ⟨hs, ds, ⟨it, e6, hy⟩, ?_, by rw [e3, c2], by rw [e5, c4], hd, ⟨np, e4, by omega⟩, ?_⟩
    · rw [e2]; congr 1; omega
    · intro e he
      have h3 := hc' e he
      unfold Graph.checkEdgeDegree at h3
      obtain ⟨pit, e7, h3⟩ := bind_ok_inv h3
      obtain ⟨m, e8, h3⟩ := bind_ok_inv h3
      obtain ⟨d, e9, h3⟩ := bind_ok_inv h3
      obtain ⟨ps, hyp, hm⟩ := iterCount_inv _ _ _ _ e8
      simp only [Outcome.pure_eq, Outcome.ok.injEq, decide_eq_true_eq] at h3
      exact ⟨ps, ⟨pit, e7, hyp⟩, by rw [e9, h3, hm]; simp⟩
  · intro k hk
    have h1 := cg _ (List.mem_map.mpr ⟨k, by simpa using hk, rfl⟩)
    unfold Graph.checkGhost at h1
    obtain ⟨o, e1, h1⟩ := bind_ok_inv h1
    split at h1
    · simp at h1
    split at h1
    · simp at h1
    exact ⟨o, e1, by assumption, by omega⟩

end Verif.Agi
