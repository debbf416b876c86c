import Verif.Part.SplitZoltanModel
import Verif.Part.SplitTrad
import Verif.Part.ZoltanProps
import Verif.Part.MetricsProps
/-!
# Splitting with Zoltan: specification and proof

Specification: `ZoltanOk` is what Zoltan promises about the lists it returns, `ChosenZ` the rank chosen for a vertex.
-/
namespace Verif.Part
open Verif.Agi

/-! ## specification -/

/-- the number of vertices handed over -/
def ZData.count : ZData → Nat
  | .hypergraph v _ _ => v.gids.length
  | .graph v _ => v.gids.length

/-- the lists Zoltan returns on a rank: local ids of vertices the rank handed over, each at most once, and ranks -/
def ZoltanOk (z : ZoltanLib) : Prop :=
  ∀ D n r d, D[r]? = some d → 0 < n →
    (∀ x ∈ z D n r, x.1 < d.count ∧ 0 ≤ x.2 ∧ x.2 < (n : Int)) ∧ ((z D n r).map (·.1)).Nodup

/-- the caller's part: the parts have different ranks in the large communicator -/
structure RanksOk (n m : Nat) (ranks : List Nat) : Prop where
  count : ranks.length = m
  distinct : ranks.Nodup
  ranks_lt : ∀ r ∈ ranks, r < n

/-- `d` is the rank for vertex number `u` of the part with rank `r`: where Zoltan exports it to, or `r` if Zoltan does not
mention it -/
def ChosenZ (n : Nat) (ranks : List Nat) (gs : List Graph) (zid : Gid → Int) (z : ZoltanLib) (r u d : Nat) : Prop :=
  ∃ all D, (List.range n).mapM (onRank n ranks gs) = .ok all ∧ all.mapM (zoltanData (anyHyper all) zid) = .ok D ∧
    ((u, (d : Int)) ∈ z D n r ∨ (u ∉ (z D n r).map (·.1) ∧ d = r))

/-! ## the plan -/

theorem zoltanPlan_rep {g : Graph} {verts : List Gid} (hn : g.numLocal = verts.length) (hnd : verts.Nodup)
    {ex : List (Nat × Part)} (hl : ∀ x ∈ ex, x.1 < verts.length ∧ 0 ≤ x.2) (hx : (ex.map (·.1)).Nodup) :
    ∃ plan s f, zoltanPlan g ex = .ok plan ∧ PlanRep verts plan s f ∧
      ∀ u (hu : u < verts.length), (∀ d, (u, d) ∈ ex → f verts[u] = some d) ∧ (u ∉ ex.map (·.1) → f verts[u] = none) := by
  obtain ⟨p0, e0, h0⟩ := newPlan_rep (g := g) hn
  obtain ⟨plan, e, s, f, h, h'⟩ := foldlM_inv (fun (p : Plan) (x : Nat × Part) => do
      let (p, _) ← g.planInsert p (getVertex x.1) x.2
      return p) (fun pre p => ∃ s f, PlanRep verts p s f ∧ ∀ u (hu : u < verts.length),
        (∀ d, (u, d) ∈ pre → f verts[u] = some d) ∧ (u ∉ pre.map (·.1) → f verts[u] = none)) ex (by
      rintro pre ⟨u, d⟩ p hpre ⟨s, f, hr, hf⟩
      obtain ⟨hu, hd⟩ := hl (u, d) (hpre.subset (by simp))
      change u < verts.length at hu
      change 0 ≤ d at hd
      obtain ⟨p', e, hr'⟩ := planInsert_rep (g := g) hr hn hnd (List.getElem_mem hu) (d := d) (by omega)
      rw [hnd.idxOf_getElem u hu] at e
      have hnew : u ∉ pre.map (·.1) := by
        obtain ⟨suf, hs⟩ := hpre
        rw [← hs, List.map_append, List.map_append] at hx
        have := (List.nodup_append.mp (List.nodup_append.mp hx).1).2.2
        intro hc
        exact this u hc u (by simp) rfl
      refine ⟨p', ?_, _, _, hr', ?_⟩
      · simp only [e, Outcome.bind_ok]; rfl
      · intro w hw
        have hww : verts[w] = verts[u] ↔ w = u := hnd.getElem_inj_iff
        unfold planPut
        constructor
        · intro d' hd'
          simp only [List.mem_append, List.mem_singleton, Prod.mk.injEq] at hd'
          rcases hd' with h | ⟨rfl, rfl⟩
          · have : w ≠ u := by
              rintro rfl
              exact hnew (List.mem_map.mpr ⟨_, h, rfl⟩)
            rw [if_neg (by rw [hww]; exact this)]
            exact (hf w hw).1 d' h
          · rw [if_pos rfl]
        · intro hw'
          simp only [List.map_append, List.map_cons, List.map_nil, List.mem_append, List.mem_singleton, not_or] at hw'
          rw [if_neg (by rw [hww]; exact hw'.2)]
          exact (hf w hw).2 hw'.1) p0 ⟨[], _, h0, fun u hu => ⟨by simp, fun _ => rfl⟩⟩
  refine ⟨plan, s, f, ?_, h, h'⟩
  unfold zoltanPlan
  rw [e0, Outcome.bind_ok]
  exact e

/-! ## the ranks of the large communicator -/

/-- what rank `r` holds when Zoltan is called -/
def rankGraph (n : Nat) (ranks : List Nat) (gr : Nat → Graph) (r : Nat) : Graph :=
  if r ∈ ranks then Graph.switchComm (gr (ranks.idxOf r)) (r : Int) n else emptyGraph (r : Int) n

section
variable {n m : Nat} {ranks : List Nat} {gr : Nat → Graph}

theorem RanksOk.idx (h : RanksOk n m ranks) {r : Nat} (hr : r ∈ ranks) :
    ranks.idxOf r < m ∧ ranks.getD (ranks.idxOf r) 0 = r := by
  have h1 : ranks.idxOf r < ranks.length := List.idxOf_lt_length_of_mem hr
  refine ⟨by rw [h.count] at h1; exact h1, ?_⟩
  rw [getD_rank h1]
  exact List.getElem_idxOf h1

theorem RanksOk.rank (h : RanksOk n m ranks) {p : Nat} (hp : p < m) :
    ranks.getD p 0 ∈ ranks ∧ ranks.getD p 0 < n ∧ ranks.idxOf (ranks.getD p 0) = p := by
  have hp' : p < ranks.length := by rw [h.count]; exact hp
  rw [getD_rank hp']
  exact ⟨List.getElem_mem _, h.ranks_lt _ (List.getElem_mem _), h.distinct.idxOf_getElem p hp'⟩

theorem onRank_all (h : RanksOk n m ranks) :
    (List.range n).mapM (onRank n ranks ((List.range m).map gr)) = .ok ((List.range n).map (rankGraph n ranks gr)) := by
  apply mapM_ok
  intro r hr
  unfold onRank rankGraph
  by_cases hm : r ∈ ranks
  · rw [if_pos hm, if_pos hm, Io.rd_some (x := gr (ranks.idxOf r)) (by simp [(h.idx hm).1])]
    rfl
  · rw [if_neg hm, if_neg hm]

theorem rankGraph_part (h : RanksOk n m ranks) {p : Nat} (hp : p < m) :
    rankGraph n ranks gr (ranks.getD p 0) = Graph.switchComm (gr p) ((ranks.getD p 0 : Nat) : Int) n := by
  obtain ⟨h1, -, h2⟩ := h.rank hp
  unfold rankGraph
  rw [if_pos h1, h2]

/-- when the callbacks succeed on every rank: the plans of the original parts -/
theorem zoltan_plans (h : RanksOk n m ranks) (hn : 0 < n) {V : Nat → List Gid} (hnl : ∀ p, p < m → (gr p).numLocal = (V p).length)
    (hnd : ∀ p, p < m → (V p).Nodup) {zid : Gid → Int} {z : ZoltanLib} (hz : ZoltanOk z) {D : Nat → ZData}
    (hD : ∀ r, r < n → zoltanData (anyHyper ((List.range n).map (rankGraph n ranks gr))) zid (rankGraph n ranks gr r) = .ok (D r))
    (hc : ∀ r, r < n → (D r).count = (rankGraph n ranks gr r).numLocal) (env : MigrateEnv) :
    ∃ (pl : Nat → Plan) (f : Nat → Gid → Option Part),
      splitZoltan n ranks ((List.range m).map gr) zid z env =
        splitApply n ranks ((List.range m).map gr) ((List.range m).map pl) env ∧
      ∀ p, p < m → (∃ s, PlanRep (V p) (pl p) s (f p)) ∧ ∀ u (hu : u < (V p).length),
        0 ≤ ((f p (V p)[u]).getD ((ranks.getD p 0 : Nat) : Int)) ∧ ((f p (V p)[u]).getD ((ranks.getD p 0 : Nat) : Int)) < (n : Int) ∧
        ∀ d : Nat, (d : Int) = (f p (V p)[u]).getD ((ranks.getD p 0 : Nat) : Int) →
          ChosenZ n ranks ((List.range m).map gr) zid z (ranks.getD p 0) u d := by
  set Ds := (List.range n).map D with hDs
  have hA := onRank_all (gr := gr) h
  have hDall : ((List.range n).map (rankGraph n ranks gr)).mapM
      (zoltanData (anyHyper ((List.range n).map (rankGraph n ranks gr))) zid) = .ok Ds := mapM_range hD
  have hzr : ∀ r, r < n → (∀ x ∈ z Ds n r, x.1 < (rankGraph n ranks gr r).numLocal ∧ 0 ≤ x.2 ∧ x.2 < (n : Int)) ∧
      ((z Ds n r).map (·.1)).Nodup := by
    intro r hr
    obtain ⟨a, b⟩ := hz Ds n r (D r) (by simp [hDs, hr]) hn
    refine ⟨fun x hx => ?_, b⟩
    have := a x hx
    rw [hc r hr] at this
    exact this
  have hplan : ∀ r, r < n → ∃ plan, zoltanPlan (rankGraph n ranks gr r) (z Ds n r) = .ok plan := by
    intro r hr
    obtain ⟨a, b⟩ := hzr r hr
    obtain ⟨plan, e, -⟩ := c51_plan (rankGraph n ranks gr r) (z Ds n r) (fun x hx => ⟨(a x hx).1, (a x hx).2.1⟩) b
    exact ⟨plan, e⟩
  haveI : Inhabited Plan := ⟨⟨none, []⟩⟩
  obtain ⟨P, hP⟩ := choose_part hplan
  have hf : ∀ p, p < m → ∃ f : Gid → Option Part, (∃ s, PlanRep (V p) (P (ranks.getD p 0)) s f) ∧ ∀ u (hu : u < (V p).length),
      (∀ d, (u, d) ∈ z Ds n (ranks.getD p 0) → f (V p)[u] = some d) ∧
      (u ∉ (z Ds n (ranks.getD p 0)).map (·.1) → f (V p)[u] = none) := by
    intro p hp
    obtain ⟨h1, h2, h3⟩ := h.rank hp
    obtain ⟨a, b⟩ := hzr _ h2
    have hg := rankGraph_part (gr := gr) h hp
    obtain ⟨plan, s, f, e, hr, hr'⟩ := zoltanPlan_rep (g := rankGraph n ranks gr (ranks.getD p 0)) (verts := V p)
      (by rw [hg]; exact hnl p hp) (hnd p hp) (ex := z Ds n (ranks.getD p 0)) (by
        intro x hx
        have h4 := a x hx
        have h5 : (rankGraph n ranks gr (ranks.getD p 0)).numLocal = (V p).length := by rw [hg]; exact hnl p hp
        exact ⟨by omega, h4.2.1⟩) b
    rw [hP _ h2] at e
    cases e
    exact ⟨f, ⟨s, hr⟩, hr'⟩
  haveI : Inhabited (Gid → Option Part) := ⟨fun _ => none⟩
  obtain ⟨f, hf⟩ := choose_part hf
  refine ⟨fun p => P (ranks.getD p 0), f, ?_, fun p hp => ⟨(hf p hp).1, fun u hu => ?_⟩⟩
  · unfold splitZoltan
    rw [hA, Outcome.bind_ok]
    unfold zoltanAll
    rw [hDall, Outcome.bind_ok, zipIdx_range, mapM_range (G := P) (fun r hr => hP r hr), Outcome.bind_ok]
    have : ranks.mapM (fun r => rd ((List.range n).map P) r) = .ok (ranks.map P) := by
      apply mapM_ok
      intro r hr
      exact Io.rd_some (by simp [h.ranks_lt r hr])
    rw [this, Outcome.bind_ok]
    congr 1
    apply List.ext_getElem
    · simp [h.count]
    · intro k h1 h2
      simp only [List.getElem_map, List.getElem_range]
      rw [getD_rank (by simpa using h1)]
  · obtain ⟨h1, h2⟩ := (hf p hp).2 u hu
    obtain ⟨h3, h4, -⟩ := h.rank hp
    by_cases hu' : u ∈ (z Ds n (ranks.getD p 0)).map (·.1)
    · obtain ⟨⟨u', d⟩, hx, rfl⟩ := List.mem_map.mp hu'
      have := ((hzr _ h4).1 _ hx).2
      rw [h1 d hx]
      simp only at this ⊢
      refine ⟨this.1, this.2, ?_⟩
      intro d' hd'
      refine ⟨_, Ds, hA, hDall, .inl ?_⟩
      simp only [Option.getD_some] at hd'
      rw [hd']; exact hx
    · rw [h2 hu']
      simp only [Option.getD_none]
      refine ⟨by omega, by omega, ?_⟩
      intro d hd
      exact ⟨_, Ds, hA, hDall, .inr ⟨hu', by omega⟩⟩

end

end Verif.Part
