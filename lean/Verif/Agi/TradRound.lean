import Verif.Agi.TradMig
import Verif.Io.BinCsr
/-!
# Migration of traditional graphs: one round
-/
namespace Verif.Agi
open Verif.Io (grouped grouped_perm grouped_length sum_range_indicator)

/-- an edge is lost when its source stays and its destination, on the same part before, leaves -/
def Lost (own own' : Gid → Nat) (x : List Gid) : Prop :=
  own' (src x) = own (src x) ∧ own (dst x) = own (src x) ∧ own' (dst x) ≠ own (dst x)

instance (own own' : Gid → Nat) (x : List Gid) : Decidable (Lost own own' x) := by unfold Lost; infer_instance

/-- the edges join two different vertices of the graph -/
def ArcsIn (vs : List Gid) (T : List (List Gid)) : Prop := ∀ x ∈ T, ∃ u ∈ vs, ∃ w ∈ vs, u ≠ w ∧ x = [u, w]

/-- the edges of one part -/
structure TPart (T : List (List Gid)) (own : Gid → Nat) (p : Nat) (g : Graph) (V ghosts ids : List Gid)
    (es : List (List Gid)) (wgts : List Wgt) : Prop where
  rep : CRep g false V ghosts [⟨ids, es, wgts⟩]
  perm : es.Perm (T.filter (fun x => decide (own (src x) = p)))

section
variable {n : Nat} {D : VD} {own own' : Gid → Nat} {T : List (List Gid)}

theorem TPart.arcs {p : Nat} {g : Graph} {V ghosts ids : List Gid} {es : List (List Gid)} {wgts : List Wgt}
    (h : TPart T own p g V ghosts ids es wgts) (hT : ArcsIn D.verts T) (hl : LRep D own p g V) : ArcsOn V es := by
  intro x hx
  obtain ⟨hx1, hx2⟩ := List.mem_filter.mp (h.perm.mem_iff.mp hx)
  obtain ⟨u, hu, w, -, hne, rfl⟩ := hT x hx1
  exact ⟨u, (hl.mem u).mpr ⟨hu, of_decide_eq_true hx2⟩, w, hne, rfl⟩

theorem arcsOn_arcs {p : Nat} {g : Graph} {V : List Gid} {es : List (List Gid)} (hl : LRep D own p g V)
    (hT : ArcsIn D.verts T) (hp : es.Perm (T.filter (fun x => decide (own (src x) = p)))) : ArcsOn V es := by
  intro x hx
  obtain ⟨hx1, hx2⟩ := List.mem_filter.mp (hp.mem_iff.mp hx)
  obtain ⟨u, hu, w, -, hne, rfl⟩ := hT x hx1
  exact ⟨u, (hl.mem u).mpr ⟨hu, of_decide_eq_true hx2⟩, w, hne, rfl⟩

theorem count_filter_if (P : List Gid → Bool) (l : List (List Gid)) (x : List Gid) :
    (l.filter P).count x = if P x then l.count x else 0 := by
  split
  · rename_i h; exact List.count_filter h
  · rename_i h
    rw [List.count_eq_zero]
    intro hc
    exact h (List.mem_filter.mp hc).2

theorem sum_ind (n k m : Nat) (h : k < n) : ((List.range n).map (fun u => (if k = u then 1 else 0) * m)).sum = m := by
  have key : ∀ l : List Nat, (l.map (fun u => (if k = u then 1 else 0) * m)).sum = (l.map (fun u => if k = u then 1 else 0)).sum * m := by
    intro l
    induction l with
    | nil => simp
    | cons a l ih => rw [List.map_cons, List.sum_cons, ih, List.map_cons, List.sum_cons, Nat.add_mul]
  rw [key, sum_range_indicator n k h, Nat.one_mul]

/-- the pins of the messages a part gets -/
theorem inbox_pins {O : Nat → List (Part × EMsg)} {A : Nat → List (List Gid)} {P : Nat → List Gid → Bool}
    (hO : ∀ p, p < n → ((O p).map (fun m => (m.1, m.2.pins))).Perm (((A p).filter (P p)).map (fun x => ((own' (src x) : Int), x))))
    {ord : Nat → List Nat} (ho : Orders n ord) {q : Nat} (hq : q < n) :
    ((inbox ((List.range n).map O) (ord q) q).map (fun m => m.2.pins)).Perm
      ((List.range n).flatMap (fun p => (A p).filter (fun x => P p x && decide (own' (src x) = q)))) := by
  unfold inbox
  rw [List.map_flatMap]
  refine ((ho q hq).flatMap_right _).trans ?_
  refine List.Perm.flatMap_left _ (fun p hp => ?_)
  have hp' := List.mem_range.mp hp
  rw [getD_range _ hp', List.map_map]
  have h1 := ((hO p hp').filter (fun m => decide (m.1 = (q : Int)))).map Prod.snd
  rw [List.filter_map, List.map_map, List.filter_map, List.map_map] at h1
  refine List.Perm.trans ?_ (h1.trans ?_)
  · exact List.Perm.refl _
  · rw [List.filter_filter]
    have : (Prod.snd ∘ fun x : List Gid => ((own' (src x) : Int), x)) = id := rfl
    rw [this, List.map_id]
    apply List.Perm.of_eq
    apply List.filter_congr
    intro x _
    simp only [Function.comp]
    rw [Bool.and_comm]
    congr 1
    have : ((own' (src x) : Int) = (q : Int)) ↔ own' (src x) = q := by omega
    simp only [this]

/-- **one migration of a traditional graph, if it returns** -/
theorem round_trad (hn : 0 < n) (hnd : D.verts.Nodup) (hown : ∀ v ∈ D.verts, own v < n)
    (hown' : ∀ v ∈ D.verts, own' v < n) (hT : ArcsIn D.verts T) {gr : Nat → Graph} {V : Nat → List Gid}
    (hl : ∀ p, p < n → LRep D own p (gr p) (V p))
    (ht : ∀ p, p < n → ∃ ghosts ids es wgts, TPart T own p (gr p) (V p) ghosts ids es wgts) {pl : Nat → Plan}
    (hpl : ∀ p, p < n → ∃ s f, PlanRep (V p) (pl p) s f ∧ ∀ v ∈ V p, (own' v : Int) = (f v).getD p)
    {env : MigrateEnv} (henv : EnvOk n D.co.isSome env) {gs : List Graph}
    (h : migrate ((List.range n).map gr) ((List.range n).map pl) env = .ok gs) :
    ∃ (gr' : Nat → Graph) (V' : Nat → List Gid), gs = (List.range n).map gr' ∧
      (∀ p, p < n → LRep D own' p (gr' p) (V' p)) ∧
      ∀ p, p < n → ∃ ghosts ids es wgts,
        TPart (T.filter (fun x => decide (¬ Lost own own' x))) own' p (gr' p) (V' p) ghosts ids es wgts := by
  have ht' : ∀ p, p < n → ∃ r : List Gid × List Gid × List (List Gid) × List Wgt,
      TPart T own p (gr p) (V p) r.1 r.2.1 r.2.2.1 r.2.2.2 := by
    intro p hp
    obtain ⟨a, b, c, d, h⟩ := ht p hp
    exact ⟨(a, b, c, d), h⟩
  obtain ⟨R, hR⟩ := choose_part ht'
  have hhy : ((List.range n).map gr).any (fun g => g.isHyper) = false := by
    rw [List.any_eq_false]
    intro g hg
    obtain ⟨p, hp, rfl⟩ := List.mem_map.mp hg
    rw [(hR p (List.mem_range.mp hp)).rep.hyp]; simp
  have hnt : ((List.range n).map gr).foldl (fun m g => max m g.numTypes) 0 = 1 := by
    obtain ⟨-, h2, h3⟩ := foldl_max Graph.numTypes ((List.range n).map gr) 0
    have a := h2 (gr 0) (List.mem_map.mpr ⟨_, List.mem_range.mpr hn, rfl⟩)
    have b := h3 1 (by omega) (by
      intro g hg
      obtain ⟨p, hp, rfl⟩ := List.mem_map.mp hg
      rw [(hR p (List.mem_range.mp hp)).rep.numTypes]; simp)
    rw [(hR 0 hn).rep.numTypes] at a
    simp only [List.length_cons, List.length_nil] at a
    omega
  obtain ⟨gr1, pl1, S, W, st, st2, gr2, gr3, gr4, rfl, tr⟩ := migrate_inv hn hnd hown hown' hl hpl henv h
  rw [hhy, hnt] at tr
  refine ⟨gr4, W, rfl, tr.loc4, ?_⟩
  -- the edges of the parts before
  have hc1 : ∀ p, p < n → CRep (gr1 p) false (V p) (R p).1 [⟨(R p).2.1, (R p).2.2.1, (R p).2.2.2⟩] := by
    intro p hp
    apply tr.keep1 p hp
    have c := (hR p hp).rep
    have : ({ gr p with isHyper := false } : Graph) = gr p := by
      have := c.hyp
      generalize gr p = g at this
      cases g
      simp only at this
      subst this
      rfl
    rw [this]
    exact c
  have hon : ∀ p, p < n → ArcsOn (V p) (R p).2.2.1 := fun p hp => arcsOn_arcs (hl p hp) hT (hR p hp).perm
  have hgp : ∀ p, p < n → (grouped (V p) (R p).2.2.1).Perm (T.filter (fun x => decide (own (src x) = p))) := fun p hp =>
    (grouped_perm (hl p hp).nodup (hon p hp)).trans (hR p hp).perm
  -- kept
  have hst : ∀ p, p < n → ∃ a, st p = ([a], a.ghosts) ∧
      EOk a ((grouped (V p) (R p).2.2.1).filter (fun x => decide (¬ ∃ v ∈ x, v ∈ S p))) := by
    intro p hp
    have e := tr.stay p hp
    unfold Graph.keepAllEdges at e
    rw [show List.range 1 = [0] from rfl, List.foldlM_cons] at e
    obtain ⟨x, e1, e2⟩ := bind_ok_iff.mp e
    obtain ⟨a, e3, e4⟩ := bind_ok_iff.mp e1
    have := Outcome.ok.inj e4
    subst this
    have := Outcome.ok.inj e2
    exact ⟨a, this.symm, keepEdges_trad (hc1 p hp) (hon p hp) (tr.plan p hp) e3⟩
  -- sent and received
  have hst2 : ∀ p, p < n → ∃ a L, (st2 p).1 = [a] ∧ EOk a L ∧
      L.Perm ((grouped (V p) (R p).2.2.1).filter (fun x => decide (¬ ∃ v ∈ x, v ∈ S p)) ++
        (List.range n).flatMap (fun q => (grouped (V q) (R q).2.2.1).filter
          (fun x => decide (src x ∈ S q) && decide (own' (src x) = p)))) := by
    have e := tr.edges
    rw [show List.range 1 = [0] from rfl, List.foldlM_cons] at e
    obtain ⟨x, e1, e2⟩ := bind_ok_iff.mp e
    have := Outcome.ok.inj e2
    subst this
    unfold migrateEdges at e1
    obtain ⟨out, hout, e1⟩ := bind_ok_iff.mp e1
    rw [zipIdx_range, zip_range, zip_range] at hout
    obtain ⟨O, rfl, hO⟩ := mapM_range_inv hout
    obtain ⟨inb, hin, e1⟩ := bind_ok_iff.mp e1
    have := exchange_inv hin
    subst this
    rw [zip_range, zip_range] at e1
    obtain ⟨S', he, hS'⟩ := mapM_range_inv e1
    intro p hp
    have hsp : st2 p = S' p := by
      have := congrArg (fun l => l[p]?) he
      simpa [hp] using this
    have e3 := hS' p hp
    simp only at e3
    obtain ⟨a, ha, hk⟩ := hst p hp
    rw [ha] at e3
    simp only at e3
    obtain ⟨a', ha', e3⟩ := bind_ok_iff.mp e3
    rw [rd_ok (by simp)] at ha'
    have := Outcome.ok.inj ha'
    simp only [List.getElem_cons_zero] at this
    subst this
    have := Outcome.ok.inj e3
    rw [hsp, ← this]
    have hk' : EOk { a with ghosts := a.ghosts } ((grouped (V p) (R p).2.2.1).filter (fun x => decide (¬ ∃ v ∈ x, v ∈ S p))) :=
      ⟨hk.pins, hk.degs, hk.ids, hk.wgts⟩
    refine ⟨_, _, rfl, recv_trad (gr1 p).self (inbox ((List.range n).map O) (env.edges 0 p) p) hk', ?_⟩
    refine List.Perm.append_left _ ?_
    refine inbox_pins (A := fun q => grouped (V q) (R q).2.2.1) (P := fun q x => decide (src x ∈ S q)) ?_ (henv.edges 0) hp
    intro q hq
    have e4 := hO q hq
    simp only at e4
    have hlt : 0 < (gr1 q).numTypes := by rw [(hc1 q hq).numTypes]; simp
    rw [if_pos hlt] at e4
    exact sent_trad (hc1 q hq) (hon q hq) (tr.plan q hq) (sh := env.shuffle q 0) (fun l => henv.shuffle q 0 l) e4
  -- rebuilt
  intro p hp
  obtain ⟨a, L, ha, hL, hLp⟩ := hst2 p hp
  have hin : ∀ x ∈ L, x ∈ T := by
    intro x hx
    rcases List.mem_append.mp (hLp.mem_iff.mp hx) with h1 | h1
    · exact (List.mem_filter.mp ((hgp p hp).mem_iff.mp (List.mem_filter.mp h1).1)).1
    · obtain ⟨q, hq, h1⟩ := List.mem_flatMap.mp h1
      exact (List.mem_filter.mp ((hgp q (List.mem_range.mp hq)).mem_iff.mp (List.mem_filter.mp h1).1)).1
  have e5 := tr.rebuilt p hp
  rw [ha] at e5
  obtain ⟨ghosts, ids, wgts, c2⟩ := rebuild_trad (tr.nodup p hp) hL (by
    intro x hx
    obtain ⟨u, -, w, -, -, rfl⟩ := hT x (hin x hx)
    rfl) e5
  have c3 := tr.ghosts p hp c2
  have c4 : CRep (gr4 p) false (W p) ghosts [⟨ids, L, wgts⟩] := by
    rw [tr.last p hp]
    exact keepsC_with (gr3 p) (gr3 p).owners (gr3 p).ghostWeights (gr4 p).originalOwners (gr3 p).coords c3
  refine ⟨ghosts, ids, L, wgts, c4, hLp.trans ?_⟩
  -- count
  have hSm : ∀ q, q < n → ∀ v, v ∈ S q ↔ (v ∈ D.verts ∧ own v = q) ∧ own' v ≠ q := by
    intro q hq v
    obtain ⟨f, -, -, hs⟩ := tr.plan q hq
    rw [hs, (hl q hq).mem]
  rw [List.perm_iff_count]
  intro x
  rw [List.count_append, List.count_flatMap, List.filter_filter]
  have hcnt : ∀ q, q < n → (grouped (V q) (R q).2.2.1).count x = if own (src x) = q then T.count x else 0 := by
    intro q hq
    rw [(hgp q hq).count_eq, count_filter_if]
    simp only [decide_eq_true_eq]
  by_cases hxT : x ∈ T
  swap
  · have h0 : T.count x = 0 := List.count_eq_zero.mpr hxT
    rw [count_filter_if, count_filter_if, hcnt p hp, h0]
    simp only [ite_self, Nat.zero_add]
    rw [List.sum_eq_zero]
    intro k hk
    obtain ⟨q, hq, rfl⟩ := List.mem_map.mp hk
    simp only [Function.comp]
    rw [count_filter_if, hcnt q (List.mem_range.mp hq), h0]
    simp
  obtain ⟨u, hu, w, hw, hne, rfl⟩ := hT x hxT
  have hsu : src [u, w] = u := rfl
  have hdw : dst [u, w] = w := rfl
  have hun := hown u hu
  have hterm : (List.range n).map (List.count [u, w] ∘ fun q => (grouped (V q) (R q).2.2.1).filter
        (fun x => decide (src x ∈ S q) && decide (own' (src x) = p))) =
      (List.range n).map (fun q => (if own u = q then 1 else 0) * (if own' u ≠ own u ∧ own' u = p then T.count [u, w] else 0)) := by
    apply List.map_congr_left
    intro q hq
    have hq' := List.mem_range.mp hq
    simp only [Function.comp]
    rw [count_filter_if, hcnt q hq', hsu]
    by_cases hoq : own u = q
    · subst hoq
      simp only [Bool.and_eq_true, decide_eq_true_eq, hSm _ hq', hu, true_and, if_true, Nat.one_mul]
    · simp [hoq]
  rw [hterm, sum_ind n (own u) _ hun, count_filter_if, count_filter_if, hcnt p hp]
  simp only [Lost, hsu, hdw, Bool.and_eq_true, decide_eq_true_eq]
  have hex : (∃ v ∈ ([u, w] : List Gid), v ∈ S p) ↔ (own u = p ∧ own' u ≠ p) ∨ (own w = p ∧ own' w ≠ p) := by
    simp only [List.mem_cons, List.not_mem_nil, or_false, exists_eq_or_imp, exists_eq_left, hSm p hp, hu, hw, true_and]
  simp only [hex]
  have key : ∀ a b c d m : Nat, ((if ¬ ((a = p ∧ b ≠ p) ∨ (c = p ∧ d ≠ p)) then if a = p then m else 0 else 0) +
      if b ≠ a ∧ b = p then m else 0) = if b = p ∧ ¬ (b = a ∧ c = a ∧ d ≠ c) then m else 0 := by
    intro a b c d m
    split_ifs <;> omega
  exact key (own u) (own' u) (own w) (own' w) _

end
end Verif.Agi
