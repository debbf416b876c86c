import Verif.Part.TrimModel
import Verif.Agi.PlanLemmas
import Verif.Agi.IterLemmas
import Verif.Agi.MigList
import Mathlib.Algebra.Order.Ring.Rat
import Mathlib.Algebra.Order.BigOperators.Group.List
import Mathlib.Data.List.Dedup
import Mathlib.Tactic.Linarith
import Mathlib.Tactic.Ring
/-!
# Lemmas on `trim` and `cancel` for one part
-/
namespace Verif.Part
open Verif.Agi

theorem mem_insertSet {α : Type} [DecidableEq α] {s : List α} {e x : α} : x ∈ insertSet s e ↔ x ∈ s ∨ x = e := by
  unfold insertSet
  split
  · rename_i h; constructor
    · exact .inl
    · rintro (h' | rfl)
      · exact h'
      · exact h
  · simp

theorem nodup_insertSet {α : Type} [DecidableEq α] {s : List α} {e : α} (h : s.Nodup) : (insertSet s e).Nodup := by
  unfold insertSet
  split
  · exact h
  · rename_i hn
    rw [List.nodup_append]
    refine ⟨h, by simp, ?_⟩
    intro a ha b hb
    rw [List.mem_singleton] at hb
    subst hb
    rintro rfl
    exact hn ha

theorem mem_foldSet {α : Type} [DecidableEq α] (l : List α) : ∀ (s : List α) (x : α),
    x ∈ l.foldl insertSet s ↔ x ∈ s ∨ x ∈ l := by
  induction l with
  | nil => intro s x; simp
  | cons a l ih =>
    intro s x
    rw [List.foldl_cons, ih, mem_insertSet, List.mem_cons, or_assoc]

theorem nodup_foldSet {α : Type} [DecidableEq α] (l : List α) : ∀ {s : List α}, s.Nodup → (l.foldl insertSet s).Nodup := by
  induction l with
  | nil => intro s h; exact h
  | cons a l ih => intro s h; exact ih (nodup_insertSet h)

/-- what the API answers about the vertices `vs` of a part (`hnd` gives their handles): weights, edges per type,
where the edges reside, edge weights -/
structure Facts (g : Graph) (vs : List Gid) (hnd : Gid → Handle) (dims : List Int) (wt : Gid → Rat)
    (inc : Gid → Nat → List Handle) (res : Handle → Part → Bool) (ew : Handle → Rat) : Prop where
  vweight : ∀ v ∈ vs, g.weight (hnd v) = .ok (wt v)
  edges : ∀ v ∈ vs, ∀ t : Nat, (t : Int) ∈ dims →
    YieldsFrom (g.edges (hnd v) t) g.iterEdge (inc v t) ∧ (inc v t).length < g.bound
  edge : ∀ v ∈ vs, ∀ t : Nat, (t : Int) ∈ dims → ∀ e ∈ inc v t, (∀ d, g.isResidentOn e d = .ok (res e d)) ∧
    g.weightE e = .ok (ew e)
  isdim : ∀ d ∈ dims, -1 ≤ d

/-- the edges of type `t` that the vertices `vs` bring to part `d`: their edges that do not reside there -/
def brought (inc : Gid → Nat → List Handle) (res : Handle → Part → Bool) (t : Nat) (d : Part) (vs : List Gid) :
    List Handle := ((vs.flatMap (fun v => inc v t)).filter (fun e => !res e d)).dedup

theorem nodup_brought (inc : Gid → Nat → List Handle) (res : Handle → Part → Bool) (t : Nat) (d : Part)
    (vs : List Gid) : (brought inc res t d vs).Nodup := List.nodup_dedup _

theorem mem_brought {inc : Gid → Nat → List Handle} {res : Handle → Part → Bool} {t : Nat} {d : Part}
    {vs : List Gid} {e : Handle} : e ∈ brought inc res t d vs ↔ (∃ v ∈ vs, e ∈ inc v t) ∧ res e d = false := by
  unfold brought
  rw [List.mem_dedup, List.mem_filter, List.mem_flatMap]
  simp

/-- the load of dimension `dim` that the vertices `vs` are for part `d` -/
def load (wt : Gid → Rat) (inc : Gid → Nat → List Handle) (res : Handle → Part → Bool) (ew : Handle → Rat)
    (dim : Int) (d : Part) (vs : List Gid) : Rat :=
  if dim = -1 then (vs.map wt).sum else ((brought inc res dim.toNat d vs).map ew).sum

section
variable {g : Graph} {vs : List Gid} {hnd : Gid → Handle} {dims : List Int} {wt : Gid → Rat}
  {inc : Gid → Nat → List Handle} {res : Handle → Part → Bool} {ew : Handle → Rat}

theorem interiorEdges_eq (hf : Facts g vs hnd dims wt inc res ew) {v : Gid} (hv : v ∈ vs) {dim : Int}
    (hd : dim ∈ dims) (hne : dim ≠ -1) (d : Part) (skip s : List Handle) :
    interiorEdges g (hnd v) d dim skip s =
      .ok (((inc v dim.toNat).filter (fun e => decide (e ∉ skip) && !res e d)).foldl insertSet s) := by
  have h0 : 0 ≤ dim := by have := hf.isdim dim hd; omega
  obtain ⟨t, rfl⟩ := Int.eq_ofNat_of_zero_le h0
  obtain ⟨⟨it, e1, hy⟩, hb⟩ := hf.edges v hv t hd
  unfold interiorEdges
  rw [if_neg (by omega)]
  simp only [Int.toNat_natCast]
  rw [e1, Outcome.bind_ok, iterLoop_yields _ _ _ _ _ hy hb]
  have hres := hf.edge v hv t hd
  clear hy hb e1
  generalize hl : inc v t = l at hres ⊢
  clear hl
  induction l generalizing s with
  | nil => rfl
  | cons a l ih =>
    have ih' := fun s => ih s (fun e he => hres e (by simp [he]))
    have hbody : interiorBody g d skip s a =
        .ok (if a ∉ skip ∧ res a d = false then insertSet s a else s, false) := by
      unfold interiorBody
      by_cases hs : a ∈ skip
      · rw [if_pos hs, if_neg (by simp [hs])]
      · rw [if_neg hs, (hres a (by simp)).1 d]
        cases hr : res a d <;> simp [hs]
    rw [loopList, hbody, Outcome.bind_ok]
    simp only [Bool.false_eq_true, if_false]
    rw [ih', List.filter_cons]
    by_cases hc : a ∉ skip ∧ res a d = false
    · rw [if_pos hc, if_pos (by simpa using hc), List.foldl_cons]
    · rw [if_neg hc, if_neg (by simpa using hc)]

theorem setWeight_eq {s : List Handle} (h : ∀ e ∈ s, g.weightE e = .ok (ew e)) :
    setWeight g s = .ok (s.map ew).sum := by
  unfold setWeight
  suffices H : ∀ (s : List Handle) (w : Rat), (∀ e ∈ s, g.weightE e = .ok (ew e)) →
      s.foldlM (fun w e => do let x ← g.weightE e; return w + x) w = Outcome.ok (w + (s.map ew).sum) by
    have := H s 0 h
    rwa [zero_add] at this
  intro s
  induction s with
  | nil => intro w _; simp
  | cons a s ih =>
    intro w h
    rw [List.foldlM_cons, h a (by simp)]
    show List.foldlM (fun w e => do let x ← g.weightE e; return w + x) (w + ew a) s = _
    rw [ih _ (fun e he => h e (by simp [he])), List.map_cons, List.sum_cons]
    congr 1; ring

theorem brought_sum_congr {t : Nat} {d : Part} {us : List Gid} {s : List Handle} (hn : s.Nodup)
    (hm : ∀ e, e ∈ s ↔ (∃ v ∈ us, e ∈ inc v t) ∧ res e d = false) :
    (s.map ew).sum = ((brought inc res t d us).map ew).sum := by
  apply List.Perm.sum_eq
  apply List.Perm.map
  rw [List.perm_ext_iff_of_nodup hn (nodup_brought _ _ _ _ _)]
  intro e
  rw [hm, mem_brought]

/-- after the vertices `pre` have been counted (`f` gives the destinations) -/
structure SumsAre (dims : List Int) (wt : Gid → Rat) (inc : Gid → Nat → List Handle)
    (res : Handle → Part → Bool) (f : Gid → Part) (pre : List Gid) (st : Sums) : Prop where
  len : st.edges.length = dims.length
  vtx : ∀ d, st.vtx d = dims.count (-1) * ((pre.filter (fun v => f v = d)).map wt).sum
  nodup : ∀ i (h : i < st.edges.length) d, (st.edges[i] d).Nodup
  mem : ∀ i (h : i < st.edges.length) (h' : i < dims.length), dims[i] ≠ -1 → ∀ d e,
    e ∈ st.edges[i] d ↔ (∃ v ∈ pre.filter (fun v => f v = d), e ∈ inc v dims[i].toNat) ∧ res e d = false

theorem new_edges {n i : Nat} (h : i < (Sums.new n).edges.length) : (Sums.new n).edges[i] = fun _ => [] :=
  List.getElem_replicate h

theorem SumsAre.new (f : Gid → Part) : SumsAre dims wt inc res f [] (Sums.new dims.length) := by
  refine ⟨by simp [Sums.new], ?_, ?_, ?_⟩
  · intro d; simp [Sums.new]
  · intro i h d; rw [new_edges h]; exact List.nodup_nil
  · intro i h h' hne d e; rw [new_edges h]; simp

/-- the state half way through the dimensions of a vertex -/
structure SumsMid (dims : List Int) (wt : Gid → Rat) (inc : Gid → Nat → List Handle)
    (res : Handle → Part → Bool) (f : Gid → Part) (pre : List Gid) (v : Gid) (k : Nat) (st : Sums) : Prop where
  len : st.edges.length = dims.length
  vtx : ∀ d, st.vtx d = dims.count (-1) * ((pre.filter (fun v => f v = d)).map wt).sum +
    if d = f v then ((dims.take k).count (-1) : Rat) * wt v else 0
  nodup : ∀ i (h : i < st.edges.length) d, (st.edges[i] d).Nodup
  memL : ∀ i (h : i < st.edges.length) (h' : i < dims.length), dims[i] ≠ -1 → i < k → ∀ d e,
    e ∈ st.edges[i] d ↔ (∃ u ∈ (pre ++ [v]).filter (fun v => f v = d), e ∈ inc u dims[i].toNat) ∧ res e d = false
  memR : ∀ i (h : i < st.edges.length) (h' : i < dims.length), dims[i] ≠ -1 → k ≤ i → ∀ d e,
    e ∈ st.edges[i] d ↔ (∃ u ∈ pre.filter (fun v => f v = d), e ∈ inc u dims[i].toNat) ∧ res e d = false

theorem SumsMid.start {f : Gid → Part} {pre : List Gid} {v : Gid} {st : Sums}
    (h : SumsAre dims wt inc res f pre st) : SumsMid dims wt inc res f pre v 0 st :=
  ⟨h.len, fun d => by rw [h.vtx d]; simp, h.nodup, fun i h1 h2 h3 h4 => by omega, fun i h1 h2 h3 _ => h.mem i h1 h2 h3⟩

theorem SumsMid.finish {f : Gid → Part} {pre : List Gid} {v : Gid} {st : Sums}
    (h : SumsMid dims wt inc res f pre v dims.length st) : SumsAre dims wt inc res f (pre ++ [v]) st := by
  refine ⟨h.len, ?_, h.nodup, fun i h1 h2 h3 => h.memL i h1 h2 h3 h2⟩
  intro d
  rw [h.vtx d, List.take_length, List.filter_append, List.map_append, List.sum_append]
  by_cases hd : f v = d
  · subst hd; simp; ring
  · rw [if_neg (fun e => hd e.symm)]; simp [hd]

theorem count_take_succ {l : List Int} {k : Nat} (h : k < l.length) (a : Int) :
    (l.take (k + 1)).count a = (l.take k).count a + if l[k] = a then 1 else 0 := by
  rw [List.take_succ_eq_append_getElem h, List.count_append]
  by_cases hk : l[k] = a <;> simp [hk]

/-- an edge set updated with the edges of `v` -/
theorem SumsMid.stepE {f : Gid → Part} {pre : List Gid} {v : Gid} {st : Sums} {k : Nat} (hk : k < dims.length)
    (hne : dims[k] ≠ -1) (h : SumsMid dims wt inc res f pre v k st) (hk' : k < st.edges.length) {s : List Handle}
    (hs : s.Nodup) (hm : ∀ e, e ∈ s ↔ e ∈ st.edges[k] (f v) ∨ (e ∈ inc v dims[k].toNat ∧ res e (f v) = false)) :
    SumsMid dims wt inc res f pre v (k + 1) ⟨st.vtx, st.edges.set k (setAt st.edges[k] (f v) s)⟩ := by
  refine ⟨by simpa using h.len, ?_, ?_, ?_, ?_⟩
  · intro d
    rw [count_take_succ hk, if_neg hne, Nat.add_zero]
    exact h.vtx d
  · intro i hi d
    simp only [List.getElem_set]
    split
    · unfold setAt
      split
      · exact hs
      · exact h.nodup k hk' d
    · exact h.nodup i (by simpa using hi) d
  · intro i hi hi' hnei hik d e
    simp only [List.getElem_set]
    split
    · rename_i hki
      subst hki
      have hR := h.memR k hk' hk hne (Nat.le_refl _) d e
      unfold setAt
      split
      · rename_i hd
        subst hd
        rw [hm e, hR]
        constructor
        · rintro (⟨⟨u, hu, he⟩, hr⟩ | ⟨he, hr⟩)
          · exact ⟨⟨u, by rw [List.filter_append]; exact List.mem_append_left _ hu, he⟩, hr⟩
          · exact ⟨⟨v, by simp, he⟩, hr⟩
        · rintro ⟨⟨u, hu, he⟩, hr⟩
          rw [List.filter_append, List.mem_append] at hu
          rcases hu with hu | hu
          · exact .inl ⟨⟨u, hu, he⟩, hr⟩
          · have : u = v := by simp at hu; exact hu
            subst this; exact .inr ⟨he, hr⟩
      · rename_i hd
        rw [hR, List.filter_append]
        have : ([v].filter (fun v => f v = d)) = [] := by simp; exact fun e => hd e.symm
        rw [this, List.append_nil]
    · rename_i hki
      exact h.memL i (by simpa using hi) hi' hnei (by omega) d e
  · intro i hi hi' hnei hik d e
    simp only [List.getElem_set]
    rw [if_neg (by omega)]
    exact h.memR i (by simpa using hi) hi' hnei (by omega) d e

theorem SumsMid.stepV {f : Gid → Part} {pre : List Gid} {v : Gid} {st : Sums} {k : Nat} (hk : k < dims.length)
    (hne : dims[k] = -1) (h : SumsMid dims wt inc res f pre v k st) :
    SumsMid dims wt inc res f pre v (k + 1) ⟨setAt st.vtx (f v) (st.vtx (f v) + wt v), st.edges⟩ := by
  refine ⟨h.len, ?_, h.nodup, ?_, ?_⟩
  · intro d
    rw [count_take_succ hk, if_pos hne]
    unfold setAt
    by_cases hd : d = f v
    · subst hd
      simp only [if_true]
      rw [h.vtx (f v)]
      simp only [if_true]
      push_cast
      ring
    · have := h.vtx d
      simp only [if_neg hd] at this ⊢
      exact this
  · intro i hi hi' hnei hik d e
    refine h.memL i hi hi' hnei ?_ d e
    rcases Nat.lt_or_ge i k with h' | h'
    · exact h'
    · have : i = k := by omega
      subst this; exact absurd hne hnei
  · intro i hi hi' hnei hik d e
    exact h.memR i hi hi' hnei (by omega) d e

theorem rangeM_inv {σ : Type} (f : σ → Nat → Outcome σ) (I : Nat → σ → Prop) (n : Nat)
    (hstep : ∀ k s, k < n → I k s → ∃ s', f s k = .ok s' ∧ I (k + 1) s')
    (s : σ) (h0 : I 0 s) : ∃ s', (List.range n).foldlM f s = .ok s' ∧ I n s' := by
  rw [List.range_eq_range']
  exact range_inv f I 0 n (fun k s hk hI => by rw [Nat.zero_add]; exact hstep k s hk hI) s h0

theorem planDims_spec (hf : Facts g vs hnd dims wt inc res ew) {f : Gid → Part} {pre : List Gid} {v : Gid}
    (hv : v ∈ vs) {st : Sums} (h : SumsAre dims wt inc res f pre st) :
    ∃ st', (List.range dims.length).foldlM (planDim g dims (hnd v) (f v)) st = .ok st' ∧
      SumsAre dims wt inc res f (pre ++ [v]) st' := by
  obtain ⟨st', e, h'⟩ := rangeM_inv (planDim g dims (hnd v) (f v)) (SumsMid dims wt inc res f pre v) dims.length
    (by
      intro k s hk hI
      unfold planDim
      rw [rd_ok hk, Outcome.bind_ok]
      have hk' : k < s.edges.length := by rw [hI.len]; exact hk
      by_cases hne : dims[k] = -1
      · rw [if_neg (by simpa using hne), hf.vweight v hv, Outcome.bind_ok]
        exact ⟨_, rfl, hI.stepV hk hne⟩
      · rw [if_pos (by simpa using hne), rd_ok hk', Outcome.bind_ok,
          interiorEdges_eq hf hv (List.getElem_mem hk) hne, Outcome.bind_ok]
        refine ⟨_, rfl, hI.stepE hk hne hk' (nodup_foldSet _ (hI.nodup k hk' _)) ?_⟩
        intro e
        rw [mem_foldSet, List.mem_filter]
        simp)
    st (SumsMid.start h)
  exact ⟨st', e, h'.finish⟩

/-- the weight of a set of edges of vertices of the part -/
theorem sums_weight (hf : Facts g vs hnd dims wt inc res ew) {f : Gid → Part} {pre : List Gid}
    (hpre : ∀ v ∈ pre, v ∈ vs) {st : Sums} (h : SumsAre dims wt inc res f pre st) {i : Nat} (hi : i < dims.length)
    (hne : dims[i] ≠ -1) (hi' : i < st.edges.length) (d : Part) :
    setWeight g (st.edges[i] d) =
      .ok (load wt inc res ew dims[i] d (pre.filter (fun v => f v = d))) := by
  have h0 : 0 ≤ dims[i] := by have := hf.isdim _ (List.getElem_mem hi); omega
  have hm : ((dims[i].toNat : Nat) : Int) ∈ dims := by rw [Int.toNat_of_nonneg h0]; exact List.getElem_mem hi
  rw [setWeight_eq (ew := ew)]
  · rw [load, if_neg hne, brought_sum_congr (h.nodup i hi' d) (h.mem i hi' hi hne d)]
  · intro e he
    obtain ⟨⟨v, hv, hv'⟩, -⟩ := (h.mem i hi' hi hne d e).mp he
    exact (hf.edge v (hpre v (List.mem_filter.mp hv).1) _ hm e hv').2

/-- what is offered to part `d` for the vertices `us` going there -/
def offer (dims : List Int) (wt : Gid → Rat) (inc : Gid → Nat → List Handle) (res : Handle → Part → Bool)
    (ew : Handle → Rat) (d : Part) (us : List Gid) : List Rat :=
  dims.map (fun dim => (if dim = -1 then (dims.count (-1) : Rat) else 1) * load wt inc res ew dim d us)

theorem offers_spec (hf : Facts g vs hnd dims wt inc res ew) {f : Gid → Part} {plan : Plan} {s : List Gid}
    (hs : ∀ v ∈ s, v ∈ vs) (hsend : plan.sending = s.map hnd) (hget : ∀ v ∈ s, g.planGet plan (hnd v) = .ok (f v)) :
    ∃ nbrs : List Part, nbrs.Nodup ∧ (∀ d, d ∈ nbrs ↔ ∃ v ∈ s, f v = d) ∧
      offers g dims plan =
        .ok (nbrs.map (fun d => (d, offer dims wt inc res ew d (s.filter (fun v => f v = d))))) := by
  obtain ⟨⟨st, nbrs⟩, e, ⟨hS, hN, hM⟩⟩ := foldlM_inv (fun x v => planVtx g dims plan x (hnd v))
    (fun pre x => SumsAre dims wt inc res f pre x.1 ∧ x.2.Nodup ∧ ∀ d, d ∈ x.2 ↔ ∃ v ∈ pre, f v = d) s
    (by
      rintro pre v ⟨st, nb⟩ hp ⟨h1, h2, h3⟩
      have hv : v ∈ s := hp.subset (by simp)
      obtain ⟨st', e, h'⟩ := planDims_spec hf (hs v hv) h1
      unfold planVtx
      rw [hget v hv, Outcome.bind_ok]
      simp only
      rw [e]
      refine ⟨_, rfl, h', nodup_insertSet h2, ?_⟩
      intro d
      simp only [mem_insertSet, h3, List.mem_append, List.mem_singleton]
      constructor
      · rintro (⟨u, hu, e⟩ | rfl)
        · exact ⟨u, .inl hu, e⟩
        · exact ⟨v, .inr rfl, rfl⟩
      · rintro ⟨u, hu | rfl, e'⟩
        · exact .inl ⟨u, hu, e'⟩
        · exact .inr e'.symm)
    (Sums.new dims.length, []) ⟨SumsAre.new f, List.nodup_nil, by simp⟩
  refine ⟨nbrs, hN, hM, ?_⟩
  unfold offers planWeights
  rw [hsend, List.foldlM_map, e, Outcome.bind_ok]
  simp only at hS ⊢
  apply mapM_ok
  intro d _
  have : (List.range dims.length).mapM (offerDim g dims st d) =
      .ok ((List.range dims.length).map (fun i => (if dims.getD i 0 = -1 then (dims.count (-1) : Rat) else 1) *
        load wt inc res ew (dims.getD i 0) d (s.filter (fun v => f v = d)))) := by
    apply mapM_ok
    intro i hi
    have hi := List.mem_range.mp hi
    unfold offerDim
    have hg : dims.getD i 0 = dims[i] := by rw [List.getD_eq_getElem?_getD, List.getElem?_eq_getElem hi]; rfl
    rw [rd_ok hi, Outcome.bind_ok, hg]
    have hi' : i < st.edges.length := by rw [hS.len]; exact hi
    by_cases hne : dims[i] = -1
    · rw [if_neg (by simpa using hne), if_pos hne, hne, load, if_pos rfl, hS.vtx d]; rfl
    · rw [if_pos (by simpa using hne), rd_ok hi', Outcome.bind_ok, if_neg hne, one_mul]
      exact sums_weight hf hs hS hi hne hi' d
  rw [this, Outcome.bind_ok]
  simp only [Outcome.pure_eq]
  congr 2
  unfold offer
  apply List.ext_getElem
  · simp
  · intro k h1 h2
    have hk : k < dims.length := by simpa using h1
    have hg : dims.getD k 0 = dims[k] := by rw [List.getD_eq_getElem?_getD, List.getElem?_eq_getElem hk]; rfl
    simp only [List.getElem_map, List.getElem_range, hg]

end
end Verif.Part
