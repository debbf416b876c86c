import Verif.Part.QueueLemmas
import Verif.Part.SidesProps
import Verif.Agi.MigList
import Mathlib.Tactic.Conv
/-!
# C42: the boundary queue holds exactly the part-boundary edges, in index order; sweeping loses nothing
-/
namespace Verif.Part
open Verif.Agi

/-- what a user of the queue sees after `startIteration`: these elements, in this order -/
def Shows (q : Queue) (l : List Handle) : Prop :=
  q.start.size = l.length ∧ ∀ k (h : k < l.length), q.start.get k = .ok l[k]

theorem QRep.shows {q : Queue} {cap : Nat} {C N : List Handle} (h : QRep q cap C N) : Shows q N :=
  ⟨h.start.size, fun _ hk => h.start.get hk⟩

/-- the edges of the list `es` (in index order, `edge k` being the handle of the `k`-th) that have a pin owned by a part
other than `me` -/
def boundaryEdges (edge : Nat → Handle) (me : Part) (own : Gid → Part) (es : List (List Gid)) : List Handle :=
  ((List.range es.length).filter (fun k => decide (∃ v ∈ es.getD k [], own v ≠ me))).map edge

theorem boundary_filter {g : Graph} {own : Gid → Part} {es : List (List Gid)} {t : Nat}
    (h : ∀ k (hk : k < es.length), onBoundary g (g.getEdge k t) = .ok (decide (Crosses g.self own es[k])))
    (ht : t < g.numTypes) : ∃ P : Handle → Bool,
      (∀ e ∈ (List.range es.length).map (fun k => g.getEdge k t), onBoundary g e = .ok (P e)) ∧
      ((List.range es.length).map (fun k => g.getEdge k t)).filter P =
        boundaryEdges (fun k => g.getEdge k t) g.self own es := by
  refine ⟨fun e => match onBoundary g e with | .ok b => b | _ => false, ?_, ?_⟩
  · intro e he
    obtain ⟨k, hk, rfl⟩ := List.mem_map.mp he
    rw [List.mem_range] at hk
    simp only [h k hk]
  · unfold boundaryEdges
    rw [List.filter_map]
    congr 1
    apply List.filter_congr
    intro k hk
    rw [List.mem_range] at hk
    simp only [Function.comp, h k hk]
    rw [List.getD_eq_getElem?_getD, List.getElem?_eq_getElem hk]
    rfl

/-- **C42**, hypergraphs: after construction, with the ghost owners set, the queue shows exactly the edges of type 0
that have a pin owned by another part, each once, in index order. -/
theorem c42_boundary_queue_hyper (me : Part) (peers : Nat) (total : Int) (i : Input) (hwf : i.WF)
    (hh : i.hyper = true) (owns : GMap Part) (ht : 0 < i.types.length) :
    ∃ g g' q, build me peers total i = .ok g ∧ g.fillOwners owns = .ok g' ∧ iterationQueue g' = .ok q ∧
      Shows q (boundaryEdges (fun k => g'.getEdge k 0) me
        (fun v => if v ∈ i.verts then me else (owns v).getD 0) i.types[0].pins) := by
  obtain ⟨g, ghosts, e, hr⟩ := build_spec me peers total i hwf
  have hc := hr.core hwf
  rw [hh] at hc
  obtain ⟨g', e', ho, hg⟩ := fillOwners_spec hc.v owns
  have hs : g'.self = me := by rw [hg]; exact hr.rank
  have hc' := hc.of_eq hg
  obtain ⟨P, h1, h2⟩ := boundary_filter (g := g') (t := 0) (es := i.types[0].pins)
    (own := ownerOf g'.self i.verts (fun v => (owns v).getD 0))
    (fun k hk => onBoundary_hyper hc' ho ht hk) (by rw [hc'.numTypes]; exact ht)
  have hy := yields_edgeBegin hc' ht
  obtain ⟨et, he, hrt, -⟩ := hc'.typ 0 ht
  have hb := bound_ge he
  obtain ⟨q, e3, hq⟩ := iterationQueue_eq hy (by have := hrt.numE; simp; omega) h1
  rw [h2, hs] at hq
  exact ⟨g, g', q, e, e', e3, hq.shows⟩

/-- the hypotheses hold of a concrete part; of its two edges of type 0 only the one with the ghost 99 is shown -/
example : sampleH.WF ∧ sampleH.hyper = true ∧ 0 < sampleH.types.length ∧
    boundaryEdges (fun k => 2 * k + 1) 0 (fun v => if v = 99 then 3 else 0) [[10, 20, 99], [20, 30]] = [1] :=
  ⟨sampleH_wf, rfl, by decide, by decide⟩

/-- the queue of a part that represents a traditional graph -/
theorem queue_trad {g' : Graph} {verts ghosts : List Gid} {types : List EdgeInput} {own : Gid → Part}
    (hc : CRep g' false verts ghosts types) (ho : ORep g' ghosts own) (ht : 0 < types.length)
    (hsrc : ∀ p ∈ types[0].pins, p.getD 0 0 ∈ verts) (hnd : verts.Nodup) :
    ∃ q, iterationQueue g' = .ok q ∧
      QRep q (boundaryEdges (fun k => g'.getEdge k 0) g'.self (ownerOf g'.self verts own)
        (verts.flatMap (fun v => types[0].pins.filter (fun p => p[0]? == some v)))).length []
      (boundaryEdges (fun k => g'.getEdge k 0) g'.self (ownerOf g'.self verts own)
        (verts.flatMap (fun v => types[0].pins.filter (fun p => p[0]? == some v)))) := by
  have hwt := hc.wf _ (List.getElem_mem ht)
  let B : Nat → List (List Gid) := fun u => types[0].pins.filter (fun p => p[0]? == some (verts.getD u 0))
  have hflat : verts.flatMap (fun v => types[0].pins.filter (fun p => p[0]? == some v)) =
      (List.range verts.length).flatMap B := by
    conv_lhs => rw [list_range verts 0, List.flatMap_map]
  have hperm : ((List.range verts.length).flatMap B).Perm types[0].pins := by
    have h1 := perm_group (fun p : List Gid => verts.idxOf (p.getD 0 0)) verts.length types[0].pins
      (fun p hp => List.idxOf_lt_length_of_mem (hsrc p hp))
    refine List.Perm.trans (List.Perm.of_eq ?_) h1
    apply List.flatMap_congr
    intro u hu
    have hu := List.mem_range.mp hu
    apply List.filter_congr
    intro p hp
    have h2 := hwt.two rfl p hp
    match p, h2 with
    | [a, b], _ =>
      have ha := hsrc _ hp
      simp only [List.getD_cons_zero] at ha
      simp only [List.getElem?_cons_zero, List.getD_cons_zero]
      rw [Bool.eq_iff_iff]
      simp only [beq_iff_eq, Option.some.injEq]
      rw [List.getD_eq_getElem?_getD, List.getElem?_eq_getElem hu]
      constructor
      · rintro rfl
        exact hnd.idxOf_getElem u hu
      · intro h
        subst h
        simp
  have hB : ∀ u, (B u).length = degOf false types[0].pins (verts.getD u 0) := by
    intro u
    have := adjOf_length false (verts ++ ghosts) types[0].pins (verts.getD u 0)
    rw [← this]
    simp [B, adjOf]
  obtain ⟨P, h1, h2⟩ := boundary_filter (g := g') (t := 0) (es := (List.range verts.length).flatMap B)
    (own := ownerOf g'.self verts own) (by
      intro j hj
      obtain ⟨u, k, hu, hk, ej, ev⟩ := flat_idx B verts.length j hj
      have hal := adjOf_length false (verts ++ ghosts) types[0].pins verts[u]
      have hgu : verts.getD u 0 = verts[u] := by
        rw [List.getD_eq_getElem?_getD, List.getElem?_eq_getElem hu]; rfl
      have hka : k < (adjOf false (verts ++ ghosts) types[0].pins verts[u]).length := by
        rw [hal, ← hgu, ← hB]; exact hk
      rw [List.getElem?_eq_getElem hj, List.getElem?_eq_getElem hk, Option.some.injEq] at ev
      rw [ev]
      have hpm : (B u)[k] ∈ types[0].pins ∧ ((B u)[k])[0]? == some (verts.getD u 0) := by
        have := List.getElem_mem hk
        exact List.mem_filter.mp this
      have hlen := hwt.two rfl _ hpm.1
      have hform : (B u)[k] = [verts[u], ((B u)[k]).getD 1 0] := by
        have h0 := hpm.2
        rw [hgu] at h0
        generalize (B u)[k] = p at hlen h0
        match p, hlen with
        | [a, b], _ => simp at h0; simp [h0]
      have hwm : ((B u)[k]).getD 1 0 ∈ verts ++ ghosts := by
        apply hc.pins 0 ht
        rw [List.mem_flatten]
        refine ⟨_, hpm.1, ?_⟩
        rw [List.getD_eq_getElem?_getD, List.getElem?_eq_getElem (by omega)]
        exact List.getElem_mem _
      have hadj : (adjOf false (verts ++ ghosts) types[0].pins verts[u])[k] = (verts ++ ghosts).idxOf
          (((B u)[k]).getD 1 0) := by
        simp [adjOf, B, List.getElem?_eq_getElem hu]
      have := onBoundary_trad hc ho ht hu hka hwm hadj
      rw [← hform] at this
      have hoffs : offs (fun u => (B u).length) u = offs (fun u => degOf false types[0].pins (verts.getD u 0)) u := by
        unfold offs; congr 1; apply List.map_congr_left; intro x _; exact hB x
      rw [ej, hoffs]
      exact this) (by rw [hc.numTypes]; exact ht)
  have hy := yields_edgeBegin hc ht
  rw [← hperm.length_eq] at hy
  obtain ⟨et, he, hrt, -⟩ := hc.typ 0 ht
  have hb := bound_ge he
  obtain ⟨q, e3, hq⟩ := iterationQueue_eq hy (by have := hrt.numE; rw [List.length_map, List.length_range, hperm.length_eq]; omega) h1
  rw [h2] at hq
  rw [hflat]
  exact ⟨q, e3, hq⟩

/-- **C42**, traditional graphs: the edges of type 0 are stored grouped by source vertex, in input order within a
group (C06); the queue shows exactly those joining the part to another one, each once, in that order.  (Every edge must
start at a vertex of the part: see C07.) -/
theorem c42_boundary_queue_trad (me : Part) (peers : Nat) (total : Int) (i : Input) (hwf : i.WF)
    (hh : i.hyper = false) (owns : GMap Part) (ht : 0 < i.types.length)
    (hsrc : ∀ p ∈ i.types[0].pins, p.getD 0 0 ∈ i.verts) :
    ∃ g g' q, build me peers total i = .ok g ∧ g.fillOwners owns = .ok g' ∧ iterationQueue g' = .ok q ∧
      Shows q (boundaryEdges (fun k => g'.getEdge k 0) me
        (fun v => if v ∈ i.verts then me else (owns v).getD 0)
        (i.verts.flatMap (fun v => i.types[0].pins.filter (fun p => p[0]? == some v)))) := by
  obtain ⟨g, ghosts, e, hr⟩ := build_spec me peers total i hwf
  have hc0 := hr.core hwf
  rw [hh] at hc0
  obtain ⟨g', e', ho, hg⟩ := fillOwners_spec hc0.v owns
  have hs : g'.self = me := by rw [hg]; exact hr.rank
  have hc := hc0.of_eq hg
  obtain ⟨q, e3, hq⟩ := queue_trad hc ho ht hsrc hwf.nodup
  rw [hs] at hq
  exact ⟨g, g', q, e, e', e3, hq.shows⟩

example : sampleT34.WF ∧ sampleT34.hyper = false ∧ (∀ p ∈ (sampleT34.types[0]'(by decide)).pins, p.getD 0 0 ∈ sampleT34.verts) :=
  ⟨sampleT34_wf, rfl, by decide⟩

/-- adding these elements one after the other -/
def Queue.addAll (q : Queue) (l : List Handle) : Outcome Queue := l.foldlM (fun q e => q.add e) q

theorem addAll_rep {cap : Nat} {C : List Handle} : ∀ (l : List Handle) (q : Queue) (N : List Handle), QRep q cap C N →
    N.length + l.length ≤ cap → ∃ q', q.addAll l = .ok q' ∧ QRep q' cap C (N ++ l)
  | [], q, N, h, _ => ⟨q, rfl, by simpa using h⟩
  | e :: l, q, N, h, hl => by
    simp only [List.length_cons] at hl
    obtain ⟨q1, e1, h1⟩ := h.add e (by omega)
    obtain ⟨q2, e2, h2⟩ := addAll_rep l q1 (N ++ [e]) h1 (by simp; omega)
    refine ⟨q2, ?_, by simpa using h2⟩
    unfold Queue.addAll at e2 ⊢
    rw [List.foldlM_cons, e1]
    exact e2

/-- **C42**, sweeping: put any elements into a queue with room for them, then make any number of sweeps, the `k`-th of
them adding again the elements chosen by `keeps[k]`.  What the queue shows in the end are the elements kept by all
sweeps, in the original order: nothing else is lost, nothing is repeated, and no array is overrun. -/
theorem c42_sweeps (n : Nat) (l : List Handle) (hn : l.length ≤ n) (keeps : List (Handle → Bool)) :
    ∃ q0 q, (Queue.new n).addAll l = .ok q0 ∧
      keeps.foldlM (fun q keep => q.sweep (fun e => some (keep e))) q0 = .ok q ∧
      Shows q (l.filter (fun e => keeps.all (fun keep => keep e))) := by
  obtain ⟨q0, e0, h0⟩ := addAll_rep l (Queue.new n) [] (QRep.new n) (by simpa using hn)
  rw [List.nil_append] at h0
  have H : ∀ (keeps : List (Handle → Bool)) (q : Queue) (C L : List Handle), QRep q n C L → L.length ≤ n →
      ∃ q' C', keeps.foldlM (fun q keep => q.sweep (fun e => some (keep e))) q = .ok q' ∧
        QRep q' n C' (L.filter (fun e => keeps.all (fun keep => keep e))) := by
    intro keeps
    induction keeps with
    | nil => intro q C L hq _; exact ⟨q, C, rfl, by simpa using hq⟩
    | cons keep keeps ih =>
      intro q C L hq hL
      obtain ⟨q1, e1, h1⟩ := sweep_spec (keep := fun e => some (keep e)) (C := L) q.start.size 0 q.start []
        (by rw [hq.start.size]; omega) hq.start (by simp) hL
      have h1' : QRep q1 n L (L.filter keep) := by
        have hf : (fun e => some (keep e) == some true) = keep := by
          funext e; cases keep e <;> rfl
        have ht : List.takeWhile (fun e : Handle => (some (keep e)).isSome) (L.drop 0) = L := by
          rw [List.drop_zero]
          clear h1 hL hq
          induction L with
          | nil => rfl
          | cons a L ih => rw [List.takeWhile_cons, if_pos (by simp), ih]
        rw [ht, hf, List.nil_append] at h1
        exact h1
      obtain ⟨q2, C2, e2, h2⟩ := ih q1 L (L.filter keep) h1' (by
        have := List.length_filter_le keep L; omega)
      refine ⟨q2, C2, ?_, ?_⟩
      · rw [List.foldlM_cons]
        unfold Queue.sweep
        rw [e1]
        exact e2
      · rw [List.filter_filter] at h2
        have hfun : (fun e => (keep :: keeps).all (fun keep => keep e)) =
            (fun e => (keeps.all (fun keep => keep e)) && keep e) := by
          funext e; simp [Bool.and_comm]
        rw [hfun]
        exact h2
  obtain ⟨q, C, e, h⟩ := H keeps q0 [] l h0 hn
  exact ⟨q0, q, e0, e, h.shows⟩

/-- the elements 5, 7, 9 in a queue with room for three; a first sweep keeps 5 and 9, a second one 9 and 7 -/
example : ∃ q0 q, (Queue.new 3).addAll [5, 7, 9] = .ok q0 ∧
    [fun e => decide (e ≠ 7), fun e => decide (e ≠ 5)].foldlM (fun q keep => q.sweep (fun e => some (keep e))) q0 = .ok q ∧
    Shows q [9] := c42_sweeps 3 [5, 7, 9] (by decide) [fun e => decide (e ≠ 7), fun e => decide (e ≠ 5)]

/-- leaving a sweep early, as `select` does once the planned weight exceeds the total (engpar_selector.cpp:194), drops
the elements not reached: of 5, 7, 9 all wanted again, a sweep left at 7 keeps only 5 -/
theorem c42_break_loses : ∃ q0 q, (Queue.new 3).addAll [5, 7, 9] = .ok q0 ∧
    q0.sweep (fun e => if e = 7 then none else some true) = .ok q ∧ Shows q [5] := by
  obtain ⟨q0, e0, h0⟩ := addAll_rep [5, 7, 9] (Queue.new 3) [] (QRep.new 3) (by simp)
  obtain ⟨q, e, h⟩ := sweep_spec (keep := fun e => if e = 7 then none else some true) (C := [5, 7, 9]) q0.start.size 0
    q0.start [] (by rw [h0.start.size]; rfl) h0.start (by simp) (by simp)
  exact ⟨q0, q, e0, e, h.shows⟩

end Verif.Part
