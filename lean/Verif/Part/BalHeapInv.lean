import Verif.Part.BalHeapSpec
import Verif.Agi.HeapInv
/-! # C83: balancing, splitting and asking give back what they take -/
namespace Verif.Part.Heap
open Verif.Agi.Heap

/-- no undefined behaviour, and `P` after success -/
def Sf {α : Type} (x : Outcome α) (P : α → Prop) : Prop :=
  match x with
  | .ok a => P a
  | .fail => True
  | .ub => False

theorem Sf.bind {α β : Type} {x : Outcome α} {f : α → Outcome β} {P : α → Prop} {Q : β → Prop} (h : Sf x P) (hf : ∀ a, P a → Sf (f a) Q) :
    Sf (x >>= f) Q := by
  cases x with
  | ok a => exact hf a h
  | fail => trivial
  | ub => exact h.elim

theorem Sf.mono {α : Type} {x : Outcome α} {P Q : α → Prop} (h : Sf x P) (hf : ∀ a, P a → Q a) : Sf x Q := by
  cases x with
  | ok a => exact hf a h
  | fail => trivial
  | ub => exact h.elim

theorem Sf.of {x : Outcome St} {P : St → Prop} (h : Safe x P) : Sf x P := by
  cases x with
  | ok a => exact h
  | fail => trivial
  | ub => exact h.elim

theorem Sf.to {x : Outcome St} {P : St → Prop} (h : Sf x P) : Safe x P := by
  cases x with
  | ok a => exact h
  | fail => trivial
  | ub => exact h.elim

/-- permutations of appended lists -/
macro "lperm" : tactic => `(tactic| (refine List.perm_iff_count.mpr fun x => ?_; simp only [List.count_append, List.append_nil, List.nil_append]; omega))

abbrev Blocks := List (Nat × Kind)

/-- nothing but the blocks `r` → `r'` changes -/
structure To (s : St) (r' : Blocks) (s' : St) : Prop where
  own : Own s' r'
  g : s'.g = s.g
  same : Same s s'

theorem To.trans {a b c : St} {r r' : Blocks} (h : To a r b) (h' : To b r' c) : To a r' c := ⟨h'.own, h'.g.trans h.g, h.same.trans h'.same⟩

theorem To.perm {a b : St} {r r' : Blocks} (h : To a r b) (hp : r.Perm r') : To a r' b := ⟨h.own.perm hp, h.g, h.same⟩

theorem To.refl {s : St} {r : Blocks} (h : Own s r) : To s r s := ⟨h, rfl, Same.refl s⟩

theorem to_allocs : ∀ (ks : List Kind) (s : St) (r : Blocks), Own s r → To s ((allocs ks s).1 ++ r) (allocs ks s).2
  | [], s, r, h => To.refl h
  | k :: ks, s, r, h => by
    have h1 : To s ((s.next, k) :: r) (allocate k s).2 := ⟨own_allocate k h, rfl, ⟨rfl, rfl, rfl, rfl⟩⟩
    have h2 := to_allocs ks (allocate k s).2 _ h1.own
    refine (h1.trans h2).perm ?_
    show ((allocs ks (allocate k s).2).1 ++ (s.next, k) :: r).Perm ((s.next, k) :: (allocs ks (allocate k s).2).1 ++ r)
    exact List.perm_middle

theorem to_frees : ∀ (bs : Blocks) (s : St) (r : Blocks), Own s (bs ++ r) → ∃ s', frees bs s = .ok s' ∧ To s r s'
  | [], s, r, h => ⟨s, rfl, To.refl h⟩
  | (p, k) :: bs, s, r, h => by
    obtain ⟨s1, e1, o1, g1, m1⟩ := own_free (s := s) (k := k) (p := p) (r := bs ++ r) h
    obtain ⟨s2, e2, t2⟩ := to_frees bs s1 r o1
    refine ⟨s2, ?_, (To.mk o1 g1 m1 : To s (bs ++ r) s1).trans t2⟩
    unfold frees
    rw [List.foldlM_cons]
    show (free k p s >>= _) = _
    rw [e1]
    exact e2

/-- a call that gives back what it takes -/
def Neutral (f : St → Outcome St) : Prop := ∀ s r, Own s r → ∃ s', f s = .ok s' ∧ To s r s'

/-- a call that leaves the blocks it returns -/
def Gives (f : St → Outcome (Blocks × St)) : Prop := ∀ s r, Own s r → ∃ b s', f s = .ok (b, s') ∧ To s (b ++ r) s'

theorem neutral_id : Neutral (fun s => .ok s) := fun s r h => ⟨s, rfl, To.refl h⟩

theorem neutral_temporary : Neutral temporary := fun s r h => by
  obtain ⟨s', e, o, g, m⟩ := own_temporary h
  exact ⟨s', e, o, g, m⟩

theorem neutral_foldlM {α : Type} {f : St → α → Outcome St} (hf : ∀ a, Neutral (fun s => f s a)) : ∀ l : List α, Neutral (fun s => l.foldlM f s)
  | [] => fun s r h => ⟨s, rfl, To.refl h⟩
  | a :: l => fun s r h => by
    obtain ⟨s1, e1, t1⟩ := hf a s r h
    obtain ⟨s2, e2, t2⟩ := neutral_foldlM hf l s1 r t1.own
    exact ⟨s2, by dsimp only at e1 e2 ⊢; rw [List.foldlM_cons, e1]; exact e2, t1.trans t2⟩

theorem neutral_several (n : Nat) {f : St → Outcome St} (hf : Neutral f) : Neutral (several n f) := neutral_foldlM (fun _ => hf) _

theorem neutral_bracket (ks : List Kind) {f : St → Outcome St} (hf : Neutral f) : Neutral (bracket ks f) := fun s r h => by
  have t1 := to_allocs ks s r h
  obtain ⟨s2, e2, t2⟩ := hf (allocs ks s).2 _ t1.own
  obtain ⟨s3, e3, t3⟩ := to_frees (allocs ks s).1 s2 r t2.own
  refine ⟨s3, ?_, t1.trans (t2.trans t3)⟩
  unfold bracket
  dsimp only
  rw [e2]
  exact e3

theorem neutral_brief (k : Kind) : Neutral (brief k) := neutral_bracket [k] neutral_id

theorem neutral_walk (n : Nat) : Neutral (walkEdges n) := neutral_bracket _ (neutral_several n (neutral_brief _))

theorem neutral_traverse (p : Bool) (n : Nat) : Neutral (traverse p n) := fun s r h => by
  unfold traverse
  cases p with
  | true => rw [if_pos rfl]; exact neutral_bracket _ (neutral_several n (neutral_bracket _ (neutral_brief _))) s r h
  | false => rw [if_neg (by simp)]; exact neutral_bracket _ neutral_id s r h

theorem neutral_trim (a b c : Nat) : Neutral (trimCancel a b c) := fun s r h => by
  unfold trimCancel
  dsimp only
  have t1 := to_allocs [.arr] s r h
  generalize allocs [.arr] s = x1 at t1 ⊢
  obtain ⟨pe, s1⟩ := x1
  dsimp only at t1 ⊢
  obtain ⟨s2, e2, t2⟩ := to_frees pe s1 r t1.own
  rw [e2, Outcome.bind_ok]
  have t3 := to_allocs [.arr] s2 r t2.own
  generalize allocs [.arr] s2 = x3 at t3 ⊢
  obtain ⟨av, s3⟩ := x3
  dsimp only at t3 ⊢
  have t4 := to_allocs (List.replicate a .arr) s3 _ t3.own
  generalize allocs (List.replicate a .arr) s3 = x4 at t4 ⊢
  obtain ⟨acc, s4⟩ := x4
  dsimp only at t4 ⊢
  have p4 : Own s4 (av ++ (acc ++ r)) := t4.own.perm (by lperm)
  obtain ⟨s5, e5, t5⟩ := to_frees av s4 _ p4
  rw [e5, Outcome.bind_ok]
  obtain ⟨s6, e6, t6⟩ := to_frees acc s5 _ t5.own
  rw [e6, Outcome.bind_ok]
  have t7 := to_allocs (.obj :: List.replicate b .arr) s6 _ t6.own
  generalize allocs (.obj :: List.replicate b .arr) s6 = x7 at t7 ⊢
  obtain ⟨cap, s7⟩ := x7
  dsimp only at t7 ⊢
  have t8 := to_allocs [.arr] s7 _ t7.own
  generalize allocs [.arr] s7 = x8 at t8 ⊢
  obtain ⟨pe2, s8⟩ := x8
  dsimp only at t8 ⊢
  obtain ⟨s9, e9, t9⟩ := neutral_several c (neutral_brief .arr) s8 _ t8.own
  rw [e9, Outcome.bind_ok]
  have p9 : Own s9 (cap ++ (pe2 ++ r)) := t9.own.perm (by lperm)
  obtain ⟨s10, e10, t10⟩ := to_frees cap s9 _ p9
  rw [e10, Outcome.bind_ok]
  obtain ⟨s11, e11, t11⟩ := to_frees pe2 s10 _ t10.own
  exact ⟨s11, e11, t1.trans (t2.trans (t3.trans (t4.trans (t5.trans (t6.trans (t7.trans (t8.trans (t9.trans (t10.trans t11)))))))))⟩

theorem gives_targets (a b : Nat) : Gives (targetsOf a b) := fun s r h => by
  unfold targetsOf
  dsimp only
  have t1 := to_allocs [.obj] s r h
  generalize allocs [.obj] s = x1 at t1 ⊢
  obtain ⟨sd, s1⟩ := x1
  dsimp only at t1 ⊢
  obtain ⟨s2, e2, t2⟩ := neutral_walk a s1 _ t1.own
  rw [e2, Outcome.bind_ok]
  have t3 := to_allocs [.obj] s2 _ t2.own
  generalize allocs [.obj] s2 = x3 at t3 ⊢
  obtain ⟨tw, s3⟩ := x3
  dsimp only at t3 ⊢
  have t4 : To s3 ((if b = 0 then (([], s3) : Blocks × St) else allocs (.arr :: List.replicate b .obj) s3).1 ++ (tw ++ (sd ++ r)))
      (if b = 0 then (([], s3) : Blocks × St) else allocs (.arr :: List.replicate b .obj) s3).2 := by
    by_cases hb : b = 0
    · rw [if_pos hb]; exact To.refl t3.own
    · rw [if_neg hb]; exact to_allocs _ s3 _ t3.own
  generalize (if b = 0 then (([], s3) : Blocks × St) else allocs (.arr :: List.replicate b .obj) s3) = x4 at t4 ⊢
  obtain ⟨cw, s4⟩ := x4
  dsimp only at t4 ⊢
  have t5 := to_allocs [.obj] s4 _ t4.own
  generalize allocs [.obj] s4 = x5 at t5 ⊢
  obtain ⟨tg, s5⟩ := x5
  dsimp only at t5 ⊢
  have p5 : Own s5 (sd ++ (cw ++ (tw ++ (tg ++ r)))) := t5.own.perm (by lperm)
  obtain ⟨s6, e6, t6⟩ := to_frees sd s5 _ p5
  rw [e6, Outcome.bind_ok]
  obtain ⟨s7, e7, t7⟩ := to_frees cw s6 _ t6.own
  rw [e7, Outcome.bind_ok]
  obtain ⟨s8, e8, t8⟩ := to_frees tw s7 _ t7.own
  rw [e8, Outcome.bind_ok]
  exact ⟨tg, s8, rfl, t1.trans (t2.trans (t3.trans (t4.trans (t5.trans (t6.trans (t7.trans t8))))))⟩

theorem gives_queue (q : QueueRun) : Gives (makeQueue q) := fun s r h => by
  cases q with
  | iteration n =>
    show ∃ b s', (walkEdges n s >>= fun s => walkEdges n (allocs queueBlocks s).2 >>= fun s' => pure ((allocs queueBlocks s).1, s')) = _ ∧ _
    obtain ⟨s1, e1, t1⟩ := neutral_walk n s r h
    rw [e1, Outcome.bind_ok]
    have t2 := to_allocs queueBlocks s1 r t1.own
    obtain ⟨s3, e3, t3⟩ := neutral_walk n _ _ t2.own
    rw [e3, Outcome.bind_ok]
    exact ⟨_, s3, rfl, t1.trans (t2.trans t3)⟩
  | noEdges => exact ⟨_, _, rfl, to_allocs queueBlocks s r h⟩
  | noSeeds =>
    show ∃ b s', (frees (allocs [.obj, .arr] s).1 (allocs queueBlocks (allocs [.obj, .arr] s).2).2 >>= fun s' =>
      pure ((allocs queueBlocks (allocs [.obj, .arr] s).2).1, s')) = _ ∧ _
    have t1 := to_allocs [.obj, .arr] s r h
    generalize allocs [.obj, .arr] s = x1 at t1 ⊢
    obtain ⟨in1, s1⟩ := x1
    dsimp only at t1 ⊢
    have t2 := to_allocs queueBlocks s1 _ t1.own
    generalize allocs queueBlocks s1 = x2 at t2 ⊢
    obtain ⟨q, s2⟩ := x2
    dsimp only at t2 ⊢
    have p2 : Own s2 (in1 ++ (q ++ r)) := t2.own.perm (by lperm)
    obtain ⟨s3, e3, t3⟩ := to_frees in1 s2 _ p2
    rw [e3, Outcome.bind_ok]
    exact ⟨q, s3, rfl, t1.trans (t2.trans t3)⟩
  | distance p a rs c =>
    unfold makeQueue distanceQueue
    dsimp only
    have t1 := to_allocs [.obj, .arr] s r h
    generalize allocs [.obj, .arr] s = x1 at t1 ⊢
    obtain ⟨in1, s1⟩ := x1
    dsimp only at t1 ⊢
    have t2 := to_allocs queueBlocks s1 _ t1.own
    generalize allocs queueBlocks s1 = x2 at t2 ⊢
    obtain ⟨q, s2⟩ := x2
    dsimp only at t2 ⊢
    have t3 := to_allocs [.arr] s2 _ t2.own
    generalize allocs [.arr] s2 = x3 at t3 ⊢
    obtain ⟨vis, s3⟩ := x3
    dsimp only at t3 ⊢
    obtain ⟨s4, e4, t4⟩ := neutral_traverse p a s3 _ t3.own
    rw [e4, Outcome.bind_ok]
    have t5 := to_allocs [.obj, .arr, .arr, .arr] s4 _ t4.own
    generalize allocs [.obj, .arr, .arr, .arr] s4 = x5 at t5 ⊢
    obtain ⟨in2, s5⟩ := x5
    dsimp only at t5 ⊢
    obtain ⟨s6, e6, t6⟩ := neutral_foldlM (f := fun s n => bracket [.arr, .arr] (traverse p n) s)
      (fun n => neutral_bracket _ (neutral_traverse p n)) rs s5 _ t5.own
    dsimp only at e6
    rw [e6, Outcome.bind_ok]
    have p6 : Own s6 ((vis ++ in1) ++ (in2 ++ (q ++ r))) := t6.own.perm (by lperm)
    obtain ⟨s7, e7, t7⟩ := to_frees (vis ++ in1) s6 _ p6
    rw [e7, Outcome.bind_ok]
    obtain ⟨s8, e8, t8⟩ := neutral_several c (neutral_brief .obj) s7 _ t7.own
    rw [e8, Outcome.bind_ok]
    obtain ⟨s9, e9, t9⟩ := to_frees in2 s8 _ t8.own
    rw [e9, Outcome.bind_ok]
    exact ⟨q, s9, rfl, t1.trans (t2.trans (t3.trans (t4.trans (t5.trans (t6.trans (t7.trans (t8.trans t9)))))))⟩

/-- a graph of which `k` is known, blocks `r` beside it, and the user's tags and plans -/
structure GK (T : List (Option Tag)) (P : List (Option Plan)) (r : Blocks) (k : Known) (s : St) : Prop where
  good : Good s r k.coords k.owners k.gweights k.ghosts k.types
  tags : s.tags = T
  plans : s.plans = P

theorem GK.to {T : List (Option Tag)} {P : List (Option Plan)} {r r' : Blocks} {k : Known} {s s' : St} (h : GK T P r k s) (t : To s r' s') :
    GK T P r' k s' :=
  ⟨⟨t.own, h.good.shape.same t.g t.same, t.same.ghosts.trans h.good.ghosts, t.same.types.trans h.good.types⟩, t.same.tags.trans h.tags,
    t.same.plans.trans h.plans⟩

theorem to_newPlan (v : Bool) {s : St} {r : Blocks} (h : Own s r) : To s (planBlocks (newPlan v s).1 ++ r) (newPlan v s).2 := by
  obtain ⟨o, g, m, _⟩ := own_newPlan v h
  exact ⟨o, g, m⟩

theorem to_freePlan {p : Plan} {s : St} {r : Blocks} (h : Own s (planBlocks p ++ r)) : ∃ s', freePlan p s = .ok s' ∧ To s r s' := by
  obtain ⟨s', e, o, g, m⟩ := own_freePlan h
  exact ⟨s', e, o, g, m⟩

theorem runStep_good (x : Step) {T : List (Option Tag)} {P : List (Option Plan)} {r : Blocks} {k : Known} {s : St} (h : GK T P r k s) :
    Sf (runStep x s) (GK T P r (moved k x.move.toList)) := by
  unfold runStep
  obtain ⟨tg, s1, e1, t1⟩ := gives_targets x.edges x.completed s r h.good.own
  rw [e1, Outcome.bind_ok]
  dsimp only
  obtain ⟨q, s2, e2, t2⟩ := gives_queue x.queue s1 _ t1.own
  rw [e2, Outcome.bind_ok]
  dsimp only
  have t3 := to_allocs [.obj] s2 _ t2.own
  generalize allocs [.obj] s2 = x3 at t3 ⊢
  obtain ⟨sel, s3⟩ := x3
  dsimp only at t3 ⊢
  have t4 := to_newPlan x.verts t3.own
  generalize newPlan x.verts s3 = x4 at t4 ⊢
  obtain ⟨plan, s4⟩ := x4
  dsimp only at t4 ⊢
  obtain ⟨s5, e5, t5⟩ := neutral_several x.walks (neutral_brief .obj) s4 _ t4.own
  rw [e5, Outcome.bind_ok]
  have fin : ∀ s6, To s5 (planBlocks plan ++ (sel ++ (q ++ (tg ++ r)))) s6 →
      Sf (frees q s6 >>= fun s => frees tg s >>= fun s => frees sel s >>= fun s =>
        match x.move with
        | some m => migrate plan x.verts m.coords m.fresh m.many s
        | none => freePlan plan s) (GK T P r (moved k x.move.toList)) := by
    intro s6 t6
    have p6 : Own s6 (q ++ (tg ++ (sel ++ (planBlocks plan ++ r)))) := t6.own.perm (by lperm)
    obtain ⟨s7, e7, t7⟩ := to_frees q s6 _ p6
    rw [e7, Outcome.bind_ok]
    obtain ⟨s8, e8, t8⟩ := to_frees tg s7 _ t7.own
    rw [e8, Outcome.bind_ok]
    obtain ⟨s9, e9, t9⟩ := to_frees sel s8 _ t8.own
    rw [e9, Outcome.bind_ok]
    have h9 : GK T P (planBlocks plan ++ r) k s9 :=
      h.to (t1.trans (t2.trans (t3.trans (t4.trans (t5.trans (t6.trans (t7.trans (t8.trans t9))))))))
    cases x.move with
    | none =>
      obtain ⟨s10, e10, t10⟩ := to_freePlan h9.good.own
      dsimp only
      rw [e10]
      exact h9.to t10
    | some m =>
      refine (Sf.of (migrate_good h9.good.own x.verts m.coords m.fresh m.many)).mono ?_
      rintro s10 ⟨g10, t10, p10⟩
      exact ⟨g10, t10.trans h9.tags, p10.trans h9.plans⟩
  by_cases hc : x.completed = 0
  · simp only [hc, if_true, Outcome.bind_ok]
    exact fin s5 (To.refl t5.own)
  · simp only [hc, if_false]
    obtain ⟨s6, e6, t6⟩ := neutral_trim x.senders x.answers x.planned s5 _ t5.own
    rw [e6, Outcome.bind_ok]
    exact fin s6 t6

theorem moved_append (k : Known) (a b : List Move) : moved k (a ++ b) = moved (moved k a) b := by
  unfold moved
  rw [List.foldl_append]

theorem steps_good : ∀ (l : List Step) {T : List (Option Tag)} {P : List (Option Plan)} {r : Blocks} {k : Known} {s : St}, GK T P r k s →
    Sf (l.foldlM (fun s x => runStep x s) s) (GK T P r (moved k (l.filterMap (·.move))))
  | [], _, _, _, _, _, h => h
  | x :: l, T, P, r, k, s, h => by
    rw [List.foldlM_cons]
    refine (runStep_good x h).bind fun s1 h1 => ?_
    have := steps_good l h1
    rw [← moved_append] at this
    have e : (x :: l).filterMap (·.move) = x.move.toList ++ l.filterMap (·.move) := by
      rw [List.filterMap_cons]
      cases x.move <;> rfl
    rw [e]
    exact this

/-! ## weights -/

theorem runWStep_good (x : WStep) {T : List (Option Tag)} {P : List (Option Plan)} {r : Blocks} {k : Known} {s : St} (h : GK T P r k s) :
    Sf (runWStep x s) (GK T P r k) := by
  unfold runWStep
  obtain ⟨tg, s1, e1, t1⟩ := gives_targets x.edges 0 s r h.good.own
  rw [e1, Outcome.bind_ok]
  dsimp only
  obtain ⟨q, s2, e2, t2⟩ := gives_queue (.iteration x.edges) s1 _ t1.own
  rw [e2, Outcome.bind_ok]
  dsimp only
  have t3 := to_allocs [.obj] s2 _ t2.own
  generalize allocs [.obj] s2 = x3 at t3 ⊢
  obtain ⟨sel, s3⟩ := x3
  dsimp only at t3 ⊢
  have t4 := to_newPlan false t3.own
  generalize newPlan false s3 = x4 at t4 ⊢
  obtain ⟨plan, s4⟩ := x4
  dsimp only at t4 ⊢
  obtain ⟨s5, e5, t5⟩ := neutral_several x.walks (neutral_brief .obj) s4 _ t4.own
  rw [e5, Outcome.bind_ok]
  have p6 : Own s5 (q ++ (tg ++ (sel ++ (planBlocks plan ++ r)))) := t5.own.perm (by lperm)
  obtain ⟨s7, e7, t7⟩ := to_frees q s5 _ p6
  rw [e7, Outcome.bind_ok]
  obtain ⟨s8, e8, t8⟩ := to_frees tg s7 _ t7.own
  rw [e8, Outcome.bind_ok]
  obtain ⟨s9, e9, t9⟩ := to_frees sel s8 _ t8.own
  rw [e9, Outcome.bind_ok]
  have h9 : GK T P (planBlocks plan ++ r) k s9 := h.to (t1.trans (t2.trans (t3.trans (t4.trans (t5.trans (t7.trans (t8.trans t9)))))))
  have fin : ∀ s10, GK T P (planBlocks plan ++ r) k s10 → Sf (freePlan plan s10) (GK T P r k) := by
    intro s10 h10
    obtain ⟨s11, e11, t11⟩ := to_freePlan h10.good.own
    rw [e11]
    exact h10.to t11
  cases x.moves with
  | false =>
    simp only [Bool.false_eq_true, if_false, Outcome.bind_ok]
    exact fin s9 h9
  | true =>
    simp only [if_true]
    obtain ⟨s10, e10, t10⟩ := neutral_temporary s9 _ h9.good.own
    rw [e10, Outcome.bind_ok]
    have h10 := h9.to t10
    obtain ⟨s11, e11, g11, _, tt, pp⟩ := setWeights_good h10.good
    rw [e11, Outcome.bind_ok]
    exact fin s11 ⟨g11, tt.trans h10.tags, pp.trans h10.plans⟩

theorem wsteps_good : ∀ (l : List WStep) {T : List (Option Tag)} {P : List (Option Plan)} {r : Blocks} {k : Known} {s : St}, GK T P r k s →
    Sf (l.foldlM (fun s x => runWStep x s) s) (GK T P r k)
  | [], _, _, _, _, _, h => h
  | x :: l, T, P, r, k, s, h => by
    rw [List.foldlM_cons]
    exact (runWStep_good x h).bind fun s1 h1 => wsteps_good l h1

theorem weightBalancer_good (input : Blocks) (many : Bool) (l : List WStep) {T : List (Option Tag)} {P : List (Option Plan)} {r : Blocks}
    {k : Known} {s : St} (h : GK T P (input ++ r) k s) : Sf (weightBalancer input many l s) (GK T P r k) := by
  unfold weightBalancer
  dsimp only
  have t1 := to_allocs [.obj, .obj] s _ h.good.own
  generalize allocs [.obj, .obj] s = x1 at t1 ⊢
  obtain ⟨b, s1⟩ := x1
  dsimp only at t1 ⊢
  have h1 := h.to t1
  have fin : ∀ s2, GK T P (b ++ (input ++ r)) k s2 → Sf (frees input s2 >>= fun s => frees b s) (GK T P r k) := by
    intro s2 h2
    have p2 : Own s2 (input ++ (b ++ r)) := h2.good.own.perm (by lperm)
    obtain ⟨s3, e3, t3⟩ := to_frees input s2 _ p2
    rw [e3, Outcome.bind_ok]
    obtain ⟨s4, e4, t4⟩ := to_frees b s3 _ t3.own
    rw [e4]
    exact h2.to (t3.trans t4)
  cases many with
  | false =>
    simp only [Bool.false_eq_true, if_false, Outcome.bind_ok]
    exact fin s1 h1
  | true =>
    simp only [if_true]
    refine Sf.bind (P := GK T P (b ++ (input ++ r)) k) ?_ fin
    unfold bracket
    dsimp only
    have t2 := to_allocs [.obj, .arr] s1 _ h1.good.own
    generalize allocs [.obj, .arr] s1 = x2 at t2 ⊢
    obtain ⟨sd, s2⟩ := x2
    dsimp only at t2 ⊢
    refine (wsteps_good l (h1.to t2)).bind fun s3 h3 => ?_
    obtain ⟨s4, e4, t4⟩ := to_frees sd s3 _ h3.good.own
    rw [e4]
    exact h3.to t4

/-! ## the weight graph -/

def secBlocks : Option Second → Blocks
  | none => []
  | some w => held w.g fields ++ [(w.obj, .obj)]

theorem onSecond_good (w : Second) {f : St → Outcome St} {s : St} {r r' : Blocks} (h : Own s (held w.g fields ++ r))
    (hf : ∀ s2, Own s2 (held s.g fields ++ r) → s2.g = w.g → s2.types = w.types → s2.ghosts = w.ghosts → s2.tags = s.tags → s2.plans = s.plans →
      Sf (f s2) fun s' => Own s' (held s.g fields ++ r') ∧ s'.tags = s.tags ∧ s'.plans = s.plans) :
    Sf (onSecond w f s) fun p => To s (held p.1.g fields ++ r') p.2 ∧ p.1.obj = w.obj := by
  unfold onSecond
  refine (hf { s with g := w.g, types := w.types, ghosts := w.ghosts } ?_ rfl rfl rfl rfl rfl).bind ?_
  · exact List.Perm.trans h (by lperm)
  · rintro s' ⟨o, t, p⟩
    exact ⟨⟨List.Perm.trans o (by lperm), rfl, ⟨rfl, rfl, t, p⟩⟩, rfl⟩

theorem destroySecond_good (w : Second) {s : St} {r : Blocks} (h : Own s (secBlocks (some w) ++ r)) :
    Sf (destroySecond w s) (To s r) := by
  unfold destroySecond
  have h' : Own s (held w.g fields ++ ([(w.obj, .obj)] ++ r)) := h.perm (by unfold secBlocks; lperm)
  have key : Sf (onSecond w destroyData s) fun p => To s ([(w.obj, .obj)] ++ r) p.2 ∧ p.1.obj = w.obj := by
    unfold onSecond
    obtain ⟨s', e, o, n, m⟩ := own_destroy (s := { s with g := w.g, types := w.types, ghosts := w.ghosts })
      (r := held s.g fields ++ ([(w.obj, .obj)] ++ r)) (List.Perm.trans h' (by lperm))
    rw [e]
    refine ⟨⟨?_, rfl, ⟨rfl, rfl, m.tags, m.plans⟩⟩, rfl⟩
    have o' := o
    unfold Own at o'
    rw [held_none n] at o'
    exact o'
  refine key.bind ?_
  rintro ⟨w', s'⟩ ⟨t, e⟩
  dsimp only at t e ⊢
  rw [e]
  obtain ⟨s2, e2, o2, g2, m2⟩ := own_free (s := s') (k := .obj) (p := w.obj) (r := r) t.own
  rw [e2]
  exact t.trans ⟨o2, g2, m2⟩

theorem destroyOld_good (w : Option Second) {s : St} {r : Blocks} (h : Own s (secBlocks w ++ r)) : Sf (destroyOld w s) (To s r) := by
  cases w with
  | none => exact To.refl h
  | some w => exact destroySecond_good w h

theorem pwOnSecond_good (n m : Bool) (l : List WStep) {s : St} {r : Blocks} (h : Own s r) :
    Sf (pwOnSecond n m l s) fun s' => Own s' r ∧ s'.tags = s.tags ∧ s'.plans = s.plans := by
  unfold pwOnSecond
  obtain ⟨s1, e1, g1, _, t1, p1⟩ := constructVerts_good h
  rw [e1, Outcome.bind_ok]
  refine (Sf.of (constructEdges_good n g1)).bind ?_
  rintro s2 ⟨g2, _, t2, p2⟩
  obtain ⟨s3, l3, e3, g3, n3, _, t3, p3⟩ := constructGhosts_good false m g2
  rw [e3, Outcome.bind_ok]
  have hl : l3 = [] := List.eq_nil_of_length_eq_zero (by rw [n3]; rfl)
  rw [hl] at g3
  dsimp only
  have t4 := to_allocs [.obj] s3 _ g3.own
  generalize allocs [.obj] s3 = x4 at t4 ⊢
  obtain ⟨inp, s4⟩ := x4
  dsimp only at t4 ⊢
  have k3 : GK s.tags s.plans r ⟨false, false || n, false || n, false || (false && m), 0 + 1, [], []⟩ s3 :=
    ⟨g3, t3.trans (t2.trans t1), p3.trans (p2.trans p1)⟩
  refine (weightBalancer_good inp m l (k3.to t4)).mono ?_
  intro s5 h5
  exact ⟨h5.good.own, h5.tags, h5.plans⟩

theorem partWeight_good (n : Bool) (l : List WStep) (old : Option Second) {s : St} {r : Blocks} (h : Own s (secBlocks old ++ r)) :
    Sf (partWeight n l old s) fun p => To s (secBlocks p.1 ++ r) p.2 := by
  unfold partWeight
  refine (destroyOld_good old h).bind fun s1 t1 => ?_
  dsimp only
  have t2 : To s1 ([(s1.next, .obj)] ++ r) (createSecond s1).2 := ⟨own_allocate .obj t1.own, rfl, ⟨rfl, rfl, rfl, rfl⟩⟩
  have w2 : (createSecond s1).1 = ⟨fun _ => none, 0, false, s1.next⟩ := rfl
  generalize createSecond s1 = x2 at t2 w2 ⊢
  obtain ⟨w, s2⟩ := x2
  dsimp only at t2 w2 ⊢
  have t3 := to_allocs (List.replicate 7 .arr) s2 _ t2.own
  generalize allocs (List.replicate 7 .arr) s2 = x3 at t3 ⊢
  obtain ⟨as, s3⟩ := x3
  dsimp only at t3 ⊢
  have hw : held w.g fields = [] := held_none fun f _ => by rw [w2]
  have p3 : Own s3 (held w.g fields ++ (as ++ ([(s1.next, .obj)] ++ r))) := by rw [hw]; exact t3.own
  refine Sf.bind (onSecond_good w (f := pwOnSecond n true l) (r' := as ++ ([(s1.next, .obj)] ++ r)) p3 ?_) ?_
  · intro s4 o4 _ _ _ tt pp
    refine (pwOnSecond_good n true l o4).mono ?_
    rintro s5 ⟨o5, t5, p5⟩
    exact ⟨o5, t5.trans tt, p5.trans pp⟩
  · rintro ⟨w', s4⟩ ⟨t4, ew⟩
    dsimp only at t4 ew ⊢
    have p4 : Own s4 (as ++ (held w'.g fields ++ ([(s1.next, .obj)] ++ r))) := t4.own.perm (by lperm)
    obtain ⟨s5, e5, t5⟩ := to_frees as s4 _ p4
    rw [e5, Outcome.bind_ok]
    have ew' : w'.obj = s1.next := by rw [ew, w2]
    refine (t1.trans (t2.trans (t3.trans (t4.trans t5)))).perm ?_
    unfold secBlocks
    dsimp only
    rw [ew']
    lperm

theorem runCriterion_good (old : Option Second) (c : Criterion) {T : List (Option Tag)} {P : List (Option Plan)} {r : Blocks} {k : Known} {s : St}
    (h : GK T P (secBlocks old ++ r) k s) :
    Sf (runCriterion old c s) fun p => GK T P (secBlocks p.1 ++ r) (moved k (c.steps.filterMap (·.move))) p.2 := by
  unfold runCriterion
  dsimp only
  have t1 := to_allocs [.obj, .arr] s _ h.good.own
  generalize allocs [.obj, .arr] s = x1 at t1 ⊢
  obtain ⟨sd, s1⟩ := x1
  dsimp only at t1 ⊢
  have t2 := to_allocs [.obj] s1 _ t1.own
  generalize allocs [.obj] s1 = x2 at t2 ⊢
  obtain ⟨sides, s2⟩ := x2
  dsimp only at t2 ⊢
  obtain ⟨s3, e3, t3⟩ := neutral_walk c.edges s2 _ t2.own
  rw [e3, Outcome.bind_ok]
  have h3 := h.to (t1.trans (t2.trans t3))
  have mid : Sf (weightsFirst old c.weights s3)
      fun p => GK T P (secBlocks p.1 ++ (sides ++ (sd ++ r))) k p.2 := by
    cases hw : c.weights with
    | none => exact h3.to ((To.refl h3.good.own).perm (by lperm))
    | some ns =>
      obtain ⟨n, st⟩ := ns
      have p3 : Own s3 (secBlocks old ++ (sides ++ (sd ++ r))) := h3.good.own.perm (by lperm)
      exact (partWeight_good n st old p3).mono fun p t => h3.to t
  refine mid.bind ?_
  rintro ⟨w, s4⟩ h4
  dsimp only at h4 ⊢
  have p4 : Own s4 (sides ++ (secBlocks w ++ (sd ++ r))) := h4.good.own.perm (by lperm)
  obtain ⟨s5, e5, t5⟩ := to_frees sides s4 _ p4
  rw [e5, Outcome.bind_ok]
  refine (steps_good c.steps (h4.to t5)).bind fun s6 h6 => ?_
  have p6 : Own s6 (sd ++ (secBlocks w ++ r)) := h6.good.own.perm (by lperm)
  obtain ⟨s7, e7, t7⟩ := to_frees sd s6 _ p6
  rw [e7, Outcome.bind_ok]
  exact h6.to t7

theorem criteria_good : ∀ (cs : List Criterion) {T : List (Option Tag)} {P : List (Option Plan)} {r : Blocks} {k : Known} {ws : Option Second × St},
    GK T P (secBlocks ws.1 ++ r) k ws.2 →
    Sf (cs.foldlM (fun (ws : Option Second × St) c => runCriterion ws.1 c ws.2) ws) fun p =>
      GK T P (secBlocks p.1 ++ r) (moved k (cs.flatMap fun c => c.steps.filterMap (·.move))) p.2
  | [], _, _, _, _, _, h => h
  | c :: cs, T, P, r, k, ws, h => by
    rw [List.foldlM_cons, List.flatMap_cons, moved_append]
    exact (runCriterion_good ws.1 c h).bind fun p hp => criteria_good cs hp

theorem balance_good (input : Blocks) (many : Bool) (cs : List Criterion) {T : List (Option Tag)} {P : List (Option Plan)} {r : Blocks}
    {k : Known} {s : St} (h : GK T P (input ++ r) k s) : Sf (balance input many cs s) (GK T P r (moved k (movesOf many cs))) := by
  unfold balance
  dsimp only
  have t1 := to_allocs [.obj, .obj] s _ h.good.own
  generalize allocs [.obj, .obj] s = x1 at t1 ⊢
  obtain ⟨b, s1⟩ := x1
  dsimp only at t1 ⊢
  have h1 := h.to t1
  have mid : Sf (if many then setOriginal s1 else .ok s1) (GK T P (b ++ (input ++ r)) k) := by
    cases many with
    | false => exact h1
    | true =>
      obtain ⟨s2, e2, g2, t2, p2⟩ := setOriginal_good h1.good
      rw [if_pos rfl, e2]
      exact ⟨g2, t2.trans h1.tags, p2.trans h1.plans⟩
  have fin : ∀ s2, GK T P (b ++ (input ++ r)) k s2 →
      Sf ((if many then cs else []).foldlM (fun (ws : Option Second × St) c => runCriterion ws.1 c ws.2) (none, s2) >>= fun ws =>
        frees input ws.2 >>= fun s => destroyOld ws.1 s >>= fun s => frees b s) (GK T P r (moved k (movesOf many cs))) := by
    intro s2 h2
    have em : moved k (movesOf many cs) = moved k ((if many then cs else []).flatMap fun c => c.steps.filterMap (·.move)) := by
      unfold movesOf
      cases many <;> rfl
    rw [em]
    refine (criteria_good (if many then cs else []) (ws := (none, s2)) (r := b ++ (input ++ r)) h2).bind ?_
    rintro ⟨w, s3⟩ h3
    dsimp only at h3 ⊢
    have p3 : Own s3 (input ++ (secBlocks w ++ (b ++ r))) := h3.good.own.perm (by lperm)
    obtain ⟨s4, e4, t4⟩ := to_frees input s3 _ p3
    rw [e4, Outcome.bind_ok]
    refine (destroyOld_good w t4.own).bind fun s5 t5 => ?_
    obtain ⟨s6, e6, t6⟩ := to_frees b s5 _ t5.own
    rw [e6]
    exact h3.to (t4.trans (t5.trans t6))
  first
    | exact mid.bind fin
    | (cases many with
       | false => exact fin s1 h1
       | true => exact mid.bind fin)

/-! ## splitting -/

theorem parmetis_good (v : Bool) {s : St} {r : Blocks} (h : Own s r) :
    ∃ p s', parmetis v s = .ok (p, s') ∧ To s (planBlocks p ++ r) s' := by
  unfold parmetis
  obtain ⟨s1, e1, t1⟩ := neutral_bracket (List.replicate 8 .arr) neutral_id s r h
  rw [e1, Outcome.bind_ok]
  dsimp only
  have t2 := to_allocs [.arr] s1 _ t1.own
  generalize allocs [.arr] s1 = x2 at t2 ⊢
  obtain ⟨np, s2⟩ := x2
  dsimp only at t2 ⊢
  have t3 := to_newPlan v t2.own
  generalize newPlan v s2 = x3 at t3 ⊢
  obtain ⟨p, s3⟩ := x3
  dsimp only at t3 ⊢
  have p3 : Own s3 (np ++ (planBlocks p ++ r)) := t3.own.perm (by lperm)
  obtain ⟨s4, e4, t4⟩ := to_frees np s3 _ p3
  rw [e4, Outcome.bind_ok]
  exact ⟨p, s4, rfl, t1.trans (t2.trans (t3.trans t4))⟩

theorem split_good (input : Blocks) (z o v : Bool) (m : Move) {T : List (Option Tag)} {P : List (Option Plan)} {r : Blocks} {k : Known} {s : St}
    (h : GK T P (input ++ r) k s) : Sf (splitGraph input z o v m s) (GK T P r (moved k [m])) := by
  have fin : ∀ (p : Plan) (s1 : St), To s (planBlocks p ++ (input ++ r)) s1 →
      Sf ((if o then temporary s1 else .ok s1) >>= fun s => setOriginal s >>= fun s => migrate p v m.coords m.fresh m.many s >>= fun s =>
        frees input s) (GK T P r (moved k [m])) := by
    intro p s1 t1
    have mid : ∃ s2, (if o then temporary s1 else .ok s1) = .ok s2 ∧ To s1 (planBlocks p ++ (input ++ r)) s2 := by
      cases o with
      | false => exact ⟨s1, rfl, To.refl t1.own⟩
      | true => exact neutral_temporary s1 _ t1.own
    obtain ⟨s2, e2, t2⟩ := mid
    rw [e2, Outcome.bind_ok]
    have h2 := h.to (t1.trans t2)
    obtain ⟨s3, e3, g3, t3, p3⟩ := setOriginal_good h2.good
    rw [e3, Outcome.bind_ok]
    refine (Sf.of (migrate_good g3.own v m.coords m.fresh m.many)).bind ?_
    rintro s4 ⟨g4, t4, p4⟩
    obtain ⟨s5, e5, t5⟩ := to_frees input s4 _ g4.own
    rw [e5]
    have h4 : GK T P (input ++ r) (moved k [m]) s4 := ⟨g4, t4.trans (t3.trans h2.tags), p4.trans (p3.trans h2.plans)⟩
    exact h4.to t5
  have nb : ∀ (s1 : St) (r1 : Blocks), Own s1 r1 → ∃ p s2, newPlan v s1 = (p, s2) ∧ To s1 (planBlocks p ++ r1) s2 :=
    fun s1 r1 h1 => ⟨_, _, rfl, to_newPlan v h1⟩
  unfold splitGraph
  cases z with
  | true =>
    simp only [if_true]
    obtain ⟨p, s1, e1, t1⟩ := nb s _ h.good.own
    rw [e1]
    cases o with
    | true => exact fin p s1 t1
    | false =>
      obtain ⟨s2, e2, t2⟩ := to_freePlan t1.own
      obtain ⟨p', s3, e3, t3⟩ := nb s2 _ t2.own
      simp only [Bool.false_eq_true, if_false, e2, Outcome.bind_ok, e3, Outcome.pure_eq]
      exact fin p' s3 (t1.trans (t2.trans t3))
  | false =>
    cases o with
    | true =>
      obtain ⟨p, s1, e1, t1⟩ := parmetis_good v h.good.own
      simp only [Bool.false_eq_true, if_false, if_true, e1, Outcome.bind_ok]
      exact fin p s1 t1
    | false =>
      obtain ⟨p, s1, e1, t1⟩ := nb s _ h.good.own
      simp only [Bool.false_eq_true, if_false, e1, Outcome.bind_ok]
      exact fin p s1 t1

/-! ## asking -/

theorem cutLoop_spec : ∀ (l : List Int) (p : Int), 0 ≤ p → (cutLoop p l = true ↔ ∃ o ∈ l, o ≠ p)
  | [], p, _ => by simp [cutLoop]
  | o :: l, p, hp => by
    have h1 : p ≠ -1 := by omega
    unfold cutLoop
    rw [if_neg h1]
    by_cases h : p ≠ o
    · rw [if_pos h]
      exact ⟨fun _ => ⟨o, List.mem_cons_self, fun e => h e.symm⟩, fun _ => rfl⟩
    · rw [if_neg h, cutLoop_spec l p hp]
      have h' : p = o := by omega
      constructor
      · rintro ⟨x, hx, hne⟩
        exact ⟨x, List.mem_cons_of_mem _ hx, hne⟩
      · rintro ⟨x, hx, hne⟩
        rcases List.mem_cons.mp hx with e | hx
        · exact absurd (e.trans h'.symm) hne
        · exact ⟨x, hx, hne⟩

theorem cutLoop_iff (l : List Int) (hl : ∀ o ∈ l, 0 ≤ o) : cutLoop (-1) l = true ↔ Cut l := by
  cases l with
  | nil => exact ⟨(fun h => by cases h), fun ⟨a, ha, _⟩ => by cases ha⟩
  | cons a l =>
    have e : cutLoop (-1) (a :: l) = cutLoop a l := by
      rw [cutLoop]
      exact if_pos rfl
    rw [e, cutLoop_spec l a (hl a List.mem_cons_self)]
    constructor
    · rintro ⟨o, ho, hne⟩
      exact ⟨o, List.mem_cons_of_mem _ ho, a, List.mem_cons_self, hne⟩
    · rintro ⟨x, hx, y, hy, hne⟩
      rcases List.mem_cons.mp hx with rfl | hx
      · rcases List.mem_cons.mp hy with rfl | hy
        · exact absurd rfl hne
        · exact ⟨y, hy, fun e => hne e.symm⟩
      · by_cases hxa : x = a
        · subst hxa
          rcases List.mem_cons.mp hy with rfl | hy
          · exact absurd rfl hne
          · exact ⟨y, hy, fun e => hne e.symm⟩
        · exact ⟨x, hx, hxa⟩

theorem isCut_good (l : List Int) (hl : ∀ o ∈ l, 0 ≤ o) {s : St} {r : Blocks} (h : Own s r) :
    ∃ b s' l', isCut l s = .ok (b, s') ∧ (b = true ↔ Cut l) ∧ To s (l' ++ r) s' ∧ l'.length = if Cut l then 0 else 1 := by
  unfold isCut
  dsimp only
  have t1 := to_allocs [.obj] s r h
  have n1 : (allocs [.obj] s).1.length = 1 := rfl
  generalize allocs [.obj] s = x1 at t1 n1 ⊢
  obtain ⟨it, s1⟩ := x1
  dsimp only at t1 n1 ⊢
  by_cases hc : Cut l
  · have e := (cutLoop_iff l hl).mpr hc
    obtain ⟨s2, e2, t2⟩ := to_frees it s1 r t1.own
    rw [if_pos e, e2, if_pos hc]
    exact ⟨true, s2, [], rfl, ⟨fun _ => hc, fun _ => rfl⟩, t1.trans t2, rfl⟩
  · have e : ¬ cutLoop (-1) l = true := fun e => hc ((cutLoop_iff l hl).mp e)
    rw [if_neg e, if_neg hc]
    exact ⟨false, s1, it, rfl, ⟨(fun x => by cases x), fun x => absurd x hc⟩, t1, n1⟩

theorem resident_good (l : List Int) (p : Int) {s : St} {r : Blocks} (h : Own s r) :
    ∃ b s', isResidentOn l p s = .ok (b, s') ∧ To s r s' := by
  unfold isResidentOn
  dsimp only
  have t1 := to_allocs [.obj] s r h
  generalize allocs [.obj] s = x1 at t1 ⊢
  obtain ⟨it, s1⟩ := x1
  dsimp only at t1 ⊢
  obtain ⟨s2, e2, t2⟩ := to_frees it s1 r t1.own
  rw [e2]
  exact ⟨_, s2, rfl, t1.trans t2⟩

theorem iterates_good : ∀ (xs : List Next) (pit : Blocks) (s : St) (r : Blocks), Own s (pit ++ r) →
    ∃ p' s', xs.foldlM (fun (ps : Blocks × St) x => iterateGraph ps.1 x ps.2) (pit, s) = .ok (p', s') ∧ To s (p' ++ r) s'
  | [], pit, s, r, h => ⟨pit, s, rfl, To.refl h⟩
  | x :: xs, pit, s, r, h => by
    rw [List.foldlM_cons]
    have one : ∃ p1 s1, iterateGraph pit x s = .ok (p1, s1) ∧ To s (p1 ++ r) s1 := by
      cases x with
      | same => exact ⟨pit, s, rfl, To.refl h⟩
      | edge =>
        obtain ⟨s1, e1, t1⟩ := to_frees pit s r h
        unfold iterateGraph
        dsimp only
        rw [e1]
        exact ⟨_, _, rfl, t1.trans (to_allocs [.obj] s1 r t1.own)⟩
      | stop =>
        obtain ⟨s1, e1, t1⟩ := to_frees pit s r h
        unfold iterateGraph
        dsimp only
        rw [e1]
        exact ⟨[], s1, rfl, t1⟩
    obtain ⟨p1, s1, e1, t1⟩ := one
    obtain ⟨p2, s2, e2, t2⟩ := iterates_good xs p1 s1 r t1.own
    dsimp only
    rw [e1]
    exact ⟨p2, s2, e2, t1.trans t2⟩

theorem neutral_neighbours (xs : List Next) : Neutral (neighbours xs) := fun s r h => by
  unfold neighbours
  dsimp only
  have t1 := to_allocs [.obj, .obj] s r h
  generalize allocs [.obj, .obj] s = x1 at t1 ⊢
  obtain ⟨it, s1⟩ := x1
  dsimp only at t1 ⊢
  obtain ⟨p, s2, e2, t2⟩ := iterates_good xs [] s1 _ t1.own
  rw [e2, Outcome.bind_ok]
  dsimp only
  obtain ⟨s3, e3, t3⟩ := to_frees p s2 _ t2.own
  rw [e3, Outcome.bind_ok]
  obtain ⟨s4, e4, t4⟩ := to_frees it s3 _ t3.own
  exact ⟨s4, e4, t1.trans (t2.trans (t3.trans t4))⟩

theorem neutral_evaluate (a b c : Nat) : Neutral (evaluate a b c) := fun s r h => by
  unfold evaluate
  dsimp only
  have t1 := to_allocs [.arr] s r h
  generalize allocs [.arr] s = x1 at t1 ⊢
  obtain ⟨mine, s1⟩ := x1
  dsimp only at t1 ⊢
  have t2 := to_allocs (List.replicate 4 .arr) s1 _ t1.own
  generalize allocs (List.replicate 4 .arr) s1 = x2 at t2 ⊢
  obtain ⟨four, s2⟩ := x2
  dsimp only at t2 ⊢
  obtain ⟨s3, e3, t3⟩ := neutral_bracket [.obj, .arr] (neutral_several c (neutral_bracket [.arr] (neutral_brief .obj))) s2 _ t2.own
  rw [e3, Outcome.bind_ok]
  obtain ⟨s4, e4, t4⟩ := neutral_several (a + 1) (neutral_bracket [.obj, .obj] (neutral_walk b)) s3 _ t3.own
  rw [e4, Outcome.bind_ok]
  have p4 : Own s4 (mine ++ (four ++ r)) := t4.own.perm (by lperm)
  obtain ⟨s5, e5, t5⟩ := to_frees mine s4 _ p4
  rw [e5, Outcome.bind_ok]
  obtain ⟨s6, e6, t6⟩ := to_frees four s5 _ t5.own
  exact ⟨s6, e6, t1.trans (t2.trans (t3.trans (t4.trans (t5.trans t6))))⟩

/-! ## histories -/

theorem moved_tags (k : Known) : ∀ ms, (moved k ms).tags = k.tags ∧ (moved k ms).plans = k.plans := by
  intro ms
  unfold moved
  induction ms generalizing k with
  | nil => exact ⟨rfl, rfl⟩
  | cons m ms ih => exact ih (k.rebuilt m.coords m.fresh m.many)

theorem inv_of {k k' : Known} {n n' : Nat} {s s' : St} {l l' : Blocks} (ht : s.tags.map Option.isSome = k.tags)
    (hp : s.plans.map (Option.map fun p => p.tag.isSome) = k.plans) (hl : l.length = n)
    (h : GK s.tags s.plans (l' ++ (tagsBlocks s.tags ++ (plansBlocks s.plans ++ l))) k' s') (k1 : k'.tags = k.tags) (k2 : k'.plans = k.plans)
    (hn : n' = n + l'.length) : Inv k' n' s' :=
  Inv.more (k := k) h.good rfl rfl rfl rfl rfl h.tags h.plans (by omega) ht hp k1 k2

theorem act_inv {k : Known} {n : Nat} {s : St} (h : Inv k n s) (a : Act) (ha : properAct k a) (ho : PartsOk a) :
    Safe (act s a) (Inv (knownAfter k a) (n + losesAct k a)) := by
  cases a with
  | op o => exact step_inv h o ha
  | balance many cs =>
    obtain ⟨l, hg, hl, ht, hp⟩ := h
    refine Sf.to ?_
    show Sf (Heap.balance (allocs [.obj] s).1 many cs (allocs [.obj] s).2) _
    have g0 : GK s.tags s.plans _ k s := ⟨hg, rfl, rfl⟩
    refine (balance_good _ many cs (g0.to (to_allocs [.obj] s _ hg.own))).mono fun s' h' => ?_
    exact inv_of (l' := []) ht hp hl h' (moved_tags k _).1 (moved_tags k _).2 rfl
  | balanceWeights many steps =>
    obtain ⟨l, hg, hl, ht, hp⟩ := h
    refine Sf.to ?_
    show Sf (weightBalancer (allocs [.obj] s).1 many steps (allocs [.obj] s).2) _
    have g0 : GK s.tags s.plans _ k s := ⟨hg, rfl, rfl⟩
    refine (weightBalancer_good _ many steps (g0.to (to_allocs [.obj] s _ hg.own))).mono fun s' h' => ?_
    exact inv_of (l' := []) ht hp hl h' rfl rfl rfl
  | split z o v m =>
    obtain ⟨l, hg, hl, ht, hp⟩ := h
    refine Sf.to ?_
    show Sf (splitGraph (allocs [.obj] s).1 z o v m (allocs [.obj] s).2) _
    have g0 : GK s.tags s.plans _ k s := ⟨hg, rfl, rfl⟩
    refine (split_good _ z o v m (g0.to (to_allocs [.obj] s _ hg.own))).mono fun s' h' => ?_
    exact inv_of (l' := []) ht hp hl h' rfl rfl rfl
  | residentOn l p =>
    obtain ⟨l0, hg, hl, ht, hp⟩ := h
    obtain ⟨b, s', e, t⟩ := resident_good l p hg.own
    show Safe (isResidentOn l p s >>= fun x => pure x.2) _
    rw [e]
    have g0 : GK s.tags s.plans _ k s := ⟨hg, rfl, rfl⟩
    exact inv_of (l' := []) ht hp hl (g0.to t) rfl rfl rfl
  | isCut l =>
    obtain ⟨l0, hg, hl, ht, hp⟩ := h
    obtain ⟨b, s', l', e, _, t, n'⟩ := isCut_good l ho hg.own
    show Safe (Heap.isCut l s >>= fun x => pure x.2) _
    rw [e]
    have g0 : GK s.tags s.plans _ k s := ⟨hg, rfl, rfl⟩
    exact inv_of ht hp hl (g0.to t) rfl rfl (by rw [n']; rfl)
  | neighbours xs =>
    obtain ⟨l0, hg, hl, ht, hp⟩ := h
    obtain ⟨s', e, t⟩ := neutral_neighbours xs s _ hg.own
    show Safe (Heap.neighbours xs s) _
    rw [e]
    have g0 : GK s.tags s.plans _ k s := ⟨hg, rfl, rfl⟩
    exact inv_of (l' := []) ht hp hl (g0.to t) rfl rfl rfl
  | evaluate a b =>
    obtain ⟨l0, hg, hl, ht, hp⟩ := h
    obtain ⟨s', e, t⟩ := neutral_evaluate s.types a b s _ hg.own
    show Safe (Heap.evaluate s.types a b s) _
    rw [e]
    have g0 : GK s.tags s.plans _ k s := ⟨hg, rfl, rfl⟩
    exact inv_of (l' := []) ht hp hl (g0.to t) rfl rfl rfl

theorem acts_inv : ∀ (as : List Act) (k : Known) (n : Nat) (s : St), Inv k n s → ProperActs k as → (∀ a ∈ as, PartsOk a) →
    Safe (as.foldlM act s) (Inv (knownActs k as) (n + lostActs k as))
  | [], _, _, _, h, _, _ => h
  | a :: as, k, n, s, h, hp, hq => by
    rw [List.foldlM_cons]
    refine (act_inv h a hp.1 (hq a List.mem_cons_self)).bind fun s1 h1 => ?_
    have := acts_inv as (knownAfter k a) (n + losesAct k a) s1 h1 hp.2 fun x hx => hq x (List.mem_cons_of_mem _ hx)
    rw [Nat.add_assoc] at this
    exact this

theorem history_inv (m : Maker) (as : List Act) (hp : ProperActs (Known.begin m) as) (hq : ∀ a ∈ as, PartsOk a) :
    Safe (acts m as) (Inv (knownActs (Known.begin m) as) (lostActs (Known.begin m) as)) := by
  unfold acts
  refine (make_inv m).bind fun s h => ?_
  have := acts_inv as _ 0 s h hp hq
  rwa [Nat.zero_add] at this

end Verif.Part.Heap
