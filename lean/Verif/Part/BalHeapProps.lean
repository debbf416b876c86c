import Verif.Part.BalHeapInv
import Verif.Agi.HeapProps
import Verif.Mem
/-!
# C83: balancing, splitting and asking give memory back

Histories of C82 with balancing, splitting, the weight balancer, the queries with iterators and `evaluatePartition`, for any numbers of
edges, criteria, steps, migrations, senders and any queues.
-/
namespace Verif.Part.Heap
open Verif.Agi.Heap Verif

/-- No proper history releases anything twice or with the wrong form of `delete`. -/
theorem c83_no_ub (m : Maker) (as : List Act) (hp : ProperActs (Known.begin m) as) (hq : ∀ a ∈ as, PartsOk a) : acts m as ≠ .ub := by
  have h := history_inv m as hp hq
  intro e
  rw [e] at h
  exact h

/-- After any proper history the graph can be destroyed; then exactly the blocks the calls lost and the user's tags and plans are
allocated: nothing of balancers, queues, selectors, plans, weight graphs, splitters and iterators, except one iterator for each edge
`isCut` was asked about that is not cut. -/
theorem c83_memory (m : Maker) (as : List Act) (hp : ProperActs (Known.begin m) as) (hq : ∀ a ∈ as, PartsOk a) (s : St)
    (hs : acts m as = .ok s) :
    ∃ s', destroyGraph s = .ok s' ∧ s'.live.length = lostActs (Known.begin m) as + (knownActs (Known.begin m) as).kept := by
  have h := history_inv m as hp hq
  rw [hs] at h
  obtain ⟨l, hg, hl, ht, hpl⟩ := h
  obtain ⟨s', e, o, n, _⟩ := own_destroy hg.own
  refine ⟨s', e, ?_⟩
  have := o.length_eq
  rw [held_none n, List.nil_append, List.length_append, List.length_append, tags_length, plans_length, ht, hpl, hl] at this
  rw [this]
  unfold Known.kept
  omega

/-- While the graph is used the blocks are those its pointers hold, those of the user and the lost ones. -/
theorem c83_during (m : Maker) (as : List Act) (hp : ProperActs (Known.begin m) as) (hq : ∀ a ∈ as, PartsOk a) (s : St)
    (hs : acts m as = .ok s) :
    s.live.length = (held s.g fields).length + (knownActs (Known.begin m) as).kept + lostActs (Known.begin m) as := by
  have h := history_inv m as hp hq
  rw [hs] at h
  obtain ⟨l, hg, hl, ht, hpl⟩ := h
  have := hg.own.length_eq
  rw [List.length_append, List.length_append, List.length_append, tags_length, plans_length, ht, hpl, hl] at this
  rw [this]
  unfold Known.kept
  omega

/-- the calls of `partition/` and the iterators, without those of C82 -/
def OnlyPartition (as : List Act) : Prop := ∀ a ∈ as, ∀ o, a ≠ .op o

theorem partition_known : ∀ (as : List Act) (k : Known), OnlyPartition as → (knownActs k as).tags = k.tags ∧ (knownActs k as).plans = k.plans
  | [], _, _ => ⟨rfl, rfl⟩
  | a :: as, k, h => by
    have ih := partition_known as (knownAfter k a) fun x hx => h x (List.mem_cons_of_mem _ hx)
    have : (knownAfter k a).tags = k.tags ∧ (knownAfter k a).plans = k.plans := by
      cases a with
      | op o => exact absurd rfl (h _ List.mem_cons_self o)
      | balance many cs => exact moved_tags k _
      | split _ _ _ m => exact moved_tags k [m]
      | balanceWeights _ _ => exact ⟨rfl, rfl⟩
      | residentOn _ _ => exact ⟨rfl, rfl⟩
      | isCut _ => exact ⟨rfl, rfl⟩
      | neighbours _ => exact ⟨rfl, rfl⟩
      | evaluate _ _ => exact ⟨rfl, rfl⟩
    exact ⟨ih.1.trans this.1, ih.2.trans this.2⟩

theorem partition_proper : ∀ (as : List Act) (k : Known), OnlyPartition as → ProperActs k as
  | [], _, _ => trivial
  | a :: as, k, h => by
    refine ⟨?_, partition_proper as _ fun x hx => h x (List.mem_cons_of_mem _ hx)⟩
    cases a with
    | op o => exact absurd rfl (h _ List.mem_cons_self o)
    | _ => trivial

/-- edges asked about that are not cut -/
def uncut (as : List Act) : Nat := as.countP fun a => match a with | .isCut l => decide (¬ Cut l) | _ => false

theorem partition_lost : ∀ (as : List Act) (k : Known), OnlyPartition as → lostActs k as = uncut as
  | [], _, _ => rfl
  | a :: as, k, h => by
    have ih := partition_lost as (knownAfter k a) fun x hx => h x (List.mem_cons_of_mem _ hx)
    unfold uncut at ih ⊢
    rw [lostActs, ih, List.countP_cons]
    cases a with
    | op o => exact absurd rfl (h _ List.mem_cons_self o)
    | isCut l =>
      unfold losesAct
      by_cases hc : Cut l
      · simp [hc]
      · simp [hc]; omega
    | balance many cs => unfold losesAct; simp
    | split _ _ _ m => unfold losesAct; simp
    | balanceWeights _ _ => unfold losesAct; simp
    | residentOn _ _ => unfold losesAct; simp
    | neighbours _ => unfold losesAct; simp
    | evaluate _ _ => unfold losesAct; simp

/-- Any balancing, splitting, evaluating and asking, in any order and number, on any graph: after `destroyGraph` nothing is left of all
that, except an iterator for each question `isCut` with the answer no. -/
theorem c83_partition (m : Maker) (as : List Act) (ho : OnlyPartition as) (hq : ∀ a ∈ as, PartsOk a) (s : St) (hs : acts m as = .ok s) :
    ∃ s', destroyGraph s = .ok s' ∧ s'.live.length = uncut as := by
  obtain ⟨s', e, h⟩ := c83_memory m as (partition_proper as _ ho) hq s hs
  refine ⟨s', e, ?_⟩
  have hk := partition_known as (Known.begin m) ho
  rw [h, partition_lost as _ ho]
  unfold Known.kept
  rw [hk.1, hk.2]
  cases m <;> rfl

/-- A user who balances, splits, evaluates and asks anything but `isCut` about uncut edges leaves nothing.  Missing from the property:
`isCut` loses its iterator when the answer is no (`c83_isCut_leak`). -/
theorem c83_clean_partial (m : Maker) (as : List Act) (ho : OnlyPartition as) (hq : ∀ a ∈ as, PartsOk a)
    (hc : ∀ l, Act.isCut l ∈ as → Cut l) (s : St) (hs : acts m as = .ok s) : ∃ s', destroyGraph s = .ok s' ∧ s'.live = [] := by
  obtain ⟨s', e, h⟩ := c83_partition m as ho hq s hs
  refine ⟨s', e, List.eq_nil_of_length_eq_zero ?_⟩
  rw [h]
  unfold uncut
  rw [List.countP_eq_zero]
  intro a ha
  cases a with
  | isCut l => simpa using hc l ha
  | _ => simp

/-- `isCut` answers whether two pins have different owners, on every heap. -/
theorem c83_isCut (l : List Int) (hl : ∀ o ∈ l, 0 ≤ o) (s : St) :
    ∃ b s', isCut l s = .ok (b, s') ∧ (b = true ↔ ∃ a ∈ l, ∃ b ∈ l, a ≠ b) := by
  unfold isCut
  show ∃ b s', (if cutLoop (-1) l then (frees (allocs [.obj] s).1 (allocs [.obj] s).2 >>= fun s => pure (true, s))
    else pure (false, (allocs [.obj] s).2) : Outcome (Bool × St)) = .ok (b, s') ∧ _
  by_cases hc : Cut l
  · rw [if_pos ((cutLoop_iff l hl).mpr hc)]
    have : ∃ s2, frees (allocs [.obj] s).1 (allocs [.obj] s).2 = .ok s2 := by
      refine ⟨{ (allocs [.obj] s).2 with live := (allocs [.obj] s).2.live.erase (s.next, .obj) }, ?_⟩
      show (free .obj s.next (allocs [.obj] s).2 >>= fun s => pure s : Outcome St) = _
      unfold free
      rw [if_pos (show (s.next, Kind.obj) ∈ (allocs [.obj] s).2.live from List.mem_cons_self)]
      rfl
    obtain ⟨s2, e⟩ := this
    rw [e]
    exact ⟨true, s2, rfl, ⟨fun _ => hc, fun _ => rfl⟩⟩
  · have e : ¬ cutLoop (-1) l = true := fun e => hc ((cutLoop_iff l hl).mp e)
    rw [if_neg e]
    exact ⟨false, _, rfl, ⟨(fun x => by cases x), fun x => absurd x hc⟩⟩

/-- The answers of `isResidentOn` -/
theorem c83_resident (l : List Int) (p : Int) (s : St) (r : List (Nat × Kind)) (h : Own s r) :
    ∃ s', isResidentOn l p s = .ok (decide (p ∈ l), s') ∧ s'.live.length = s.live.length := by
  obtain ⟨b, s', e, t⟩ := resident_good l p h
  have hb : b = decide (p ∈ l) := by
    unfold isResidentOn at e
    dsimp only at e
    obtain ⟨s2, _, e2⟩ := _root_.Verif.bind_ok_iff.mp e
    have := (Prod.mk.inj (Outcome.ok.inj e2)).1
    rw [← this, Bool.eq_iff_iff]
    simp
  subst hb
  refine ⟨s', e, ?_⟩
  rw [t.own.length_eq, h.length_eq, t.g]

/-! ## Where the code does not keep the property -/

def liveActs (m : Maker) (as : List Act) : Outcome Nat := do
  let s ← acts m as
  let s ← destroyGraph s
  return s.live.length

/-- each edge that is not cut costs an iterator -/
theorem c83_isCut_leak : liveActs (.binary true true) [.isCut [0, 0, 0], .isCut [0, 1], .isCut [2, 2]] = .ok 2 := by
  decide +kernel

/-- for any number of questions: counting the cut edges of a part with `isCut` costs an iterator for each edge inside -/
theorem c83_isCut_unbounded (m : Maker) (n : Nat) (s : St) (hs : acts m (List.replicate n (.isCut [0, 0])) = .ok s) :
    ∃ s', destroyGraph s = .ok s' ∧ s'.live.length = n := by
  obtain ⟨s', e, h⟩ := c83_partition m (List.replicate n (.isCut [0, 0]))
    (fun a ha o => by rw [List.eq_of_mem_replicate ha]; intro x; cases x)
    (fun a ha => by rw [List.eq_of_mem_replicate ha]; intro o ho; simp at ho; omega) s hs
  refine ⟨s', e, h.trans ?_⟩
  unfold uncut
  rw [List.countP_replicate]
  have : ¬ Cut [0, 0] := by decide
  simp [this]

/-! ## Non-vacuity -/

def aMove : Move := ⟨true, [true, true], true⟩

def aStep (q : QueueRun) (c : Nat) (mv : Option Move) : Step := ⟨3, c, q, true, 4, 2, 2, 3, mv⟩

def long : List Act :=
  [.op .setCoords, .op (.edges true), .evaluate 3 2,
   .balance true [⟨3, some (true, [⟨2, 1, true⟩, ⟨2, 0, false⟩]), [aStep (.iteration 2) 0 (some aMove), aStep .noEdges 0 none]⟩,
     ⟨2, some (false, [⟨1, 1, true⟩]), [aStep (.distance true 2 [1, 2] 3) 1 (some aMove), aStep (.distance false 1 [1] 2) 1 none,
       aStep .noSeeds 1 (some aMove)]⟩],
   .residentOn [0, 1] 1, .isCut [0, 0, 1], .isCut [0, 0], .neighbours [.edge, .same, .edge, .stop], .neighbours [.edge, .same],
   .split true false true aMove, .split false true true aMove, .split true true false aMove, .balanceWeights true [⟨2, 2, true⟩],
   .balance false [], .op .setWeights]

example : ProperActs (Known.begin .empty) long ∧ ∀ a ∈ long, PartsOk a := by
  refine ⟨by repeat' constructor, ?_⟩
  intro a ha
  simp only [long, List.mem_cons, List.not_mem_nil, or_false] at ha
  rcases ha with rfl | rfl | rfl | rfl | rfl | rfl | rfl | rfl | rfl | rfl | rfl | rfl | rfl | rfl | rfl <;>
    first | trivial | (intro o ho; simp at ho; omega)

example : liveActs .empty long = .ok 1 ∧ lostActs (Known.begin .empty) long = 1 ∧ (knownActs (Known.begin .empty) long).kept = 0 := by
  refine ⟨by decide +kernel, by decide +kernel, by decide +kernel⟩

end Verif.Part.Heap
