import Verif.Part.DistQueueSets
import Verif.Part.QueueLemmas
/-!
# The distance queue: what a breadth-first search finds
-/
namespace Verif.Part
open Verif.Agi

/-- two edges with a common local vertex; `adj v` are the edges of the local vertex `v < nl` -/
def Nbr (nl : Nat) (adj : Nat → List Nat) (e f : Nat) : Prop := ∃ v, v < nl ∧ e ∈ adj v ∧ f ∈ adj v

theorem Nbr.symm {nl : Nat} {adj : Nat → List Nat} {e f : Nat} (h : Nbr nl adj e f) : Nbr nl adj f e := by
  obtain ⟨v, h1, h2, h3⟩ := h
  exact ⟨v, h1, h3, h2⟩

/-- a set of edges that contains every neighbour of its edges -/
def ClosedSet (nl : Nat) (adj : Nat → List Nat) (C : Nat → Prop) : Prop := ∀ e f, C e → Nbr nl adj e f → C f

/-- a search in progress from the edges `New0` at depth `depth`; the edges of depth up to `d` have been reached -/
structure Search (nl : Nat) (adj : Nat → List Nat) (I : List Nat → (Nat → Int) → List (Nat × Nat) → Inputs → Prop)
    (New0 : List Nat) (depth : Int) (vis0 : Nat → Int) (d : Int) (New : List Nat) (vis : Nat → Int)
    (E : List (Nat × Nat)) (s : Inputs) : Prop where
  inv : I New vis E s
  pre : New0 <+: New
  min : ∀ C : Nat → Prop, ClosedSet nl adj C → (∀ e ∈ New0, C e) → ∀ e ∈ New, C e
  sorted : New.Pairwise (fun a b => vis a ≤ vis b)
  seed : ∀ e ∈ New0, vis e = depth
  pred : ∀ e ∈ New, e ∈ New0 ∨ ∃ f ∈ New, Nbr nl adj f e ∧ vis e = vis f + 1
  out : ∀ e, e ∉ New → vis e = vis0 e
  max : ∀ e ∈ New, vis e ≤ d + 1
  joins : ∀ p ∈ E, Nbr nl adj p.1 p.2

/-- nothing reached is forgotten or moved -/
structure Grows (New : List Nat) (vis : Nat → Int) (E : List (Nat × Nat)) (New' : List Nat) (vis' : Nat → Int)
    (E' : List (Nat × Nat)) : Prop where
  pre : New <+: New'
  same : ∀ e ∈ New, vis' e = vis e
  pairs : ∀ p ∈ E, p ∈ E'

theorem Grows.refl (New : List Nat) (vis : Nat → Int) (E : List (Nat × Nat)) : Grows New vis E New vis E :=
  ⟨List.prefix_rfl, fun _ _ => rfl, fun _ h => h⟩

theorem Grows.mem {A : List Nat} {va : Nat → Int} {EA : List (Nat × Nat)} {B : List Nat} {vb : Nat → Int}
    {EB : List (Nat × Nat)} (h : Grows A va EA B vb EB) {e : Nat} (he : e ∈ A) : e ∈ B := h.pre.subset he

theorem Grows.trans {A B C : List Nat} {va vb vc : Nat → Int} {EA EB EC : List (Nat × Nat)}
    (h1 : Grows A va EA B vb EB) (h2 : Grows B vb EB C vc EC) : Grows A va EA C vc EC :=
  ⟨h1.pre.trans h2.pre, fun e he => by rw [h2.same e (h1.mem he), h1.same e he], fun p hp => h2.pairs p (h1.pairs p hp)⟩

section
variable {nl N : Nat} {adj : Nat → List Nat} {Old : List Nat} {visit : Visit}
  {I : List Nat → (Nat → Int) → List (Nat × Nat) → Inputs → Prop}
  {New0 : List Nat} {depth : Int} {vis0 : Nat → Int}

/-- one visit -/
theorem visit_step (hV : VisitOk visit N Old I) (hN : ∀ v, v < nl → ∀ e ∈ adj v, e < N)
    (hOld : ClosedSet nl adj (· ∈ Old)) {d : Int} {New : List Nat} {vis : Nat → Int} {E : List (Nat × Nat)} {s : Inputs}
    (h : Search nl adj I New0 depth vis0 d New vis E s) {src dst : Nat} (hs : src ∈ New) (hd : vis src = d)
    (hn : Nbr nl adj src dst) :
    ∃ s' b New' vis' E', visit s src dst = .ok (s', b) ∧ Search nl adj I New0 depth vis0 d New' vis' E' s' ∧
      Grows New vis E New' vis' E' ∧ dst ∈ New' ∧ (src, dst) ∈ E' ∧
      New'.length = New.length + (if b then 1 else 0) := by
  have hst := hV.base _ _ _ _ h.inv
  have hj : ∀ p ∈ (src, dst) :: E, Nbr nl adj p.1 p.2 := by
    intro p hp
    rcases List.mem_cons.mp hp with rfl | hp
    · exact hn
    · exact h.joins p hp
  by_cases hm : dst ∈ New
  · obtain ⟨s', e, hi⟩ := hV.old New vis E s src dst h.inv hs hm
    exact ⟨s', false, New, vis, (src, dst) :: E, e, { h with inv := hi, joins := hj },
      ⟨List.prefix_rfl, fun _ _ => rfl, fun p hp => List.mem_cons_of_mem _ hp⟩, hm, by simp, by simp⟩
  · have ho : dst ∉ Old := by
      intro ho
      exact (List.nodup_append.mp hst.seeds.nodup).2.2 src (hOld _ _ ho hn.symm) src hs rfl
    have hlt : dst < N := by
      obtain ⟨v, h1, -, h3⟩ := hn
      exact hN v h1 dst h3
    obtain ⟨s', e, hi⟩ := hV.new New vis E s src dst h.inv hs hlt ho hm
    have hsame : ∀ x ∈ New, Function.update vis dst (vis src + 1) x = vis x := fun x hx => by
      rw [Function.update_of_ne]; rintro rfl; exact hm hx
    refine ⟨s', true, New ++ [dst], _, _, e, ⟨hi, h.pre.trans (List.prefix_append _ _), ?_, ?_, ?_, ?_, ?_, ?_, hj⟩,
      ⟨List.prefix_append _ _, hsame, fun p hp => List.mem_cons_of_mem _ hp⟩, by simp, by simp, by simp⟩
    · intro C hC h0 x hx
      rcases List.mem_append.mp hx with hx | hx
      · exact h.min C hC h0 x hx
      · rw [List.mem_singleton] at hx
        subst hx
        exact hC _ _ (h.min C hC h0 src hs) hn
    · rw [List.pairwise_append]
      refine ⟨?_, by simp, ?_⟩
      · refine List.Pairwise.imp_of_mem ?_ h.sorted
        intro a b ha hb hab
        rw [hsame a ha, hsame b hb]; exact hab
      · intro a ha b hb
        rw [List.mem_singleton] at hb
        subst hb
        rw [hsame a ha, Function.update_self, hd]
        exact h.max a ha
    · intro x hx
      rw [hsame x (h.pre.subset hx)]; exact h.seed x hx
    · intro x hx
      rcases List.mem_append.mp hx with hx | hx
      · rcases h.pred x hx with h0 | ⟨f, h1, h2, h3⟩
        · exact Or.inl h0
        · exact Or.inr ⟨f, List.mem_append_left _ h1, h2, by rw [hsame x hx, hsame f h1]; exact h3⟩
      · rw [List.mem_singleton] at hx
        subst hx
        exact Or.inr ⟨src, List.mem_append_left _ hs, hn, by rw [Function.update_self, hsame src hs]⟩
    · intro x hx
      rw [List.mem_append, List.mem_singleton, not_or] at hx
      rw [Function.update_of_ne hx.2]; exact h.out x hx.1
    · intro x hx
      rcases List.mem_append.mp hx with hx | hx
      · rw [hsame x hx]; exact h.max x hx
      · rw [List.mem_singleton] at hx
        subst hx
        rw [Function.update_self, hd]

end

/-- what the search found when it ends -/
structure Found (nl : Nat) (adj : Nat → List Nat) (New0 : List Nat) (depth : Int) (vis0 : Nat → Int) (New : List Nat)
    (vis : Nat → Int) (E : List (Nat × Nat)) : Prop where
  pre : New0 <+: New
  min : ∀ C : Nat → Prop, ClosedSet nl adj C → (∀ e ∈ New0, C e) → ∀ e ∈ New, C e
  sorted : New.Pairwise (fun a b => vis a ≤ vis b)
  seed : ∀ e ∈ New0, vis e = depth
  pred : ∀ e ∈ New, e ∈ New0 ∨ ∃ f ∈ New, Nbr nl adj f e ∧ vis e = vis f + 1
  out : ∀ e, e ∉ New → vis e = vis0 e
  closed : ∀ e f, e ∈ New → Nbr nl adj e f → f ∈ New ∧ vis f ≤ vis e + 1
  link : ∀ v, v < nl → ∀ e ∈ adj v, e ∈ New → ∃ src, ∀ f ∈ adj v, f = src ∨ (src, f) ∈ E
  joins : ∀ p ∈ E, Nbr nl adj p.1 p.2

/-- a local vertex whose edges have been visited -/
structure DoneAt (adj : Nat → List Nat) (New : List Nat) (vis : Nat → Int) (E : List (Nat × Nat)) (v : Nat) : Prop where
  mem : ∀ f ∈ adj v, f ∈ New
  near : ∀ e ∈ adj v, ∀ f ∈ adj v, vis f ≤ vis e + 1
  link : ∃ src, ∀ f ∈ adj v, f = src ∨ (src, f) ∈ E

theorem DoneAt.grows {adj : Nat → List Nat} {New : List Nat} {vis : Nat → Int} {E : List (Nat × Nat)} {v : Nat}
    {New' : List Nat} {vis' : Nat → Int} {E' : List (Nat × Nat)} (h : DoneAt adj New vis E v)
    (hg : Grows New vis E New' vis' E') : DoneAt adj New' vis' E' v := by
  obtain ⟨src, hl⟩ := h.link
  refine ⟨fun f hf => hg.mem (h.mem f hf), ?_, src, fun f hf => (hl f hf).imp id (hg.pairs _)⟩
  intro e he f hf
  rw [hg.same _ (h.mem e he), hg.same _ (h.mem f hf)]
  exact h.near e he f hf

/-- a search all of whose edges have only visited vertices is over -/
theorem Search.found {nl : Nat} {adj : Nat → List Nat} {I : List Nat → (Nat → Int) → List (Nat × Nat) → Inputs → Prop}
    {New0 : List Nat} {depth : Int} {vis0 : Nat → Int} {d : Int} {New : List Nat} {vis : Nat → Int}
    {E : List (Nat × Nat)} {s : Inputs} (h : Search nl adj I New0 depth vis0 d New vis E s)
    (hd : ∀ v, v < nl → ∀ e ∈ adj v, e ∈ New → DoneAt adj New vis E v) : Found nl adj New0 depth vis0 New vis E := by
  refine ⟨h.pre, h.min, h.sorted, h.seed, h.pred, h.out, ?_, ?_, h.joins⟩
  · rintro e f he ⟨v, hv, hev, hfv⟩
    have := hd v hv e hev he
    exact ⟨this.mem f hfv, this.near e hev f hfv⟩
  · intro v hv e hev he
    exact (hd v hv e hev he).link

end Verif.Part
