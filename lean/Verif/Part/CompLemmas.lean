import Verif.Part.CompModel
import Verif.Agi.TagProps
import Verif.Agi.AdjLemmas
import Mathlib.SetTheory.Cardinal.Finite
/-!
# Lemmas on the count of components
-/
namespace Verif.Part
open Verif.Agi Verif.Io

/-- representatives of the components give their number -/
theorem card_quot {α : Type} (r : α → α → Prop) (reps : List α)
    (h1 : reps.Pairwise (fun a b => ¬ Relation.EqvGen r a b)) (h2 : ∀ a, ∃ b ∈ reps, Relation.EqvGen r b a) :
    Nat.card (Quot r) = reps.length := by
  have hb : Function.Bijective (fun i : Fin reps.length => Quot.mk r reps[i]) := by
    constructor
    · intro i j hij
      have he := Quot.eqvGen_exact hij
      rcases Nat.lt_trichotomy i.1 j.1 with h | h | h
      · exact absurd he (List.pairwise_iff_getElem.mp h1 i j i.2 j.2 h)
      · exact Fin.ext h
      · exact absurd (Relation.EqvGen.symm _ _ he) (List.pairwise_iff_getElem.mp h1 j i j.2 i.2 h)
    · intro q
      induction q using Quot.ind with
      | mk a =>
        obtain ⟨b, hb, he⟩ := h2 a
        obtain ⟨i, hi, rfl⟩ := List.mem_iff_getElem.mp hb
        exact ⟨⟨i, hi⟩, Quot.eqvGen_sound he⟩
  rw [← Nat.card_eq_of_bijective _ hb, Nat.card_eq_fintype_card, Fintype.card_fin]

theorem eqvGen_of_reach {α : Type} {r : α → α → Prop} {a b : α} (h : Relation.ReflTransGen r a b) :
    Relation.EqvGen r a b := by
  induction h with
  | refl => exact Relation.EqvGen.refl _
  | tail _ h2 ih => exact Relation.EqvGen.trans _ _ _ ih (Relation.EqvGen.rel _ _ h2)

/-- the tag marks the vertices with property `V` among the first `n` with 1, the others with 0 -/
structure Marks (little : Bool) (n : Nat) (V : Nat → Prop) (d : Mem Nat) : Prop where
  holds : ∃ h, Holds little 4 n h d ∧ (∀ p ∈ h, p.2 < 256 ^ 4) ∧
    ∀ l < n, (V l ∧ lastWrite h l = some 1) ∨ (¬ V l ∧ lastWrite h l = some 0)

section
variable {g : Graph} {little : Bool}

theorem Marks.get {V : Nat → Prop} {d : Mem Nat} (h : Marks little g.numLocal V d) {l : Nat} (hl : l < g.numLocal) :
    ∃ x, g.getTagV little 4 d (getVertex l) = .ok x ∧ (x = 0 ↔ ¬ V l) := by
  obtain ⟨w, hw, hb, hv⟩ := h.holds
  have hg := holds_get hw (by omega) hb hl
  have he : g.getTagV little 4 d (getVertex l) = infoGet little 4 d l := by
    simp only [Graph.getTagV, vidx, fromPtr, getVertex]
    simp [Nat.not_le.mpr hl]
  rw [he, hg]
  rcases hv l hl with ⟨h1, h2⟩ | ⟨h1, h2⟩
  · rw [h2]; exact ⟨1, rfl, by simp [h1]⟩
  · rw [h2]; exact ⟨0, rfl, by simp [h1]⟩

theorem Marks.set {V : Nat → Prop} {d : Mem Nat} (h : Marks little g.numLocal V d) {l : Nat} (hl : l < g.numLocal) :
    ∃ d', g.setTagV little 4 d (getVertex l) 1 = .ok d' ∧ Marks little g.numLocal (fun x => V x ∨ x = l) d' := by
  obtain ⟨w, hw, hb, hv⟩ := h.holds
  obtain ⟨d', e, hw'⟩ := holds_set hw 1 hl
  refine ⟨d', by simpa [Graph.setTagV, vidx, fromPtr, getVertex] using e, ⟨_, hw', ?_, ?_⟩⟩
  · intro p hp
    rcases List.mem_append.mp hp with hp | hp
    · exact hb p hp
    · rw [List.mem_singleton.mp hp]; exact (by decide : (1 : Nat) < 256 ^ 4)
  · intro x hx
    rw [lastWrite_snoc]
    by_cases hxl : l = x
    · rw [if_pos hxl]; exact .inl ⟨.inr hxl.symm, rfl⟩
    · rw [if_neg hxl]
      rcases hv x hx with ⟨h1, h2⟩ | ⟨h1, h2⟩
      · exact .inl ⟨.inl h1, h2⟩
      · refine .inr ⟨?_, h2⟩
        rintro (h3 | h3)
        · exact h1 h3
        · exact hxl h3.symm

theorem Marks.congr {n : Nat} {V W : Nat → Prop} {d : Mem Nat} (h : Marks little n V d) (hvw : ∀ l < n, V l ↔ W l) :
    Marks little n W d := by
  obtain ⟨w, hw, hb, hv⟩ := h.holds
  refine ⟨w, hw, hb, ?_⟩
  intro l hl
  rw [← hvw l hl]
  exact hv l hl

/-- clearing the tag -/
theorem clear_marks : ∃ d0 d, g.createTag 4 none = .ok d0 ∧
    iterLoop g.iterVertex (clearVisit g little) g.bound vertexBegin d0 = .ok d ∧
    Marks little g.numLocal (fun _ => False) d := by
  refine ⟨infoNew g.numLocal 4, ?_⟩
  have hy := yields_vertices g
  rw [iterLoop_yields _ _ _ _ _ hy (by simp [Graph.bound]; omega)]
  rw [loopList_fold (f := fun d v => g.setTagV little 4 d v 0) _ (by
    intro b x _
    unfold clearVisit
    cases g.setTagV little 4 b x 0 <;> rfl), List.foldlM_map]
  obtain ⟨d, e, H⟩ := holds_run (n := g.numLocal) (little := little) (w := 4)
    (fun d l x => g.setTagV little 4 d (getVertex l) x)
    (fun d l x _ => by simp [Graph.setTagV, vidx, fromPtr, getVertex])
    ((List.range g.numLocal).map (fun l => (l, 0))) (by simp) _ [] (holds_new little 4 _)
  rw [List.foldlM_map] at e
  refine ⟨d, rfl, e, ⟨_, by simpa using H, by simp, ?_⟩⟩
  intro l hl
  right
  refine ⟨by simp, ?_⟩
  have : ∀ m, l < m → lastWrite ((List.range m).map (fun l => (l, 0))) l = some 0 := by
    intro m
    induction m with
    | zero => intro h; omega
    | succ m ih =>
      intro h
      rw [List.range_succ, List.map_append, List.map_singleton, lastWrite_snoc]
      by_cases hm : m = l
      · rw [if_pos hm]
      · rw [if_neg hm]; exact ih (by omega)
  simpa using this _ hl

/-- the vertices adjacent to a vertex of the part -/
structure BfsFacts (g : Graph) (nb : Nat → List Nat) : Prop where
  adj : ∀ u < g.numLocal, YieldsFrom (g.adjacent (getVertex u) 0) g.iterAdj ((nb u).map getVertex) ∧
    (nb u).length < g.adjFuel
  owner : ∀ u < g.numLocal, ∀ w ∈ nb u, ∃ o, g.owner (getVertex w) = .ok o ∧ (o = g.self ↔ w < g.numLocal)

variable {nb : Nat → List Nat}

/-- the state of the search: `Q` has been reached from `v`; `V0` had been marked before -/
structure BInv (g : Graph) (little : Bool) (nb : Nat → List Nat) (V0 : Nat → Prop) (v : Nat) (Q : List Nat)
    (s : BfsSt) : Prop where
  nodup : Q.Nodup
  lt : ∀ l ∈ Q, l < g.numLocal
  new : ∀ l ∈ Q, ¬ V0 l
  start : v ∈ Q
  reach : ∀ l ∈ Q, Relation.ReflTransGen (fun a b => b ∈ nb a ∧ a < g.numLocal ∧ b < g.numLocal) v l
  size : s.size = Q.length
  qlen : s.queue.length = g.numLocal
  queue : ∀ k (h : k < Q.length), s.queue[k]? = some (some (getVertex Q[k]))
  marks : Marks little g.numLocal (fun l => V0 l ∨ l ∈ Q) s.visited

theorem bfsVisit_inv {V0 : Nat → Prop} {v : Nat} {Q : List Nat} {s : BfsSt} (h : BInv g little nb V0 v Q s) {u : Nat}
    (hu : u ∈ Q) {w : Nat} (hw : w ∈ nb u) (hf : BfsFacts g nb) :
    ∃ s' Q', bfsVisit g little s (getVertex w) = .ok (s', false) ∧ BInv g little nb V0 v Q' s' ∧ Q <+: Q' ∧
      (w < g.numLocal → V0 w ∨ w ∈ Q') := by
  obtain ⟨o, eo, ho⟩ := hf.owner u (h.lt u hu) w hw
  unfold bfsVisit
  rw [eo, Outcome.bind_ok]
  by_cases hl : w < g.numLocal
  · rw [if_neg (by rw [ne_eq, not_not]; exact ho.mpr hl)]
    obtain ⟨x, ex, hx⟩ := h.marks.get hl
    rw [ex, Outcome.bind_ok]
    by_cases hx0 : x = 0
    · rw [if_pos hx0]
      have hn := hx.mp hx0
      push Not at hn
      have hnd : (Q ++ [w]).Nodup := by
        rw [List.nodup_append]
        exact ⟨h.nodup, List.nodup_singleton _, by
          intro a ha b hb; rw [List.mem_singleton.mp hb]; rintro rfl; exact hn.2 ha⟩
      have hlen : Q.length < g.numLocal := by
        have h1 : (Q ++ [w]).length ≤ (List.range g.numLocal).length := (hnd.subperm (by
          intro a ha
          rw [List.mem_range]
          rcases List.mem_append.mp ha with ha | ha
          · exact h.lt a ha
          · rw [List.mem_singleton.mp ha]; exact hl)).length_le
        simp at h1; omega
      rw [Mem.store_ok _ (by rw [h.size, h.qlen]; exact hlen), Outcome.bind_ok]
      obtain ⟨d, ed, hd⟩ := h.marks.set hl
      rw [ed, Outcome.bind_ok]
      refine ⟨_, Q ++ [w], rfl, ⟨hnd, ?_, ?_, List.mem_append_left _ h.start, ?_, ?_, ?_, ?_, ?_⟩, List.prefix_append _ _, fun _ => .inr (by simp)⟩
      · intro l hl'
        rcases List.mem_append.mp hl' with hl' | hl'
        · exact h.lt l hl'
        · rw [List.mem_singleton.mp hl']; exact hl
      · intro l hl'
        rcases List.mem_append.mp hl' with hl' | hl'
        · exact h.new l hl'
        · rw [List.mem_singleton.mp hl']; exact hn.1
      · intro l hl'
        rcases List.mem_append.mp hl' with hl' | hl'
        · exact h.reach l hl'
        · rw [List.mem_singleton.mp hl']
          exact (h.reach u hu).tail ⟨hw, h.lt u hu, hl⟩
      · simp [h.size]
      · simp [h.qlen]
      · intro k hk
        rw [List.length_append, List.length_singleton] at hk
        rw [List.getElem?_set]
        by_cases hkq : k < Q.length
        · rw [if_neg (by rw [h.size]; omega), List.getElem_append_left hkq]
          exact h.queue k hkq
        · have : k = Q.length := by omega
          subst this
          rw [if_pos h.size, if_pos (by rw [h.size, h.qlen]; exact hlen)]
          simp
      · refine hd.congr ?_
        intro l _
        simp [or_assoc]
    · rw [if_neg hx0]
      refine ⟨s, Q, rfl, h, List.prefix_refl _, fun _ => ?_⟩
      by_contra hc
      exact hx0 (hx.mpr hc)
  · rw [if_pos (by intro h'; exact hl (ho.mp h'))]
    exact ⟨s, Q, rfl, h, List.prefix_refl _, fun h' => absurd h' hl⟩

theorem bfsVisits_inv {V0 : Nat → Prop} {v u : Nat} (hf : BfsFacts g nb) : ∀ (ws : List Nat) (Q : List Nat) (s : BfsSt),
    BInv g little nb V0 v Q s → u ∈ Q → (∀ w ∈ ws, w ∈ nb u) →
    ∃ s' Q', loopList (bfsVisit g little) (ws.map getVertex) s = .ok s' ∧ BInv g little nb V0 v Q' s' ∧ Q <+: Q' ∧
      ∀ w ∈ ws, w < g.numLocal → V0 w ∨ w ∈ Q'
  | [], Q, s, h, _, _ => ⟨s, Q, rfl, h, List.prefix_refl _, by simp⟩
  | w :: ws, Q, s, h, hu, hws => by
    obtain ⟨s1, Q1, e1, h1, p1, c1⟩ := bfsVisit_inv h hu (hws w (by simp)) hf
    obtain ⟨s2, Q2, e2, h2, p2, c2⟩ := bfsVisits_inv hf ws Q1 s1 h1 (p1.subset hu) (fun x hx => hws x (by simp [hx]))
    refine ⟨s2, Q2, ?_, h2, p1.trans p2, ?_⟩
    · rw [List.map_cons, loopList, e1]
      exact e2
    · intro x hx hl
      rcases List.mem_cons.mp hx with rfl | hx
      · exact (c1 hl).imp id (fun h => p2.subset h)
      · exact c2 x hx hl

theorem BInv.length_le {V0 : Nat → Prop} {v : Nat} {Q : List Nat} {s : BfsSt} (h : BInv g little nb V0 v Q s) :
    Q.length ≤ g.numLocal := by
  have h1 : Q.length ≤ (List.range g.numLocal).length := (h.nodup.subperm (by
    intro a ha
    rw [List.mem_range]
    exact h.lt a ha)).length_le
  simpa using h1

theorem bfsLoop_inv {V0 : Nat → Prop} {v : Nat} (hf : BfsFacts g nb) : ∀ (fuel i : Nat) (Q : List Nat) (s : BfsSt),
    BInv g little nb V0 v Q s → i ≤ Q.length → g.numLocal + 1 ≤ fuel + i →
    (∀ u ∈ Q.take i, ∀ w ∈ nb u, w < g.numLocal → V0 w ∨ w ∈ Q) →
    ∃ s' Q', bfsLoop g little fuel i s = .ok s' ∧ BInv g little nb V0 v Q' s' ∧
      ∀ u ∈ Q', ∀ w ∈ nb u, w < g.numLocal → V0 w ∨ w ∈ Q'
  | 0, i, Q, s, h, hi, hfu, _ => by have := h.length_le; omega
  | fuel + 1, i, Q, s, h, hi, hfu, hcl => by
    unfold bfsLoop
    rw [h.size]
    by_cases hiq : i < Q.length
    · rw [if_pos hiq, Mem.load_ok (h.queue i hiq), Outcome.bind_ok]
      have hui := List.getElem_mem hiq
      obtain ⟨⟨it, eit, hy⟩, hlen⟩ := hf.adj Q[i] (h.lt _ hui)
      rw [eit, Outcome.bind_ok, iterLoop_yields _ _ _ _ _ hy (by simpa using hlen)]
      obtain ⟨s1, Q1, e1, h1, p1, c1⟩ := bfsVisits_inv hf (nb Q[i]) Q s h hui (fun w hw => hw)
      rw [e1, Outcome.bind_ok]
      have hpl := p1.length_le
      refine bfsLoop_inv hf fuel (i + 1) Q1 s1 h1 (by omega) (by omega) ?_
      intro u hu w hw hl
      obtain ⟨R, rfl⟩ := p1
      rw [List.take_append_of_le_length (by omega), List.take_add_one, List.mem_append] at hu
      rcases hu with hu | hu
      · exact (hcl u hu w hw hl).imp id (fun h => List.mem_append_left _ h)
      · rw [List.getElem?_eq_getElem hiq] at hu
        have : u = Q[i] := by simpa using hu
        subst this
        exact c1 w hw hl
    · rw [if_neg hiq]
      refine ⟨s, Q, rfl, h, ?_⟩
      rw [List.take_of_length_le (by omega)] at hcl
      exact hcl

/-- `bfs` marks the vertices reached from `v` -/
theorem bfs_marks {V0 : Nat → Prop} {v : Nat} (hf : BfsFacts g nb) (hv : v < g.numLocal) (hn : ¬ V0 v) {d : Mem Nat}
    (hd : Marks little g.numLocal V0 d) :
    ∃ (d' : Mem Nat) (V1 : Nat → Prop), bfs g little (getVertex v) d = .ok d' ∧ Marks little g.numLocal (fun l => V0 l ∨ V1 l) d' ∧
      V1 v ∧ (∀ l, V1 l → l < g.numLocal) ∧
      (∀ l, V1 l → Relation.ReflTransGen (fun a b => b ∈ nb a ∧ a < g.numLocal ∧ b < g.numLocal) v l) ∧
      ∀ u, V1 u → ∀ w ∈ nb u, w < g.numLocal → V0 w ∨ V1 w := by
  unfold bfs
  rw [Mem.store_ok _ (by simp [Mem.alloc]; omega), Outcome.bind_ok]
  obtain ⟨d1, e1, h1⟩ := hd.set hv
  rw [e1, Outcome.bind_ok]
  obtain ⟨s, Q, e2, h2, hcl⟩ := bfsLoop_inv (V0 := V0) (v := v) (little := little) hf (g.numLocal + 1) 0 [v]
    ⟨(Mem.alloc g.numLocal).set 0 (some (getVertex v)), 1, d1⟩ (by
      refine ⟨List.nodup_singleton _, by simpa using hv, by simpa using hn, by simp, ?_, rfl, by simp [Mem.alloc], ?_, ?_⟩
      · intro l hl
        rw [List.mem_singleton.mp hl]
      · intro k hk
        have : k = 0 := by simpa using hk
        subst this
        rw [List.getElem?_set, if_pos rfl, if_pos (by simp [Mem.alloc]; omega)]
        simp
      · refine h1.congr ?_
        intro l _
        simp) (by simp) (by omega) (by simp)
  rw [e2]
  exact ⟨s.visited, fun l => l ∈ Q, rfl, h2.marks, h2.start, h2.lt, h2.reach, hcl⟩

/-- what the second loop keeps: the marked vertices are closed, the representatives are in different components -/
theorem count_spec (hf : BfsFacts g nb) (hsym : ∀ a < g.numLocal, ∀ b < g.numLocal, b ∈ nb a → a ∈ nb b) :
    ∃ reps : List Nat, countDisconnected g little = .ok ((reps.length : Int) - 1) ∧
      (∀ a ∈ reps, a < g.numLocal) ∧
      reps.Pairwise (fun a b => ¬ Relation.EqvGen (fun a b => b ∈ nb a ∧ a < g.numLocal ∧ b < g.numLocal) a b) ∧
      ∀ a < g.numLocal, ∃ b ∈ reps, Relation.EqvGen (fun a b => b ∈ nb a ∧ a < g.numLocal ∧ b < g.numLocal) b a := by
  obtain ⟨d0, d, e1, e2, hm⟩ := clear_marks (g := g) (little := little)
  unfold countDisconnected
  rw [e1, Outcome.bind_ok, e2, Outcome.bind_ok]
  rw [iterLoop_yields _ _ _ _ _ (yields_vertices g) (by simp [Graph.bound]; omega)]
  have H : ∀ (ls : List Nat) (V : Nat → Prop) (d : Mem Nat) (reps : List Nat), (∀ l ∈ ls, l < g.numLocal) →
      Marks little g.numLocal V d →
      (∀ a, V a → ∀ b, (b ∈ nb a ∧ a < g.numLocal ∧ b < g.numLocal) → V b) →
      (∀ a ∈ reps, a < g.numLocal ∧ V a) →
      reps.Pairwise (fun a b => ¬ Relation.EqvGen (fun a b => b ∈ nb a ∧ a < g.numLocal ∧ b < g.numLocal) a b) →
      (∀ a < g.numLocal, V a → ∃ b ∈ reps, Relation.EqvGen (fun a b => b ∈ nb a ∧ a < g.numLocal ∧ b < g.numLocal) b a) →
      ∃ (s : Mem Nat × Int) (reps' : List Nat) (V' : Nat → Prop), loopList (countVisit g little) (ls.map getVertex) (d, (reps.length : Int)) = .ok s ∧
        s.2 = (reps'.length : Int) ∧ (∀ a ∈ reps', a < g.numLocal) ∧
        reps'.Pairwise (fun a b => ¬ Relation.EqvGen (fun a b => b ∈ nb a ∧ a < g.numLocal ∧ b < g.numLocal) a b) ∧
        (∀ a < g.numLocal, V' a → ∃ b ∈ reps', Relation.EqvGen (fun a b => b ∈ nb a ∧ a < g.numLocal ∧ b < g.numLocal) b a) ∧
        (∀ a, V a → V' a) ∧ ∀ l ∈ ls, V' l := by
    intro ls
    induction ls with
    | nil =>
      intro V d reps _ _ _ hr hp hc
      exact ⟨_, reps, V, rfl, rfl, fun a ha => (hr a ha).1, hp, hc, fun a h => h, by simp⟩
    | cons l ls ih =>
      intro V d reps hls hm hcl hr hp hc
      have hl := hls l (by simp)
      obtain ⟨x, ex, hx⟩ := hm.get hl
      rw [List.map_cons, loopList]
      unfold countVisit
      dsimp only
      rw [ex, Outcome.bind_ok]
      by_cases hV : V l
      · rw [if_neg (fun h => (hx.mp h) hV)]
        obtain ⟨s, reps', V', q1, q2, q3, q4, q5, q6, q7⟩ := ih V d reps (fun a ha => hls a (by simp [ha])) hm hcl hr hp hc
        refine ⟨s, reps', V', q1, q2, q3, q4, q5, q6, ?_⟩
        intro a ha
        rcases List.mem_cons.mp ha with rfl | ha
        · exact q6 _ hV
        · exact q7 a ha
      · rw [if_pos (hx.mpr hV)]
        obtain ⟨d', V1, eb, hm', w1, w2, w3, w4⟩ := bfs_marks hf hl hV hm
        rw [eb, Outcome.bind_ok]
        have hinv : ∀ a b, Relation.EqvGen (fun a b => b ∈ nb a ∧ a < g.numLocal ∧ b < g.numLocal) a b → (V a ↔ V b) := by
          intro a b hab
          induction hab with
          | rel a b h => exact ⟨fun hV => hcl a hV b h, fun hV => hcl b hV a ⟨hsym a h.2.1 b h.2.2 h.1, h.2.2, h.2.1⟩⟩
          | refl a => exact Iff.rfl
          | symm a b _ ih => exact ih.symm
          | trans a b c _ _ ih1 ih2 => exact ih1.trans ih2
        have ih' := ih (fun a => V a ∨ V1 a) d' (reps ++ [l]) (fun a ha => hls a (by simp [ha])) hm'
        apply Exists.elim (ih' ?_ ?_ ?_ ?_)
        · rintro s ⟨reps', V', q1, q2, q3, q4, q5, q6, q7⟩
          refine ⟨s, reps', V', ?_, q2, q3, q4, q5, fun a h => q6 a (.inl h), ?_⟩
          · have hl1 : ((reps ++ [l]).length : Int) = (reps.length : Int) + 1 := by simp
            rw [hl1] at q1
            exact q1
          · intro a ha
            rcases List.mem_cons.mp ha with rfl | ha
            · exact q6 _ (.inr w1)
            · exact q7 a ha
        · rintro a (ha | ha) b hb
          · exact .inl (hcl a ha b hb)
          · exact w4 a ha b hb.1 hb.2.2
        · intro a ha
          rcases List.mem_append.mp ha with ha | ha
          · exact ⟨(hr a ha).1, .inl (hr a ha).2⟩
          · rw [List.mem_singleton.mp ha]; exact ⟨hl, .inr w1⟩
        · rw [List.pairwise_append]
          refine ⟨hp, List.pairwise_singleton _ _, ?_⟩
          intro a ha b hb
          rw [List.mem_singleton.mp hb]
          intro he
          exact hV ((hinv a l he).mp (hr a ha).2)
        · rintro a hal (ha | ha)
          · obtain ⟨b, hb, he⟩ := hc a hal ha
            exact ⟨b, List.mem_append_left _ hb, he⟩
          · exact ⟨l, by simp, eqvGen_of_reach (w3 a ha)⟩
  obtain ⟨s, reps, V', q1, q2, q3, q4, q5, -, q7⟩ := H (List.range g.numLocal) (fun _ => False) d [] (by simp) hm
    (by simp) (by simp) List.Pairwise.nil (by simp)
  refine ⟨reps, ?_, q3, q4, fun a ha => q5 a ha (q7 a (List.mem_range.mpr ha))⟩
  have q1' : loopList (countVisit g little) ((List.range g.numLocal).map getVertex) (d, 0) = .ok s := q1
  rw [q1', Outcome.bind_ok, q2]
  rfl

end
end Verif.Part
