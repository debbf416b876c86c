import Verif.Agi.CourseModel
import Verif.Agi.ValidProps
/-! # Lemmas about `checkTogether` -/
namespace Verif.Agi

/-- the answer when the sums are `f` -/
def Course.under (f : Nat → Int) : Nat → Course → Outcome Bool
  | _, .stop o => o
  | i, .ask _ k => (k (f i)).under f (i + 1)

/-- the contributions when the sums are `f` -/
def Course.asks (f : Nat → Int) : Nat → Course → List Int
  | _, .stop _ => []
  | i, .ask x k => x :: (k (f i)).asks f (i + 1)

theorem rounds_spec (f : Nat → Int) : ∀ (n i : Nat) (ps : List ((Nat → Int) × Course)),
    (∀ p ∈ ps, ∀ j (h : j < (p.2.asks f i).length), (p.2.asks f i)[j] = p.1 (i + j)) → (∀ p ∈ ps, (p.2.asks f i).length ≤ n) →
    (∀ j, f j = (ps.map (·.1 j)).sum) →
    ((∀ p ∈ ps, ∀ q ∈ ps, (p.2.asks f i).length = (q.2.asks f i).length) →
      rounds n (ps.map (·.2)) = .answers (ps.map (·.2.under f i))) ∧
    ((∃ p ∈ ps, ∃ q ∈ ps, (p.2.asks f i).length ≠ (q.2.asks f i).length) → rounds n (ps.map (·.2)) = .waiting) := by
  have stops : ∀ (i : Nat) (ps : List ((Nat → Int) × Course)) os, allStop (ps.map (·.2)) = some os →
      os = ps.map (·.2.under f i) ∧ ∀ p ∈ ps, p.2.asks f i = [] := by
    intro i ps
    induction ps with
    | nil => intro os h; exact ⟨(Option.some.inj h).symm, fun p hp => by cases hp⟩
    | cons p ps ih =>
      obtain ⟨x, c⟩ := p
      intro os h
      cases c with
      | ask y k => cases h
      | stop o =>
        rw [List.map_cons, allStop] at h
        cases h' : allStop (ps.map (·.2)) with
        | none => rw [h'] at h; cases h
        | some os' =>
          rw [h'] at h
          obtain ⟨e1, e2⟩ := ih os' h'
          refine ⟨?_, ?_⟩
          · rw [← Option.some.inj h, e1]; rfl
          · intro p hp
            rcases List.mem_cons.mp hp with rfl | hp
            · rfl
            · exact e2 p hp
  have notStops : ∀ (i : Nat) (ps : List ((Nat → Int) × Course)), allStop (ps.map (·.2)) = none → ∃ p ∈ ps, p.2.asks f i ≠ [] := by
    intro i ps
    induction ps with
    | nil => intro h; cases h
    | cons p ps ih =>
      obtain ⟨x, c⟩ := p
      intro h
      cases c with
      | ask y k => exact ⟨_, List.mem_cons_self, by simp [Course.asks]⟩
      | stop o =>
        rw [List.map_cons, allStop] at h
        cases h' : allStop (ps.map (·.2)) with
        | none => obtain ⟨p, hp, e⟩ := ih h'; exact ⟨p, List.mem_cons_of_mem _ hp, e⟩
        | some os' => rw [h'] at h; cases h
  have asksNone : ∀ (i : Nat) (ps : List ((Nat → Int) × Course)), allAsk (ps.map (·.2)) = none → ∃ p ∈ ps, p.2.asks f i = [] := by
    intro i ps
    induction ps with
    | nil => intro h; cases h
    | cons p ps ih =>
      obtain ⟨x, c⟩ := p
      intro h
      cases c with
      | stop y => exact ⟨_, List.mem_cons_self, rfl⟩
      | ask y k =>
        rw [List.map_cons, allAsk] at h
        cases h' : allAsk (ps.map (·.2)) with
        | none => obtain ⟨p, hp, e⟩ := ih h'; exact ⟨p, List.mem_cons_of_mem _ hp, e⟩
        | some os' => rw [h'] at h; cases h
  have asksSome : ∀ (ps : List ((Nat → Int) × Course)) as, allAsk (ps.map (·.2)) = some as →
      ps = (ps.zip as).map (fun z => (z.1.1, .ask z.2.1 z.2.2)) ∧ as.length = ps.length := by
    intro ps
    induction ps with
    | nil => intro as h; cases h; exact ⟨rfl, rfl⟩
    | cons p ps ih =>
      obtain ⟨x, c⟩ := p
      intro as h
      cases c with
      | stop y => cases h
      | ask y k =>
        rw [List.map_cons, allAsk] at h
        cases h' : allAsk (ps.map (·.2)) with
        | none => rw [h'] at h; cases h
        | some as' =>
          rw [h'] at h
          obtain ⟨e1, e2⟩ := ih as' h'
          rw [← Option.some.inj h]
          refine ⟨?_, by simp [e2]⟩
          rw [List.zip_cons_cons, List.map_cons, ← e1]
  intro n
  induction n with
  | zero =>
    intro i ps hx hn hf
    have h0 : ∀ p ∈ ps, p.2.asks f i = [] := fun p hp => List.eq_nil_of_length_eq_zero (Nat.le_zero.mp (hn p hp))
    cases h : allStop (ps.map (·.2)) with
    | none =>
      obtain ⟨p, hp, e⟩ := notStops i ps h
      exact absurd (h0 p hp) e
    | some os =>
      refine ⟨fun _ => ?_, ?_⟩
      · unfold rounds
        rw [h]
        dsimp only
        rw [(stops i ps os h).1]
      · rintro ⟨p, hp, q, hq, hne⟩
        rw [h0 p hp, h0 q hq] at hne
        exact absurd rfl hne
  | succ n ih =>
    intro i ps hx hn hf
    cases h : allStop (ps.map (·.2)) with
    | some os =>
      obtain ⟨e1, e2⟩ := stops i ps os h
      refine ⟨fun _ => ?_, ?_⟩
      · unfold rounds
        rw [h]
        dsimp only
        rw [e1]
      · rintro ⟨p, hp, q, hq, hne⟩
        rw [e2 p hp, e2 q hq] at hne
        exact absurd rfl hne
    | none =>
      obtain ⟨p0, hp0, hn0⟩ := notStops i ps h
      cases ha : allAsk (ps.map (·.2)) with
      | none =>
        obtain ⟨p1, hp1, hn1⟩ := asksNone i ps ha
        refine ⟨fun hall => ?_, fun _ => ?_⟩
        · have := hall p0 hp0 p1 hp1
          rw [hn1] at this
          exact absurd (List.eq_nil_of_length_eq_zero this) hn0
        · unfold rounds
          rw [h, ha]
      | some as =>
        obtain ⟨e, hl⟩ := asksSome ps as ha
        have e' : ps.map (·.2) = as.map fun a => .ask a.1 a.2 := by
          apply List.ext_getElem
          · simp [hl]
          · intro k h1 h2
            simp only [List.length_map] at h1 h2
            have hk : ps[k]? = ((ps.zip as).map (fun z => (z.1.1, Course.ask z.2.1 z.2.2)))[k]? := congrArg (·[k]?) e
            rw [List.getElem?_eq_getElem h1, List.getElem?_eq_getElem (by simp; omega)] at hk
            have := Option.some.inj hk
            simp only [List.getElem_map, List.getElem_zip] at this ⊢
            rw [this]
        have hy : ∀ k (h1 : k < ps.length) (h2 : k < as.length), ps[k].2 = .ask as[k].1 as[k].2 := by
          intro k h1 h2
          have hk : (ps.map (·.2))[k]? = (as.map fun a => Course.ask a.1 a.2)[k]? := congrArg (·[k]?) e'
          rw [List.getElem?_eq_getElem (by simpa using h1), List.getElem?_eq_getElem (by simpa using h2)] at hk
          have := Option.some.inj hk
          simpa only [List.getElem_map] using this
        have hsum : (as.map (·.1)).sum = f i := by
          rw [hf i]
          congr 1
          apply List.ext_getElem
          · simp [hl]
          · intro k h1 h2
            simp only [List.length_map] at h1 h2
            simp only [List.getElem_map]
            have := hx ps[k] (List.getElem_mem h2) 0
            rw [hy k h2 h1] at this
            exact this (by simp [Course.asks])
        -- the parts after this sum
        have hps' : (as.map fun a => a.2 (as.map (·.1)).sum) = ((ps.zip as).map fun z => (z.1.1, z.2.2 (f i))).map (·.2) := by
          rw [hsum]
          apply List.ext_getElem
          · simp [hl]
          · intro k h1 h2
            simp only [List.getElem_map, List.getElem_zip]
        have hmem : ∀ p ∈ (ps.zip as).map (fun z => (z.1.1, z.2.2 (f i))), ∃ q ∈ ps, q.1 = p.1 ∧
            (∃ x, q.2.asks f i = x :: p.2.asks f (i + 1)) ∧ q.2.under f i = p.2.under f (i + 1) := by
          intro p hp
          obtain ⟨k, hk, rfl⟩ := List.mem_iff_getElem.mp hp
          simp only [List.length_map, List.length_zip] at hk
          refine ⟨ps[k], List.getElem_mem (by omega), ?_⟩
          simp only [List.getElem_map, List.getElem_zip]
          rw [hy k (by omega) (by omega)]
          exact ⟨trivial, ⟨_, rfl⟩, rfl⟩
        have hback : ∀ q ∈ ps, ∃ p ∈ (ps.zip as).map (fun z => (z.1.1, z.2.2 (f i))), (q.2.asks f i).length = (p.2.asks f (i + 1)).length + 1 := by
          intro q hq
          obtain ⟨k, hk, rfl⟩ := List.mem_iff_getElem.mp hq
          refine ⟨((ps.zip as).map (fun z => (z.1.1, z.2.2 (f i))))[k]'(by simp; omega), List.getElem_mem _, ?_⟩
          simp only [List.getElem_map, List.getElem_zip]
          rw [hy k hk (by omega)]
          rfl
        obtain ⟨i1, i2⟩ := ih (i + 1) ((ps.zip as).map fun z => (z.1.1, z.2.2 (f i)))
          (by
            intro p hp j hj
            obtain ⟨q, hq, e1, ⟨x, e2⟩, -⟩ := hmem p hp
            have := hx q hq (j + 1) (by rw [e2]; simp; omega)
            simp only [e2, List.getElem_cons_succ] at this
            rw [this, e1, show i + (j + 1) = i + 1 + j by omega])
          (by
            intro p hp
            obtain ⟨q, hq, -, ⟨x, e2⟩, -⟩ := hmem p hp
            have := hn q hq
            rw [e2, List.length_cons] at this
            omega)
          (by
            intro j
            rw [hf j]
            congr 1
            apply List.ext_getElem
            · simp [hl]
            · intro k h1 h2
              simp only [List.getElem_map, List.getElem_zip])
        have hr : rounds (n + 1) (ps.map (·.2)) = rounds n (((ps.zip as).map fun z => (z.1.1, z.2.2 (f i))).map (·.2)) := by
          rw [← hps']
          conv => lhs; unfold rounds
          rw [h, ha]
        rw [hr]
        refine ⟨fun hall => ?_, fun hne => ?_⟩
        · rw [i1]
          · congr 1
            apply List.ext_getElem
            · simp [hl]
            · intro k h1 h2
              simp only [List.length_map] at h1 h2
              simp only [List.getElem_map, List.getElem_zip]
              rw [hy k h2 (by omega)]
              rfl
          · intro p hp q hq
            obtain ⟨p', hp', -, ⟨x, e2⟩, -⟩ := hmem p hp
            obtain ⟨q', hq', -, ⟨y, e3⟩, -⟩ := hmem q hq
            have := hall p' hp' q' hq'
            rw [e2, e3, List.length_cons, List.length_cons] at this
            omega
        · apply i2
          obtain ⟨p, hp, q, hq, hne⟩ := hne
          obtain ⟨p', hp', e1⟩ := hback p hp
          obtain ⟨q', hq', e2⟩ := hback q hq
          exact ⟨p', hp', q', hq', by omega⟩

/-! ## one part -/

/-- what a part contributes: edges and pins of each type -/
def Graph.cE (g : Graph) (t : Nat) : Int := match g.validCounts t with | .ok c => c.2.1 | _ => 0
def Graph.cP (g : Graph) (t : Nat) : Int := match g.validCounts t with | .ok c => c.2.2.1 | _ => 0

def Graph.gives (g : Graph) (T : Nat) : List Int := (g.numLocal : Int) :: (List.range T).flatMap fun t => [g.cE t, g.cP t]

theorem of_prefix {α : Type} {o : Outcome α} {k : α → Course} {f : Nat → Int} {i : Nat} {l : List Int}
    (h : ∀ a, o = .ok a → (k a).asks f i <+: l) : (Course.of o k).asks f i <+: l := by
  cases o with
  | ok a => exact h a rfl
  | fail => exact List.nil_prefix
  | ub => exact List.nil_prefix

theorem ite_prefix {P : Prop} [Decidable P] {c : Course} {o : Outcome Bool} {f : Nat → Int} {i : Nat} {l : List Int}
    (h : c.asks f i <+: l) : (if P then Course.stop o else c).asks f i <+: l := by
  split
  · exact List.nil_prefix
  · exact h

theorem typesCourse_asks (g : Graph) (f : Nat → Int) (o : Outcome Bool) : ∀ (ts : List Nat) (i : Nat),
    (g.typesCourse (.stop o) ts).asks f i <+: ts.flatMap fun t => [g.cE t, g.cP t]
  | [], _ => List.nil_prefix
  | t :: ts, i => by
    unfold Graph.typesCourse
    rw [List.flatMap_cons]
    refine of_prefix fun c hc => of_prefix fun ne _ => ite_prefix ?_
    have e1 : g.cE t = c.2.1 := by unfold Graph.cE; rw [hc]
    have e2 : g.cP t = c.2.2.1 := by unfold Graph.cP; rw [hc]
    rw [Course.asks, e1, e2]
    refine List.prefix_cons_inj _ |>.mpr ?_
    refine of_prefix fun ge _ => ite_prefix (of_prefix fun np _ => ite_prefix ?_)
    rw [Course.asks]
    refine List.prefix_cons_inj _ |>.mpr ?_
    refine of_prefix fun gp _ => ite_prefix (of_prefix fun b _ => ?_)
    cases b with
    | true => exact typesCourse_asks g f o ts _
    | false => exact List.nil_prefix

theorem validCourse_asks (g : Graph) (f : Nat → Int) : g.validCourse.asks f 0 <+: g.gives g.numTypes := by
  unfold Graph.validCourse Graph.gives
  refine of_prefix fun i hi => ?_
  split
  · exact List.nil_prefix
  · rename_i h
    have : (g.numLocal : Int) = (i : Int) := Classical.not_not.mp h
    rw [Course.asks, this]
    refine List.prefix_cons_inj _ |>.mpr ?_
    refine ite_prefix (of_prefix fun a _ => ite_prefix (of_prefix fun b _ => ite_prefix ?_))
    exact typesCourse_asks g f _ _ _

theorem gives_length (g : Graph) (T : Nat) : (g.gives T).length = 2 * T + 1 := by
  unfold Graph.gives
  rw [List.length_cons, List.length_flatMap]
  simp
  omega

theorem gives_types (F : Nat → List Int) (hF : ∀ t, (F t).length = 2) : ∀ (T t : Nat), t < T → ∀ j (hj : j < 2),
    ((List.range T).flatMap F).getD (2 * t + j) 0 = (F t).getD j 0 := by
  intro T
  induction T with
  | zero => intro t ht; omega
  | succ T ih =>
    intro t ht j hj
    have hlen : ((List.range T).flatMap F).length = 2 * T := by
      rw [List.length_flatMap]; simp [hF]; omega
    rw [List.range_succ, List.flatMap_append, List.flatMap_cons, List.flatMap_nil, List.append_nil]
    rcases Nat.lt_or_ge t T with h | h
    · have := ih t h j hj
      rw [List.getD_eq_getElem?_getD] at this ⊢
      rw [List.getElem?_append_left (by omega), this]
    · have : t = T := by omega
      subst this
      rw [List.getD_eq_getElem?_getD, List.getElem?_append_right (by omega), hlen, List.getD_eq_getElem?_getD]
      congr 2
      omega

/-- the sums of the whole check -/
def sumsOf (gs : List Graph) (T : Nat) (j : Nat) : Int := (gs.map fun g => (g.gives T).getD j 0).sum

theorem sumsOf_zero (gs : List Graph) (T : Nat) : sumsOf gs T 0 = (gs.map fun g => (g.numLocal : Int)).sum := rfl

theorem sumsOf_type (gs : List Graph) {T t : Nat} (ht : t < T) :
    sumsOf gs T (1 + 2 * t) = (gs.map fun g => g.cE t).sum ∧ sumsOf gs T (2 + 2 * t) = (gs.map fun g => g.cP t).sum := by
  constructor
  · unfold sumsOf
    congr 1
    apply List.map_congr_left
    intro g _
    rw [show 1 + 2 * t = 2 * t + 0 + 1 by omega]
    unfold Graph.gives
    rw [List.getD_cons_succ]
    exact gives_types (fun t => [g.cE t, g.cP t]) (fun _ => rfl) T t ht 0 (by omega)
  · unfold sumsOf
    congr 1
    apply List.map_congr_left
    intro g _
    rw [show 2 + 2 * t = 2 * t + 1 + 1 by omega]
    unfold Graph.gives
    rw [List.getD_cons_succ]
    exact gives_types (fun t => [g.cE t, g.cP t]) (fun _ => rfl) T t ht 1 (by omega)

/-- the number of sums part `g` joins -/
def joins (gs : List Graph) (T : Nat) (g : Graph) : Nat := (g.validCourse.asks (sumsOf gs T) 0).length

theorem together_spec (gs : List Graph) (T : Nat) (hT : ∀ g ∈ gs, g.numTypes = T) :
    ((∀ g ∈ gs, ∀ h ∈ gs, joins gs T g = joins gs T h) →
      checkTogether gs T = .answers (gs.map fun g => g.validCourse.under (sumsOf gs T) 0)) ∧
    ((∃ g ∈ gs, ∃ h ∈ gs, joins gs T g ≠ joins gs T h) → checkTogether gs T = .waiting) := by
  have key := rounds_spec (sumsOf gs T) (2 * T + 1) 0 (gs.map fun g => ((fun j => (g.gives T).getD j 0), g.validCourse))
    (by
      intro p hp j hj
      obtain ⟨g, hg, rfl⟩ := List.mem_map.mp hp
      have hpre := validCourse_asks g (sumsOf gs T)
      rw [hT g hg] at hpre
      have := hpre.getElem hj
      refine this.trans ?_
      show _ = (g.gives T).getD (0 + j) 0
      rw [Nat.zero_add, List.getD_eq_getElem?_getD, List.getElem?_eq_getElem, Option.getD_some])
    (by
      intro p hp
      obtain ⟨g, hg, rfl⟩ := List.mem_map.mp hp
      have hpre := validCourse_asks g (sumsOf gs T)
      rw [hT g hg] at hpre
      have := hpre.length_le
      rwa [gives_length] at this)
    (by
      intro j
      unfold sumsOf
      rw [List.map_map]
      rfl)
  rw [List.map_map] at key
  obtain ⟨k1, k2⟩ := key
  refine ⟨fun h => ?_, fun ⟨g, hg, h, hh, hne⟩ => ?_⟩
  · have := k1 (by
      intro p hp q hq
      obtain ⟨g, hg, rfl⟩ := List.mem_map.mp hp
      obtain ⟨g', hg', rfl⟩ := List.mem_map.mp hq
      exact h g hg g' hg')
    rw [List.map_map] at this
    exact this
  · exact k2 ⟨_, List.mem_map_of_mem hg, _, List.mem_map_of_mem hh, hne⟩

/-! ## the answers are those of `checkValidity` -/

theorem typesCourse_under (g : Graph) (f : Nat → Int) (sumE sumP : Nat → Int) (o : Outcome Bool) : ∀ (n t0 : Nat),
    (∀ t, t0 ≤ t → t < t0 + n → f (1 + 2 * t) = sumE t ∧ f (2 + 2 * t) = sumP t) → ∀ c,
    forTypes (g.checkType sumE sumP) (List.range' t0 n) = .ok c →
    (g.typesCourse (.stop o) (List.range' t0 n)).under f (1 + 2 * t0) = (if c then o else .ok false) ∧
    (c = true → ((g.typesCourse (.stop o) (List.range' t0 n)).asks f (1 + 2 * t0)).length = 2 * n) := by
  intro n
  induction n with
  | zero =>
    intro t0 _ c h
    cases h
    exact ⟨rfl, fun _ => rfl⟩
  | succ n ih =>
    intro t0 hf c h
    rw [List.range'_succ, forTypes] at h
    obtain ⟨b, hb, h⟩ := bind_ok_inv h
    unfold Graph.checkType at hb
    obtain ⟨⟨i, j, k, l⟩, h1, hb⟩ := bind_ok_inv hb
    obtain ⟨ne, h2, hb⟩ := bind_ok_inv hb
    obtain ⟨ge, h3, hb⟩ := bind_ok_inv hb
    obtain ⟨np, h4, hb⟩ := bind_ok_inv hb
    obtain ⟨gp, h5, hb⟩ := bind_ok_inv hb
    obtain ⟨f1, f2⟩ := hf t0 (by omega) (by omega)
    rw [List.range'_succ]
    unfold Graph.typesCourse
    rw [h1]
    dsimp only [Course.of] at hb ⊢
    rw [h2]
    dsimp only
    by_cases c1 : i ≠ (ne : Int)
    · rw [if_pos c1] at hb ⊢
      cases hb
      cases h
      exact ⟨rfl, fun h => by cases h⟩
    rw [if_neg c1] at hb ⊢
    rw [Course.under, Course.asks, f1, h3]
    dsimp only
    by_cases c2 : sumE t0 ≠ ge
    · rw [if_pos c2] at hb ⊢
      cases hb
      cases h
      exact ⟨rfl, fun h => by cases h⟩
    rw [if_neg c2] at hb ⊢
    rw [h4]
    dsimp only
    by_cases c3 : l ≠ (np : Int)
    · rw [if_pos c3] at hb ⊢
      cases hb
      cases h
      exact ⟨rfl, fun h => by cases h⟩
    rw [if_neg c3] at hb ⊢
    rw [Course.under, Course.asks, show 1 + 2 * t0 + 1 = 2 + 2 * t0 by omega, f2, h5]
    dsimp only
    by_cases c4 : sumP t0 ≠ gp
    · rw [if_pos c4] at hb ⊢
      cases hb
      cases h
      exact ⟨rfl, fun h => by cases h⟩
    rw [if_neg c4] at hb ⊢
    have hb' : g.edgesRight t0 = .ok b := hb
    rw [hb']
    dsimp only
    cases b with
    | false =>
      cases h
      exact ⟨rfl, fun h => by cases h⟩
    | true =>
      rw [if_pos rfl] at h
      have := ih (t0 + 1) (fun t a b => hf t (by omega) (by omega)) c h
      rw [if_pos rfl, show 2 + 2 * t0 + 1 = 1 + 2 * (t0 + 1) by omega]
      refine ⟨this.1, fun hc => ?_⟩
      rw [List.length_cons, List.length_cons, this.2 hc]
      omega

theorem validCourse_under (g : Graph) (f : Nat → Int) (sumV : Int) (sumE sumP : Nat → Int) (h0 : f 0 = sumV)
    (hf : ∀ t, t < g.numTypes → f (1 + 2 * t) = sumE t ∧ f (2 + 2 * t) = sumP t) {b : Bool} (h : g.checkValidity sumV sumE sumP = .ok b) :
    g.validCourse.under f 0 = .ok b ∧ (b = true → (g.validCourse.asks f 0).length = 2 * g.numTypes + 1) := by
  unfold Graph.checkValidity at h
  obtain ⟨i, h1, h⟩ := bind_ok_inv h
  unfold Graph.validCourse
  rw [h1]
  dsimp only [Course.of] at h ⊢
  by_cases c1 : (g.numLocal : Int) ≠ (i : Int)
  · rw [if_pos c1] at h ⊢
    cases h
    exact ⟨rfl, fun h => by cases h⟩
  rw [if_neg c1] at h ⊢
  rw [Course.under, Course.asks, h0]
  by_cases c2 : g.globalVerts ≠ sumV
  · rw [if_pos c2] at h ⊢
    cases h
    exact ⟨rfl, fun h => by cases h⟩
  rw [if_neg c2] at h ⊢
  obtain ⟨a, h2, h⟩ := bind_ok_inv h
  rw [h2]
  dsimp only
  cases a with
  | false =>
    cases h
    exact ⟨rfl, fun h => by cases h⟩
  | true =>
    rw [if_neg (by simp)] at h ⊢
    obtain ⟨a, h3, h⟩ := bind_ok_inv h
    rw [h3]
    dsimp only
    cases a with
    | false =>
      cases h
      exact ⟨rfl, fun h => by cases h⟩
    | true =>
      rw [if_neg (by simp)] at h ⊢
      obtain ⟨c, h4, h⟩ := bind_ok_inv h
      rw [List.range_eq_range'] at h4 ⊢
      obtain ⟨e1, e2⟩ := typesCourse_under g f sumE sumP (iterAll g.iterGhost g.checkGhost g.bound g.ghostBegin) g.numTypes 0
        (fun t _ ht => hf t (by omega)) c h4
      cases c with
      | false =>
        cases h
        exact ⟨e1, fun h => by cases h⟩
      | true =>
        rw [if_neg (by simp)] at h
        refine ⟨?_, fun _ => ?_⟩
        · rw [← h]; exact e1
        · rw [List.length_cons]
          exact congrArg (· + 1) (e2 rfl)

end Verif.Agi
