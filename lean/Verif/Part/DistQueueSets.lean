import Verif.Part.DistQueueBase
/-!
# The distance queue: disjoint sets and `distance_visit`
-/
namespace Verif.Part
open Verif.Agi

/-- the number of roots -/
def rootsOf (m : Nat) (par : Nat → Int) : Nat := (List.range m).countP (fun k => decide (par k = (k : Int)))

/-- a forest of parents: `root k` the root above `k`, `rk k` the number of steps to it -/
structure Forest (m : Nat) (par : Nat → Int) (root rk : Nat → Nat) (c : Nat) : Prop where
  ge : ∀ k, k < m → 0 ≤ par k
  lt : ∀ k, k < m → par k < m
  rlt : ∀ k, k < m → root k < m
  top : ∀ k, k < m → par (root k) = (root k : Int)
  self : ∀ k, k < m → par k = (k : Int) → root k = k
  up : ∀ k, k < m → par k ≠ (k : Int) → root (par k).toNat = root k ∧ rk k = rk (par k).toNat + 1
  rk_le : ∀ k, k < m → rk k ≤ c
  rk0 : ∀ k, k < m → rk (root k) = 0
  cnt : c + rootsOf m par = m

theorem Forest.init (m : Nat) : Forest m (fun k => (k : Int)) id (fun _ => 0) 0 := by
  refine ⟨by intros; omega, by intros; omega, fun k h => h, fun k h => rfl, fun k h _ => rfl, fun k h hn => absurd rfl hn,
    fun _ _ => Nat.le_refl _, fun _ _ => rfl, ?_⟩
  unfold rootsOf
  rw [Nat.zero_add, List.countP_eq_length.mpr (by simp), List.length_range]

theorem findRoot_spec {m : Nat} {par : Nat → Int} {root rk : Nat → Nat} {c : Nat} (h : Forest m par root rk c)
    {M : Mem Int} (hM : Arr M m par) : ∀ (fuel : Nat) (l : Int), 0 ≤ l → l < m → rk l.toNat < fuel →
      findRoot M fuel l = .ok (root l.toNat : Int)
  | 0, _, _, _, hf => by omega
  | fuel + 1, l, h0, h1, hf => by
    have hl : l.toNat < m := by omega
    unfold findRoot
    rw [hM.loadI h0 h1, Outcome.bind_ok]
    by_cases hp : l = par l.toNat
    · rw [if_pos hp, h.self _ hl (by omega)]
      rw [show ((l.toNat : Nat) : Int) = l by omega]
      rfl
    · rw [if_neg hp]
      obtain ⟨u1, u2⟩ := h.up _ hl (by omega)
      have g0 := h.ge _ hl
      have g1 := h.lt _ hl
      rw [findRoot_spec h hM fuel (par l.toNat) g0 g1 (by omega), u1]

theorem Forest.root_par {m : Nat} {par : Nat → Int} {root rk : Nat → Nat} {c : Nat} (h : Forest m par root rk c)
    {k : Nat} (hk : k < m) : root (root k) = root k := h.self _ (h.rlt k hk) (h.top k hk)

theorem countP_update {m : Nat} {par : Nat → Int} {a b : Nat} (hb : b < m) (hbr : par b = (b : Int)) (hab : a ≠ b) :
    rootsOf m (Function.update par b (a : Int)) + 1 = rootsOf m par := by
  unfold rootsOf
  induction m with
  | zero => omega
  | succ m ih =>
    rw [List.range_succ, List.countP_append, List.countP_append, List.countP_singleton, List.countP_singleton]
    by_cases hm : b = m
    · subst hm
      rw [Function.update_self]
      have : (List.range b).countP (fun k => decide (Function.update par b (a : Int) k = (k : Int))) =
          (List.range b).countP (fun k => decide (par k = (k : Int))) := by
        apply List.countP_congr
        intro k hk
        have := List.mem_range.mp hk
        rw [Function.update_of_ne (by omega)]
      rw [this]
      simp only [hbr, decide_true, if_true]
      have hne : ¬ ((a : Int) = (b : Int)) := by omega
      simp [hne]
    · rw [Function.update_of_ne (by omega)]
      have := ih (by omega)
      split_ifs <;> omega

theorem rootsOf_pos {m : Nat} {par : Nat → Int} {k : Nat} (hk : k < m) (h : par k = (k : Int)) : 0 < rootsOf m par := by
  unfold rootsOf
  rw [List.countP_pos_iff]
  exact ⟨k, List.mem_range.mpr hk, by simpa using h⟩

/-- hanging the root `b` under the root `a` -/
theorem Forest.join {m : Nat} {par : Nat → Int} {root rk : Nat → Nat} {c : Nat} (h : Forest m par root rk c)
    {a b : Nat} (ha : a < m) (hb : b < m) (har : par a = (a : Int)) (hbr : par b = (b : Int)) (hab : a ≠ b) :
    Forest m (Function.update par b (a : Int)) (fun k => if root k = b then a else root k)
      (fun k => if root k = b then rk k + 1 else rk k) (c + 1) := by
  have hra := h.self a ha har
  have hrb := h.self b hb hbr
  refine ⟨?_, ?_, ?_, ?_, ?_, ?_, ?_, ?_, ?_⟩
  · intro k hk
    by_cases e : k = b
    · subst e; rw [Function.update_self]; omega
    · rw [Function.update_of_ne e]; exact h.ge k hk
  · intro k hk
    by_cases e : k = b
    · subst e; rw [Function.update_self]; omega
    · rw [Function.update_of_ne e]; exact h.lt k hk
  · intro k hk
    show (if root k = b then a else root k) < m
    split_ifs
    · exact ha
    · exact h.rlt k hk
  · intro k hk
    show Function.update par b (a : Int) (if root k = b then a else root k) = ((if root k = b then a else root k : Nat) : Int)
    by_cases e : root k = b
    · rw [if_pos e, Function.update_of_ne hab, har]
    · rw [if_neg e, Function.update_of_ne e, h.top k hk]
  · intro k hk hp
    show (if root k = b then a else root k) = k
    by_cases e : k = b
    · subst e; rw [Function.update_self] at hp; omega
    · rw [Function.update_of_ne e] at hp
      rw [h.self k hk hp, if_neg e]
  · intro k hk hp
    by_cases e : k = b
    · subst e
      rw [Function.update_self]
      simp only [Int.toNat_natCast]
      rw [hra, hrb, if_neg hab, if_pos rfl, if_pos rfl, if_neg hab]
      have h1 := h.rk0 k hb
      have h2 := h.rk0 a ha
      rw [hrb] at h1
      rw [hra] at h2
      exact ⟨rfl, by omega⟩
    · rw [Function.update_of_ne e] at hp ⊢
      obtain ⟨u1, u2⟩ := h.up k hk hp
      simp only [u1, u2, true_and]
      split_ifs <;> omega
  · intro k hk
    have := h.rk_le k hk
    show (if root k = b then rk k + 1 else rk k) ≤ c + 1
    split_ifs <;> omega
  · intro k hk
    show (if root (if root k = b then a else root k) = b then rk (if root k = b then a else root k) + 1
      else rk (if root k = b then a else root k)) = 0
    by_cases e : root k = b
    · have := h.rk0 a ha
      rw [hra] at this
      rw [if_pos e, hra, if_neg hab, this]
    · rw [if_neg e, h.root_par hk, if_neg e, h.rk0 k hk]
  · have := countP_update (m := m) (par := par) (a := a) hb hbr hab
    have := h.cnt
    omega

theorem Forest.fuel {m : Nat} {par : Nat → Int} {root rk : Nat → Nat} {c : Nat} (h : Forest m par root rk c) {k : Nat}
    (hk : k < m) : rk k < m + 1 := by
  have := h.rk_le k hk
  have := h.cnt
  omega

/-- joined by a chain of pairs -/
inductive Linked (E : List (Nat × Nat)) : Nat → Nat → Prop
  | refl (a : Nat) : Linked E a a
  | fwd {a b c : Nat} : Linked E a b → (b, c) ∈ E → Linked E a c
  | bwd {a b c : Nat} : Linked E a b → (c, b) ∈ E → Linked E a c

theorem Linked.trans {E : List (Nat × Nat)} {a b c : Nat} (h1 : Linked E a b) (h2 : Linked E b c) : Linked E a c := by
  induction h2 with
  | refl => exact h1
  | fwd _ h ih => exact ih.fwd h
  | bwd _ h ih => exact ih.bwd h

theorem Linked.symm {E : List (Nat × Nat)} {a b : Nat} (h : Linked E a b) : Linked E b a := by
  induction h with
  | refl => exact .refl _
  | fwd _ h ih => exact ((Linked.refl _).bwd h).trans ih
  | bwd _ h ih => exact ((Linked.refl _).fwd h).trans ih

theorem Linked.mono {E E' : List (Nat × Nat)} (hE : ∀ p ∈ E, p ∈ E') {a b : Nat} (h : Linked E a b) : Linked E' a b := by
  induction h with
  | refl => exact .refl _
  | fwd _ h ih => exact ih.fwd (hE _ h)
  | bwd _ h ih => exact ih.bwd (hE _ h)

/-- the number of edges of the set `k` -/
def inSet (New : List Nat) (root : Nat → Nat) (lab : Nat → Int) (k : Nat) : Nat :=
  New.countP (fun e => decide (root (lab e).toNat = k))

/-- joining two sets adds the numbers of their edges -/
theorem inSet_join (New : List Nat) (root : Nat → Nat) (lab : Nat → Int) {a b : Nat} (hab : a ≠ b) (k : Nat) (hk : k ≠ b) :
    inSet New (fun k => if root k = b then a else root k) lab k =
      inSet New root lab k + (if k = a then inSet New root lab b else 0) := by
  unfold inSet
  induction New with
  | nil => simp
  | cons e New ih =>
    rw [List.countP_cons, List.countP_cons, List.countP_cons, ih]
    simp only [decide_eq_true_eq]
    generalize root (lab e).toNat = r
    by_cases h1 : r = b
    · subst h1
      by_cases h2 : k = a
      · subst h2; simp only [if_true, if_neg (Ne.symm hab)]; omega
      · have h3 : ¬ a = k := fun h => h2 h.symm
        have h4 : ¬ r = k := fun h => hk h.symm
        simp [h2, h3, h4]
    · simp only [if_neg h1]
      split_ifs <;> omega

/-- the disjoint sets of a round in progress -/
structure Sets (s : Inputs) (N m : Nat) (New : List Nat) (E : List (Nat × Nat)) (par : Nat → Int) (root rk : Nat → Nat)
    (sz lab : Nat → Int) (c : Nat) : Prop where
  aPar : Arr s.parents m par
  aSz : Arr s.setSize m sz
  aLab : Arr s.labels N lab
  uf : Forest m par root rk c
  sets : s.numSets = (m : Int) - c
  osets : s.numOsets = m
  sz1 : ∀ k, k < m → par k = (k : Int) → 1 ≤ sz k
  sz0 : ∀ k, k < m → par k ≠ (k : Int) → sz k = 0
  labNew : ∀ e ∈ New, 0 ≤ lab e ∧ lab e < m
  same : ∀ p ∈ E, p.1 ∈ New ∧ p.2 ∈ New ∧ root (lab p.1).toNat = root (lab p.2).toNat
  size : ∀ k, k < m → par k = (k : Int) → sz k = (inSet New root lab k : Nat)
  conv : ∀ e ∈ New, ∀ f ∈ New, root (lab e).toNat = root (lab f).toNat → Linked E e f

/-- the invariant of the second search -/
def DInv (N m : Nat) (Old New : List Nat) (vis : Nat → Int) (E : List (Nat × Nat)) (s : Inputs) : Prop :=
  St s N (Old ++ New) vis ∧ ∃ par root rk sz lab c, Sets s N m New E par root rk sz lab c

theorem distanceVisit_ok (N m : Nat) (Old : List Nat) : VisitOk distanceVisit N Old (DInv N m Old) := by
  refine ⟨fun New vis E s h => h.1, ?_, ?_⟩
  · intro New vis E s src dst ⟨h, par, root, rk, sz, lab, c, hS⟩ hs hd
    have hs' : src ∈ Old ++ New := List.mem_append_right _ hs
    have hd' : dst ∈ Old ++ New := List.mem_append_right _ hd
    obtain ⟨l0, l1⟩ := hS.labNew src hs
    obtain ⟨k0, k1⟩ := hS.labNew dst hd
    have hl : (lab src).toNat < m := by omega
    have hk : (lab dst).toNat < m := by omega
    have f1 := findRoot_spec hS.uf hS.aPar (s.parents.length + 1) (lab src) l0 l1
      (by rw [hS.aPar.len]; exact hS.uf.fuel hl)
    have f2 := findRoot_spec hS.uf hS.aPar (s.parents.length + 1) (lab dst) k0 k1
      (by rw [hS.aPar.len]; exact hS.uf.fuel hk)
    have ea : ∀ s' : Inputs, distanceVisit s src dst = (if (root (lab src).toNat : Int) ≠ (root (lab dst).toNat : Int) then
        (do let i ← joinSets s (root (lab src).toNat) (root (lab dst).toNat); return (i, false)) else .ok (s, false)) := by
      intro _
      unfold distanceVisit
      rw [hS.aLab.load (h.seeds.lt _ hs'), Outcome.bind_ok, h.arr.load (h.seeds.lt _ hs'), Outcome.bind_ok,
        if_neg (by omega), f1, Outcome.bind_ok, h.arr.load (h.seeds.lt _ hd'), Outcome.bind_ok, if_neg (h.ne hd'),
        hS.aLab.load (h.seeds.lt _ hd'), Outcome.bind_ok, f2, Outcome.bind_ok]
      rfl
    rw [ea s]
    by_cases hr : root (lab src).toNat = root (lab dst).toNat
    · rw [if_neg (by rw [hr]; simp)]
      refine ⟨s, rfl, h, par, root, rk, sz, lab, c, { hS with same := ?_, conv := ?_ }⟩
      · intro p hp
        rcases List.mem_cons.mp hp with rfl | hp
        · exact ⟨hs, hd, hr⟩
        · exact hS.same p hp
      · exact fun e he f hf hef => (hS.conv e he f hf hef).mono (fun p hp => List.mem_cons_of_mem _ hp)
    · rw [if_pos (by intro h'; exact hr (by exact_mod_cast h'))]
      set a := root (lab src).toNat with hae
      set b := root (lab dst).toNat with hbe
      have ha : a < m := hS.uf.rlt _ hl
      have hb : b < m := hS.uf.rlt _ hk
      have har := hS.uf.top _ hl
      have hbr := hS.uf.top _ hk
      rw [← hae] at har
      rw [← hbe] at hbr
      obtain ⟨z1, e1, q1⟩ := hS.aSz.storeI (k := (a : Int)) (by omega) (by omega) (sz a + sz b)
      obtain ⟨z2, e2, q2⟩ := q1.storeI (k := (b : Int)) (by omega) (by omega) 0
      obtain ⟨p1, e3, q3⟩ := hS.aPar.storeI (k := (b : Int)) (by omega) (by omega) (a : Int)
      have ej : joinSets s a b = .ok { s with numSets := s.numSets - 1, setSize := z2, parents := p1 } := by
        unfold joinSets
        rw [hS.aSz.loadI (k := (a : Int)) (by omega) (by omega), Outcome.bind_ok,
          hS.aSz.loadI (k := (b : Int)) (by omega) (by omega), Outcome.bind_ok]
        simp only [Int.toNat_natCast]
        rw [e1, Outcome.bind_ok, e2, Outcome.bind_ok, e3, Outcome.bind_ok]
        rfl
      rw [ej, Outcome.bind_ok]
      refine ⟨_, rfl, ⟨h.seeds.of_eq rfl rfl, h.arr, h.ge, h.un⟩, Function.update par b (a : Int),
        (fun k => if root k = b then a else root k), (fun k => if root k = b then rk k + 1 else rk k),
        Function.update (Function.update sz a (sz a + sz b)) b 0, lab, c + 1, ?_⟩
      simp only [Int.toNat_natCast] at q2 q3
      refine ⟨q3, q2, hS.aLab, hS.uf.join ha hb har hbr hr, ?_, hS.osets, ?_, ?_, hS.labNew, ?_, ?_, ?_⟩
      · have := hS.sets
        show s.numSets - 1 = _
        push_cast; omega
      · intro k hk' hp
        by_cases e : k = b
        · subst e; rw [Function.update_self] at hp; omega
        · rw [Function.update_of_ne e] at hp ⊢
          by_cases e' : k = a
          · rw [e', Function.update_self]
            have := hS.sz1 a ha har
            have := hS.sz1 b hb hbr
            omega
          · rw [Function.update_of_ne e']; exact hS.sz1 k hk' hp
      · intro k hk' hp
        by_cases e : k = b
        · subst e; rw [Function.update_self]
        · rw [Function.update_of_ne e] at hp ⊢
          by_cases e' : k = a
          · subst e'; exact absurd har hp
          · rw [Function.update_of_ne e']; exact hS.sz0 k hk' hp
      · intro p hp
        rcases List.mem_cons.mp hp with rfl | hp
        · refine ⟨hs, hd, ?_⟩
          show (if root (lab src).toNat = b then a else root (lab src).toNat) =
            (if root (lab dst).toNat = b then a else root (lab dst).toNat)
          rw [← hae, ← hbe, if_neg hr, if_pos rfl]
        · obtain ⟨s1, s2, s3⟩ := hS.same p hp
          exact ⟨s1, s2, by simp only [s3]⟩
      · intro k hk' hp
        have ekb : k ≠ b := by
          intro e; rw [e, Function.update_self] at hp; omega
        rw [Function.update_of_ne ekb] at hp
        rw [Function.update_of_ne ekb, inSet_join New root lab hr k ekb]
        by_cases e' : k = a
        · rw [if_pos e', e', Function.update_self, hS.size a ha har, hS.size b hb hbr]; push_cast; rfl
        · rw [if_neg e', Function.update_of_ne e', hS.size k hk' hp]; rfl
      · have hmono : ∀ p ∈ E, p ∈ (src, dst) :: E := fun p hp => List.mem_cons_of_mem _ hp
        have hsd : Linked ((src, dst) :: E) src dst := (Linked.refl _).fwd (by simp)
        have ha' : ∀ e ∈ New, root (lab e).toNat = a → Linked ((src, dst) :: E) e src := fun e he h =>
          (hS.conv e he src hs (by rw [h])).mono hmono
        have hb' : ∀ e ∈ New, root (lab e).toNat = b → Linked ((src, dst) :: E) e src := fun e he h =>
          ((hS.conv e he dst hd (by rw [h])).mono hmono).trans hsd.symm
        have hs1 : ∀ e ∈ New, (if root (lab e).toNat = b then a else root (lab e).toNat) = a → Linked ((src, dst) :: E) e src := by
          intro e he h
          by_cases h1 : root (lab e).toNat = b
          · exact hb' e he h1
          · rw [if_neg h1] at h; exact ha' e he h
        intro e he f hf hef
        try simp only at hef
        by_cases h1 : (if root (lab e).toNat = b then a else root (lab e).toNat) = a
        · exact (hs1 e he h1).trans (hs1 f hf (by rw [← hef, h1])).symm
        · have h2 : (if root (lab f).toNat = b then a else root (lab f).toNat) ≠ a := by rw [← hef]; exact h1
          have h3 : root (lab e).toNat ≠ b := fun h => h1 (by rw [if_pos h])
          have h4 : root (lab f).toNat ≠ b := fun h => h2 (by rw [if_pos h])
          rw [if_neg h3, if_neg h4] at hef
          exact (hS.conv e he f hf hef).mono hmono
  · intro New vis E s src dst ⟨h, par, root, rk, sz, lab, c, hS⟩ hs hd ho hn
    have hs' : src ∈ Old ++ New := List.mem_append_right _ hs
    have hn' : dst ∉ Old ++ New := by rw [List.mem_append, not_or]; exact ⟨ho, hn⟩
    obtain ⟨l0, l1⟩ := hS.labNew src hs
    have hl : (lab src).toNat < m := by omega
    have f1 := findRoot_spec hS.uf hS.aPar (s.parents.length + 1) (lab src) l0 l1
      (by rw [hS.aPar.len]; exact hS.uf.fuel hl)
    set a := root (lab src).toNat with hae
    have ha : a < m := hS.uf.rlt _ hl
    have har := hS.uf.top _ hl
    rw [← hae] at har
    obtain ⟨M, e1, h1⟩ := h.seeds.store hd hn'
    obtain ⟨v, e2, h2⟩ := h.arr.store hd (vis src + 1)
    obtain ⟨lb, e3, h3⟩ := hS.aLab.store hd (a : Int)
    obtain ⟨z, e4, h4⟩ := hS.aSz.storeI (k := (a : Int)) (by omega) (by omega) (sz a + 1)
    refine ⟨{ s with seeds := M, numSeeds := s.numSeeds + 1, visited := v, labels := lb, setSize := z }, ?_, ?_⟩
    · unfold distanceVisit
      rw [hS.aLab.load (h.seeds.lt _ hs'), Outcome.bind_ok, h.arr.load (h.seeds.lt _ hs'), Outcome.bind_ok,
        if_neg (by omega), f1, Outcome.bind_ok, h.arr.load hd, Outcome.bind_ok, if_pos (h.un _ hd hn'),
        e1, Outcome.bind_ok, e2, Outcome.bind_ok, e3, Outcome.bind_ok,
        hS.aSz.loadI (k := (a : Int)) (by omega) (by omega), Outcome.bind_ok]
      simp only [Int.toNat_natCast]
      rw [e4, Outcome.bind_ok]
      rfl
    · have hput := h.put (s' := { s with seeds := M, numSeeds := s.numSeeds + 1, visited := v, labels := lb, setSize := z })
        hs' hn' (h1 _ rfl rfl) h2
      rw [List.append_assoc] at hput
      refine ⟨hput, par, root, rk, Function.update sz a (sz a + 1), Function.update lab dst (a : Int), c, ?_⟩
      simp only [Int.toNat_natCast] at h4
      refine ⟨hS.aPar, h4, h3, hS.uf, hS.sets, hS.osets, ?_, ?_, ?_, ?_, ?_, ?_⟩
      · intro k hk hp
        by_cases e : k = a
        · rw [e, Function.update_self]; have := hS.sz1 a ha har; omega
        · rw [Function.update_of_ne e]; exact hS.sz1 k hk hp
      · intro k hk hp
        by_cases e : k = a
        · rw [e] at hp; exact absurd har hp
        · rw [Function.update_of_ne e]; exact hS.sz0 k hk hp
      · intro e he
        by_cases ed : e = dst
        · rw [ed, Function.update_self]; omega
        · rw [Function.update_of_ne ed]
          rcases List.mem_append.mp he with he | he
          · exact hS.labNew e he
          · rw [List.mem_singleton] at he; exact absurd he ed
      · have hne : ∀ x ∈ New, x ≠ dst := fun x hx hxd => hn (hxd ▸ hx)
        intro p hp
        rcases List.mem_cons.mp hp with rfl | hp
        · refine ⟨List.mem_append_left _ hs, by simp, ?_⟩
          show root (Function.update lab dst (a : Int) src).toNat = root (Function.update lab dst (a : Int) dst).toNat
          rw [Function.update_self, Function.update_of_ne (hne src hs), ← hae, Int.toNat_natCast]
          exact (hS.uf.self a ha har).symm
        · obtain ⟨s1, s2, s3⟩ := hS.same p hp
          refine ⟨List.mem_append_left _ s1, List.mem_append_left _ s2, ?_⟩
          rw [Function.update_of_ne (hne _ s1), Function.update_of_ne (hne _ s2), s3]
      · intro k hk hp
        have e1 : inSet (New ++ [dst]) root (Function.update lab dst (a : Int)) k =
            inSet New root lab k + (if a = k then 1 else 0) := by
          unfold inSet
          rw [List.countP_append, List.countP_singleton, Function.update_self, Int.toNat_natCast, hS.uf.self a ha har]
          congr 1
          · apply List.countP_congr
            intro x hx
            rw [Function.update_of_ne (show x ≠ dst from fun hxd => hn (hxd ▸ hx))]
          · simp
        rw [e1]
        by_cases e : k = a
        · rw [e, Function.update_self, hS.size a ha har, if_pos rfl]; push_cast; rfl
        · rw [Function.update_of_ne e, hS.size k hk hp, if_neg (fun h => e h.symm)]; rfl
      · have hmono : ∀ p ∈ E, p ∈ (src, dst) :: E := fun p hp => List.mem_cons_of_mem _ hp
        have hsd : Linked ((src, dst) :: E) src dst := (Linked.refl _).fwd (by simp)
        have key : ∀ e ∈ New ++ [dst], ∃ e' ∈ New, Linked ((src, dst) :: E) e e' ∧
            root (Function.update lab dst (a : Int) e).toNat = root (lab e').toNat := by
          intro e he
          by_cases ed : e = dst
          · refine ⟨src, hs, ed ▸ hsd.symm, ?_⟩
            rw [ed, Function.update_self, Int.toNat_natCast, hS.uf.self a ha har]
          · rcases List.mem_append.mp he with he | he
            · exact ⟨e, he, .refl _, by rw [Function.update_of_ne ed]⟩
            · rw [List.mem_singleton] at he; exact absurd he ed
        intro e he f hf hef
        obtain ⟨e', he', l1, r1⟩ := key e he
        obtain ⟨f', hf', l2, r2⟩ := key f hf
        rw [r1, r2] at hef
        exact (l1.trans ((hS.conv e' he' f' hf' hef).mono hmono)).trans l2.symm

end Verif.Part
