import Verif.Agi.RemoveModel
import Verif.Agi.IterSpec
import Verif.Agi.ConstructProps
/-!
# Properties C47 (`removeEdges`) and C48 (`changeOwners`)
-/
namespace Verif.Agi

/-! ## C47 -/

theorem decodeEdge_getEdge (g : Graph) {l t : Nat} (ht : t < g.numTypes) :
    g.decodeEdge (g.getEdge l t) = .ok (t, l) := by
  unfold Graph.decodeEdge Graph.getEdge
  rw [if_neg (by omega)]
  have h1 : (g.numTypes * l + t + 1 - 1) % g.numTypes = t := by
    rw [Nat.add_sub_cancel, Nat.mul_add_mod, Nat.mod_eq_of_lt ht]
  have h2 : (g.numTypes * l + t + 1 - 1) / g.numTypes = l := by
    rw [Nat.add_sub_cancel, Nat.mul_add_div (by omega), Nat.div_eq_of_lt ht]; simp
  rw [h1, h2]

/-- two graphs that agree on everything a query about type `t` looks at -/
structure SameType (g g' : Graph) (t : Nat) : Prop where
  lt : t < g.numTypes
  lt' : t < g'.numTypes
  slot : g'.slot t = g.slot t
  types : g'.types[t]? = g.types[t]?
  hyper : g'.isHyper = g.isHyper
  nl : g'.numLocal = g.numLocal

theorem SameType.edgeYields {g g' : Graph} {t : Nat} (S : SameType g g' t) (hy : Bool) (b : Nat) :
    ∀ (ls : List Nat) (a : Nat),
      Yields g.iterEdge ⟨1 + t + g.numTypes * a, 1 + t + g.numTypes * b, g.numTypes, hy⟩ (ls.map (g.getEdge · t)) →
      Yields g'.iterEdge ⟨1 + t + g'.numTypes * a, 1 + t + g'.numTypes * b, g'.numTypes, hy⟩
        (ls.map (g'.getEdge · t)) := by
  have hpos : 0 < g.numTypes := Nat.lt_of_le_of_lt (Nat.zero_le _) S.lt
  have hpos' : 0 < g'.numTypes := Nat.lt_of_le_of_lt (Nat.zero_le _) S.lt'
  have hle : ∀ (n a : Nat), 0 < n → ((1 + t + n * b ≤ 1 + t + n * a) ↔ b ≤ a) := by
    intro n a hn
    constructor
    · intro h
      exact Nat.le_of_mul_le_mul_left (by omega) hn
    · intro h
      have := Nat.mul_le_mul_left n h
      omega
  have hd : ∀ a, g.decodeEdge (1 + t + g.numTypes * a) = .ok (t, a) := by
    intro a
    have : 1 + t + g.numTypes * a = g.getEdge a t := by unfold Graph.getEdge; omega
    rw [this, decodeEdge_getEdge g S.lt]
  have hd' : ∀ a, g'.decodeEdge (1 + t + g'.numTypes * a) = .ok (t, a) := by
    intro a
    have : 1 + t + g'.numTypes * a = g'.getEdge a t := by unfold Graph.getEdge; omega
    rw [this, decodeEdge_getEdge g' S.lt']
  have hne : ∀ (g : Graph) (l : Nat), g.getEdge l t ≠ 0 := by intro g l; unfold Graph.getEdge; omega
  intro ls
  induction ls with
  | nil =>
    intro a h
    obtain ⟨s', h⟩ := h
    refine ⟨⟨1 + t + g'.numTypes * a, 1 + t + g'.numTypes * b, g'.numTypes, hy⟩, ?_⟩
    unfold Graph.iterEdge at h ⊢
    simp only [hle _ _ hpos, hd] at h
    simp only [hle _ _ hpos']
    by_cases hb : b ≤ a
    · rw [if_pos hb]
    · rw [if_neg hb] at h
      exfalso
      split at h
      · rw [Outcome.bind_ok] at h
        cases he : g.slot t with
        | ok e =>
          rw [he] at h
          simp only [Outcome.bind_ok] at h
          cases hx : e.edgeList.load a with
          | ok x => rw [hx] at h; simp at h
          | fail => rw [hx] at h; simp at h
          | ub => rw [hx] at h; simp at h
        | fail => rw [he] at h; simp at h
        | ub => rw [he] at h; simp at h
      · simp at h
  | cons l ls ih =>
    intro a h
    obtain ⟨_, s', h, hrest⟩ := h
    refine ⟨hne _ _, ⟨1 + t + g'.numTypes * (a + 1), 1 + t + g'.numTypes * b, g'.numTypes, hy⟩, ?_, ?_⟩
    · unfold Graph.iterEdge at h ⊢
      simp only [hle _ _ hpos, hd] at h
      simp only [hle _ _ hpos', hd', S.hyper, S.slot]
      by_cases hb : b ≤ a
      · rw [if_pos hb] at h
        simp only [Outcome.ok.injEq, Prod.mk.injEq] at h
        exact absurd h.1.symm (hne _ _)
      · rw [if_neg hb] at h ⊢
        split at h
        · rename_i hh
          rw [if_pos hh]
          rw [Outcome.bind_ok] at h ⊢
          dsimp only at h ⊢
          obtain ⟨e, he, h⟩ := bind_ok_iff.mp h
          obtain ⟨x, hx, h⟩ := bind_ok_iff.mp h
          simp only [Outcome.pure_eq, Outcome.ok.injEq, Prod.mk.injEq] at h
          have hxl : x = l := by
            have := h.1
            unfold Graph.getEdge at this
            exact Nat.eq_of_mul_eq_mul_left hpos (by omega)
          rw [S.slot, he]
          simp only [Outcome.bind_ok, hx, Outcome.pure_eq, hxl]
          simp [Graph.getEdge, Nat.mul_succ, Nat.add_assoc]
        · rename_i hh
          rw [if_neg hh]
          simp only [Outcome.ok.injEq, Prod.mk.injEq] at h
          have hal : a = l := by
            have := h.1
            unfold Graph.getEdge at this
            exact Nat.eq_of_mul_eq_mul_left hpos (by omega)
          subst hal
          simp only [Outcome.ok.injEq, Prod.mk.injEq]
          refine ⟨by unfold Graph.getEdge; omega, ?_⟩
          simp [Nat.mul_succ, Nat.add_assoc]
    · apply ih
      have hs' : s' = ⟨1 + t + g.numTypes * (a + 1), 1 + t + g.numTypes * b, g.numTypes, hy⟩ := by
        unfold Graph.iterEdge at h
        simp only [hle _ _ hpos, hd] at h
        by_cases hb : b ≤ a
        · rw [if_pos hb] at h
          simp only [Outcome.ok.injEq, Prod.mk.injEq] at h
          exact absurd h.1.symm (hne _ _)
        · rw [if_neg hb] at h
          split at h
          · rw [Outcome.bind_ok] at h
            obtain ⟨e, he, h⟩ := bind_ok_iff.mp h
            obtain ⟨x, hx, h⟩ := bind_ok_iff.mp h
            simp only [Outcome.pure_eq, Outcome.ok.injEq, Prod.mk.injEq] at h
            rw [← h.2]
            simp [Nat.mul_succ, Nat.add_assoc]
          · simp only [Outcome.ok.injEq, Prod.mk.injEq] at h
            rw [← h.2]
            simp [Nat.mul_succ, Nat.add_assoc]
      rw [← hs']
      exact hrest

theorem SameType.symm {g g' : Graph} {t : Nat} (S : SameType g g' t) : SameType g' g t :=
  ⟨S.lt', S.lt, S.slot.symm, S.types.symm, S.hyper.symm, S.nl.symm⟩

theorem SameType.edgesOf {g g' : Graph} {t : Nat} (S : SameType g g' t) (v : Handle) (ls : List Nat)
    (h : YieldsFrom (g.edges v t) g.iterEdge (ls.map (g.getEdge · t))) :
    YieldsFrom (g'.edges v t) g'.iterEdge (ls.map (g'.getEdge · t)) := by
  obtain ⟨s, hs, hy⟩ := h
  unfold Graph.edges Graph.degreeV at hs
  obtain ⟨e, he, hs⟩ := bind_ok_iff.mp hs
  obtain ⟨l, hl, hs⟩ := bind_ok_iff.mp hs
  obtain ⟨a, ha, hs⟩ := bind_ok_iff.mp hs
  obtain ⟨d, hd, hs⟩ := bind_ok_iff.mp hs
  simp only [Outcome.pure_eq, Outcome.ok.injEq] at hs
  refine ⟨mkEdgeIt t g'.numTypes a d false, ?_, ?_⟩
  · unfold Graph.edges Graph.degreeV
    rw [S.slot, he, Outcome.bind_ok, hl, Outcome.bind_ok, ha, Outcome.bind_ok]
    rw [he, hl] at hd
    simp only [Outcome.bind_ok, ha] at hd ⊢
    rw [hd]; rfl
  · subst hs
    exact S.edgeYields false _ ls a hy

theorem SameType.beginOf {g g' : Graph} {t : Nat} (S : SameType g g' t) (ls : List Nat)
    (h : YieldsFrom (g.edgeBegin t) g.iterEdge (ls.map (g.getEdge · t))) :
    YieldsFrom (g'.edgeBegin t) g'.iterEdge (ls.map (g'.getEdge · t)) := by
  obtain ⟨s, hs, hy⟩ := h
  have h0 : ∀ (n : Nat), 1 + t + n * 0 = 1 + t := by intro n; omega
  unfold Graph.edgeBegin at hs
  split at hs
  · rename_i e he
    simp only [Outcome.ok.injEq] at hs
    subst hs
    refine ⟨mkEdgeIt t g'.numTypes 0 e.numEdges g'.isHyper, by simp [Graph.edgeBegin, S.types, he], ?_⟩
    rw [S.hyper]
    exact S.edgeYields _ _ ls 0 hy
  · rename_i he
    simp only [Outcome.ok.injEq] at hs
    subst hs
    refine ⟨mkEdgeIt t g'.numTypes 0 0 g'.isHyper, by simp [Graph.edgeBegin, S.types, he], ?_⟩
    rw [S.hyper]
    exact S.edgeYields _ _ ls 0 hy
  · simp at hs

theorem SameType.pins {g g' : Graph} {t : Nat} (S : SameType g g' t) (l : Nat) :
    g'.pins (g'.getEdge l t) = g.pins (g.getEdge l t) := by
  unfold Graph.pins Graph.uEdge Graph.uOf
  rw [decodeEdge_getEdge g S.lt, decodeEdge_getEdge g' S.lt']
  simp only [Outcome.bind_ok, S.slot, S.hyper, S.nl]

theorem iterPin_t {g : Graph} {it it' : PinIt} {h : Handle} (hs : g.iterPin it = .ok (h, it')) : it'.t = it.t := by
  unfold Graph.iterPin at hs
  split at hs
  · split at hs
    · simp only [Outcome.ok.injEq, Prod.mk.injEq] at hs; rw [← hs.2]
    · obtain ⟨e, _, hs⟩ := bind_ok_iff.mp hs
      obtain ⟨x, _, hs⟩ := bind_ok_iff.mp hs
      simp only [Outcome.pure_eq, Outcome.ok.injEq, Prod.mk.injEq] at hs; rw [← hs.2]
  · split at hs <;> (simp only [Outcome.ok.injEq, Prod.mk.injEq] at hs; rw [← hs.2])

theorem SameType.iterPin {g g' : Graph} {t : Nat} (S : SameType g g' t) (it : PinIt) (h : it.t = t) :
    g'.iterPin it = g.iterPin it := by
  unfold Graph.iterPin
  rw [S.hyper, h, S.slot]

theorem SameType.pinYields {g g' : Graph} {t : Nat} (S : SameType g g' t) : ∀ (hs : List Handle) (it : PinIt),
    it.t = t → Yields g.iterPin it hs → Yields g'.iterPin it hs := by
  intro hs
  induction hs with
  | nil => intro it ht h; obtain ⟨s', h⟩ := h; exact ⟨s', by rw [S.iterPin it ht]; exact h⟩
  | cons x hs ih =>
    intro it ht h
    obtain ⟨h0, s', h1, h2⟩ := h
    exact ⟨h0, s', by rw [S.iterPin it ht]; exact h1, ih s' (by rw [iterPin_t h1]; exact ht) h2⟩

theorem pins_t {g : Graph} {t l : Nat} (ht : t < g.numTypes) {it : PinIt} (h : g.pins (g.getEdge l t) = .ok it) :
    it.t = t := by
  unfold Graph.pins at h
  rw [decodeEdge_getEdge g ht, Outcome.bind_ok] at h
  simp only at h
  obtain ⟨e, _, h⟩ := bind_ok_iff.mp h
  split at h
  · obtain ⟨u, _, h⟩ := bind_ok_iff.mp h
    obtain ⟨v, _, h⟩ := bind_ok_iff.mp h
    simp only [Outcome.pure_eq, Outcome.ok.injEq] at h; rw [← h]
  · obtain ⟨u, _, h⟩ := bind_ok_iff.mp h
    obtain ⟨v, _, h⟩ := bind_ok_iff.mp h
    simp only [Outcome.pure_eq, Outcome.ok.injEq] at h; rw [← h]

theorem SameType.pinsOf {g g' : Graph} {t : Nat} (S : SameType g g' t) (l : Nat) (hs : List Handle)
    (h : YieldsFrom (g.pins (g.getEdge l t)) g.iterPin hs) :
    YieldsFrom (g'.pins (g'.getEdge l t)) g'.iterPin hs := by
  obtain ⟨it, h1, h2⟩ := h
  exact ⟨it, by rw [S.pins]; exact h1, S.pinYields hs it (pins_t S.lt h1) h2⟩

theorem sameType_remove {g g' : Graph} {t t' : Nat} (hg : g.removeEdges t = .ok g') (ht' : t' < g.numTypes)
    (hne : t' ≠ t) : SameType g g' t' := by
  unfold Graph.removeEdges at hg
  split at hg
  · simp at hg
  · rename_i s hs
    simp only [Outcome.ok.injEq] at hg
    subst hg
    have hty : (g.types.set t (s.map EType.cleared))[t']? = g.types[t']? := by
      rw [List.getElem?_set]; rw [if_neg (by omega)]
    refine ⟨ht', ?_, ?_, hty, rfl, rfl⟩
    · simp only
      split <;> omega
    · unfold Graph.slot
      simp only [hty]

/-- **C47** (removal of the type itself).  After `removeEdges(t)` there are no edges of type `t` left, iterating
over them gives NULL at once; `numEdgeTypes` drops by one exactly when `t` was the last type. -/
theorem c47_removed (g : Graph) (t : Nat) (e : EType) (h : g.types[t]? = some (some e)) :
    ∃ g', g.removeEdges t = .ok g' ∧ g'.numLocalEdges t = .ok 0 ∧ g'.numLocalPins t = .ok 0 ∧
      g'.numGlobalEdges t = .ok 0 ∧ g'.numGlobalPins t = .ok 0 ∧
      YieldsFrom (g'.edgeBegin t) g'.iterEdge [] ∧
      g'.numTypes = (if t + 1 = g.numTypes then t else g.numTypes) := by
  have hlt : t < g.types.length := (List.getElem?_eq_some_iff.mp h).1
  have hty : (g.types.set t (some e.cleared))[t]? = some (some e.cleared) := by
    rw [List.getElem?_set]; simp [hlt]
  refine ⟨({ g with types := g.types.set t (some e.cleared), numTypes := if t + 1 = g.numTypes then g.numTypes - 1 else g.numTypes } : Graph),
    by simp only [Graph.removeEdges, h, Option.map], ?_, ?_, ?_, ?_, ?_, ?_⟩
  · simp [Graph.numLocalEdges, Graph.slot, EType.cleared, hlt]
  · simp [Graph.numLocalPins, Graph.slot, EType.cleared, hlt]
  · simp [Graph.numGlobalEdges, Graph.slot, EType.cleared, hlt]
  · simp [Graph.numGlobalPins, Graph.slot, EType.cleared, hlt]
  · have hb : ∀ n b, ∃ s, mkEdgeIt t n 0 ((e.cleared.numEdges : Nat) : Int) b = s ∧ s.stop ≤ s.loc :=
      fun n b => ⟨_, rfl, by simp [mkEdgeIt, EType.cleared]⟩
    obtain ⟨s, hs, hle⟩ := hb (if t + 1 = g.numTypes then g.numTypes - 1 else g.numTypes) g.isHyper
    refine ⟨s, by simp only [Graph.edgeBegin, hty, hs], s, ?_⟩
    unfold Graph.iterEdge
    rw [if_pos hle]
  · simp only
    split <;> omega

/-- **C47** (the others).  `removeEdges(t)` leaves every other type as it was: for each type `t' ≠ t`, the edges
visited by `begin(t')` and by `edges(v,t')` are the same local edges in the same order, each edge keeps its pins
(in order), degree, end points, weight and global id, vertices keep their degrees, and the counts stay.  An edge
is named by type and local index, `getEdge l t'`; the number inside the pointer changes when the number of types
does. -/
theorem c47_others_intact (g g' : Graph) (t t' : Nat) (hg : g.removeEdges t = .ok g') (ht' : t' < g.numTypes)
    (hne : t' ≠ t) :
    t' < g'.numTypes ∧
    g'.numLocalEdges t' = g.numLocalEdges t' ∧ g'.numLocalPins t' = g.numLocalPins t' ∧
    g'.numGlobalEdges t' = g.numGlobalEdges t' ∧ g'.numGlobalPins t' = g.numGlobalPins t' ∧
    (∀ ls : List Nat, YieldsFrom (g'.edgeBegin t') g'.iterEdge (ls.map (g'.getEdge · t')) ↔
      YieldsFrom (g.edgeBegin t') g.iterEdge (ls.map (g.getEdge · t'))) ∧
    (∀ (v : Handle) (ls : List Nat), YieldsFrom (g'.edges v t') g'.iterEdge (ls.map (g'.getEdge · t')) ↔
      YieldsFrom (g.edges v t') g.iterEdge (ls.map (g.getEdge · t'))) ∧
    (∀ v : Handle, g'.degreeV v t' = g.degreeV v t') ∧
    (∀ l : Nat,
      (∀ hs, YieldsFrom (g'.pins (g'.getEdge l t')) g'.iterPin hs ↔ YieldsFrom (g.pins (g.getEdge l t')) g.iterPin hs) ∧
      g'.degreeE (g'.getEdge l t') = g.degreeE (g.getEdge l t') ∧
      g'.uEdge (g'.getEdge l t') = g.uEdge (g.getEdge l t') ∧
      g'.vOf (g'.getEdge l t') = g.vOf (g.getEdge l t') ∧
      g'.weightE (g'.getEdge l t') = g.weightE (g.getEdge l t') ∧
      g'.globalIDE (g'.getEdge l t') = g.globalIDE (g.getEdge l t')) := by
  have S := sameType_remove hg ht' hne
  have hnz : ∀ (g : Graph) (l : Nat), g.getEdge l t' ≠ 0 := by intro g l; unfold Graph.getEdge; omega
  refine ⟨S.lt', ?_, ?_, ?_, ?_, fun ls => ⟨S.symm.beginOf ls, S.beginOf ls⟩,
    fun v ls => ⟨S.symm.edgesOf v ls, S.edgesOf v ls⟩, ?_, ?_⟩
  · simp only [Graph.numLocalEdges, S.slot]
  · simp only [Graph.numLocalPins, S.slot]
  · simp only [Graph.numGlobalEdges, S.slot]
  · simp only [Graph.numGlobalPins, S.slot]
  · intro v; simp only [Graph.degreeV, S.slot]
  · intro l
    refine ⟨fun hs => ⟨S.symm.pinsOf l hs, S.pinsOf l hs⟩, ?_, ?_, ?_, ?_, ?_⟩
    · unfold Graph.degreeE
      rw [decodeEdge_getEdge g S.lt, decodeEdge_getEdge g' S.lt', S.hyper, if_neg (hnz g l), if_neg (hnz g' l)]
      simp only [Outcome.bind_ok, S.slot]
    · unfold Graph.uEdge Graph.uOf
      rw [decodeEdge_getEdge g S.lt, decodeEdge_getEdge g' S.lt']
      simp only [Outcome.bind_ok, S.slot, S.nl]
    · unfold Graph.vOf
      rw [decodeEdge_getEdge g S.lt, decodeEdge_getEdge g' S.lt', S.hyper, if_neg (hnz g l), if_neg (hnz g' l)]
      simp only [Outcome.bind_ok, S.slot]
    · unfold Graph.weightE
      rw [decodeEdge_getEdge g S.lt, decodeEdge_getEdge g' S.lt']
      simp only [Outcome.bind_ok, S.slot]
    · unfold Graph.globalIDE
      rw [decodeEdge_getEdge g S.lt, decodeEdge_getEdge g' S.lt', S.hyper]
      simp only [Outcome.bind_ok, S.slot]

/-- **C47** (vertices): every query about vertices answers as before -/
theorem c47_vertices_intact (g g' : Graph) (t : Nat) (hg : g.removeEdges t = .ok g') :
    g'.numLocal = g.numLocal ∧ g'.numGhost = g.numGhost ∧ g'.globalVerts = g.globalVerts ∧
    (∀ v : Gid, g'.findGID v = g.findGID v) ∧
    ∀ h : Handle, g'.globalID h = g.globalID h ∧ g'.weight h = g.weight h ∧ g'.owner h = g.owner h := by
  unfold Graph.removeEdges at hg
  split at hg
  · simp at hg
  · simp only [Outcome.ok.injEq] at hg
    subst hg
    refine ⟨rfl, rfl, rfl, fun v => rfl, fun h => ⟨rfl, rfl, rfl⟩⟩

/-! ## C48 -/

/-- **C48**.  Let every ghost have an owner that is an index of `newRanks`.  Then `changeOwners(newRanks)`
succeeds, afterwards the owner of each ghost is the new rank of its old owner, and nothing else changed: the
new graph differs from the old one only in the table of ghost owners, and local vertices keep their owner. -/
theorem c48_change_owners (g : Graph) (newRanks : List Part)
    (hown : ∀ k, k < g.numGhost → ∃ p : Nat, p < newRanks.length ∧ g.owner (getVertex (g.numLocal + k)) = .ok p) :
    ∃ g', g.changeOwners newRanks = .ok g' ∧
      (∀ k p, k < g.numGhost → g.owner (getVertex (g.numLocal + k)) = .ok p →
        ∃ q, newRanks[p.toNat]? = some q ∧ g'.owner (getVertex (g.numLocal + k)) = .ok q) ∧
      (∀ l, l < g.numLocal → g'.owner (getVertex l) = g.owner (getVertex l)) ∧
      { g' with owners := g.owners } = g := by
  have ho : ∀ (g : Graph) k, k < g.numGhost →
      g.owner (getVertex (g.numLocal + k)) = (do let o ← deref g.owners; o.load k) := by
    intro g k hk
    unfold Graph.owner getVertex fromPtr
    simp only [Nat.add_eq_zero_iff, Nat.one_ne_zero, and_false, if_false, Nat.add_sub_cancel]
    rw [if_neg (by omega), if_neg (by omega), show g.numLocal + k - g.numLocal = k by omega]
  by_cases h0 : g.numGhost = 0
  · refine ⟨g, by simp [Graph.changeOwners, h0], ?_, fun l _ => rfl, rfl⟩
    intro k p hk; omega
  · obtain ⟨p0, _, hp0⟩ := hown 0 (by omega)
    rw [ho g 0 (by omega)] at hp0
    obtain ⟨o, hog, _⟩ := bind_ok_iff.mp hp0
    have hoo : g.owners = some o := by
      unfold deref at hog
      cases hh : g.owners with
      | none => rw [hh] at hog; simp at hog
      | some x => rw [hh] at hog; simp at hog; rw [hog]
    have hcell : ∀ k, k < g.numGhost → ∃ p : Nat, p < newRanks.length ∧ o[k]? = some (some (p : Int)) := by
      intro k hk
      obtain ⟨p, hp, h⟩ := hown k hk
      rw [ho g k hk, hog, Outcome.bind_ok] at h
      refine ⟨p, hp, ?_⟩
      unfold Mem.load at h
      split at h
      · rename_i a ha; simp only [Outcome.ok.injEq] at h; rw [ha, h]
      · simp at h
    obtain ⟨o', hfold, hinv⟩ := range_inv (changeOwner newRanks)
      (fun n (m : Mem Part) => m.length = o.length ∧ (∀ j, n ≤ j → m[j]? = o[j]?) ∧
        ∀ j, j < n → ∃ p : Nat, ∃ q, o[j]? = some (some (p : Int)) ∧ newRanks[p]? = some q ∧ m[j]? = some (some q))
      0 g.numGhost (by
        intro k m hk ⟨hlen, hrest, hdone⟩
        obtain ⟨p, hp, hpc⟩ := hcell k hk
        have hkl : k < o.length := (List.getElem?_eq_some_iff.mp hpc).1
        refine ⟨m.set k (some newRanks[p]), ?_, by simp [hlen], ?_, ?_⟩
        · unfold changeOwner
          rw [Nat.zero_add, Mem.load_ok (a := (p : Int)) (by rw [hrest k (by omega)]; exact hpc), Outcome.bind_ok,
            if_neg (by omega), Int.toNat_natCast, rd_ok hp, Outcome.bind_ok, Mem.store_ok _ (by omega)]
        · intro j hj
          rw [Mem.getElem?_set', if_neg (by omega)]
          exact hrest j (by omega)
        · intro j hj
          by_cases hjk : j = k
          · subst hjk
            refine ⟨p, newRanks[p], hpc, List.getElem?_eq_getElem hp, ?_⟩
            rw [Mem.getElem?_set', if_pos rfl, if_pos (by omega)]
          · obtain ⟨p', q, h1, h2, h3⟩ := hdone j (by omega)
            refine ⟨p', q, h1, h2, ?_⟩
            rw [Mem.getElem?_set', if_neg (by omega)]
            exact h3)
      o ⟨rfl, fun _ _ => rfl, fun j hj => by omega⟩
    refine ⟨{ g with owners := some o' }, ?_, ?_, ?_, rfl⟩
    · unfold Graph.changeOwners
      rw [if_neg h0, hog, Outcome.bind_ok, hfold]; rfl
    · intro k p hk hp
      obtain ⟨p', q, h1, h2, h3⟩ := hinv.2.2 k hk
      rw [ho g k hk, hog, Outcome.bind_ok, Mem.load_ok h1] at hp
      simp only [Outcome.ok.injEq] at hp
      refine ⟨q, by rw [← hp]; exact h2, ?_⟩
      have := ho ({ g with owners := some o' } : Graph) k hk
      simp only at this
      rw [this]
      exact Mem.load_ok h3
    · intro l hl
      unfold Graph.owner getVertex fromPtr
      simp only [Nat.add_eq_zero_iff, Nat.one_ne_zero, and_false, if_false, Nat.add_sub_cancel]
      rw [if_neg (by omega), if_pos hl, if_neg (by omega), if_pos hl]

/-! ## non-vacuity and a defect -/

/-- a hypergraph part with two types, the second one removed -/
def removeSample (t : Nat) : Outcome Graph := do
  let g ← build 0 2 3 sampleH
  g.removeEdges t

/-- removing the last type: one type is left and its edges are still there -/
example : (do let g ← removeSample 1; let n ← g.numLocalEdges 0; return (g.numTypes, n)) = Outcome.ok (1, 2) := by
  decide +kernel

/-- **Defect** (agi/agiConstruct.cpp:478-506): removing a type that is not the last keeps it in
`numEdgeTypes()`, with NULL arrays: `edges(v,t)` and `degree(v,t)`, as `migrate` and `checkValidity` call them
for every type below `numEdgeTypes()`, read through NULL. -/
theorem c47_middle_type_unusable :
    (do let g ← removeSample 0; return g.numTypes) = Outcome.ok 2 ∧
    (do let g ← removeSample 0; g.degreeV (getVertex 0) 0) = .ub := by
  constructor <;> decide +kernel

/-- the hypothesis of `c48_change_owners` is met: two ghosts owned by parts 1 and 0 -/
def ownersSample : Graph := { emptyGraph 0 2 with numLocal := 1, numGhost := 2, owners := some [some 1, some 0] }

example : ∀ k, k < ownersSample.numGhost →
    ∃ p : Nat, p < [4, 6].length ∧ ownersSample.owner (getVertex (ownersSample.numLocal + k)) = .ok p := by
  intro k hk
  have : k = 0 ∨ k = 1 := by simp only [ownersSample] at hk; omega
  rcases this with rfl | rfl
  · exact ⟨1, by decide, by decide⟩
  · exact ⟨0, by decide, by decide⟩

example : (do let g ← ownersSample.changeOwners [4, 6]
              let a ← g.owner (getVertex 1)
              let b ← g.owner (getVertex 2)
              return (a, b)) = Outcome.ok ((6 : Int), (4 : Int)) := by decide +kernel

end Verif.Agi
