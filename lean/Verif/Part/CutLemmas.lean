import Verif.Part.CutModel
import Verif.Part.ZoltanProps
import Mathlib.Data.Nat.Find
/-!
# Lemmas on the callbacks of the edge partitioner
-/
namespace Verif.Part
open Verif.Agi Verif.Io

/-! ## loops that reach undefined behaviour -/

theorem range_states {β : Type} {f : β → Nat → Outcome β} (B : Nat → β) {n : Nat}
    (h : ∀ k, k < n → f (B k) k = .ok (B (k + 1))) : (List.range n).foldlM f (B 0) = .ok (B n) := by
  induction n with
  | zero => rfl
  | succ n ih =>
    rw [List.range_succ, List.foldlM_append, ih (fun k hk => h k (by omega)), Outcome.bind_ok, List.foldlM_cons,
      h n (by omega)]
    rfl

theorem range_ub {β : Type} {f : β → Nat → Outcome β} (B : Nat → β) {n m : Nat} (hm : m < n)
    (h : ∀ k, k < m → f (B k) k = .ok (B (k + 1))) (hu : f (B m) m = .ub) : (List.range n).foldlM f (B 0) = .ub := by
  have hsplit : List.range n = List.range m ++ m :: List.range' (m + 1) (n - (m + 1)) := by
    rw [List.range_eq_range', List.range_eq_range', ← List.range'_succ, show n - (m + 1) + 1 = n - m by omega]
    have := List.range'_append_1 (s := 0) (m := m) (n := n - m)
    rw [Nat.zero_add] at this
    rw [this, show m + (n - m) = n by omega]
  rw [hsplit, List.foldlM_append, range_states B h, Outcome.bind_ok, List.foldlM_cons, hu]
  rfl

theorem loopList_ub {β : Type} {body : β → Handle → Outcome (β × Bool)} (B : Nat → β) : ∀ (hs : List Handle) (a m : Nat) (hm : m < hs.length),
    (∀ k (hk : k < m), body (B (a + k)) (hs[k]'(by omega)) = .ok (B (a + k + 1), false)) → body (B (a + m)) hs[m] = .ub →
    loopList body hs (B a) = .ub := by
  intro hs
  induction hs with
  | nil => intro a m hm; simp at hm
  | cons x hs ih =>
    intro a m hm h hu
    cases m with
    | zero =>
      simp only [Nat.add_zero, List.getElem_cons_zero] at hu
      rw [loopList, hu]
      rfl
    | succ m =>
      have h0 := h 0 (by omega)
      simp only [Nat.add_zero, List.getElem_cons_zero] at h0
      rw [loopList, h0, Outcome.bind_ok]
      simp only [Bool.false_eq_true, if_false]
      refine ih (a + 1) m (by simpa using hm) ?_ ?_
      · intro k hk
        have := h (k + 1) (by omega)
        rw [show a + 1 + k = a + (k + 1) by omega]
        simpa using this
      · rw [show a + 1 + m = a + (m + 1) by omega]
        simpa using hu

theorem iterLoop_ub {σ β : Type} {step : σ → Outcome (Handle × σ)} {body : β → Handle → Outcome (β × Bool)}
    {hs : List Handle} {s : σ} {fuel : Nat} (hy : Yields step s hs) (hf : hs.length < fuel) (B : Nat → β) {m : Nat} (hm : m < hs.length)
    (hb : ∀ k (hk : k < m), body (B k) (hs[k]'(by omega)) = .ok (B (k + 1), false)) (hu : body (B m) hs[m] = .ub) :
    iterLoop step body fuel s (B 0) = .ub := by
  rw [iterLoop_yields body _ s fuel _ hy hf]
  refine loopList_ub B hs 0 m hm ?_ ?_
  · intro k hk
    rw [Nat.zero_add]
    exact hb k hk
  · rw [Nat.zero_add]
    exact hu

theorem store_end {α : Type} {m : Mem α} {k : Nat} (h : m.length ≤ k) (x : α) : m.store k x = .ub := by
  unfold Mem.store
  rw [if_neg (by omega)]

/-! ## objects -/

/-- the numbers below `n` -/
def upTo (n : Nat) : List Int := (List.range n).map (fun k : Nat => (k : Int))

theorem upTo_length (n : Nat) : (upTo n).length = n := by simp [upTo]

theorem upTo_get {n k : Nat} (h : k < (upTo n).length) : (upTo n)[k] = (k : Int) := by simp [upTo]

section
variable {g : Graph} {hyper : Bool} {verts ghosts : List Gid} {types : List EdgeInput} {zid : Gid → Int}

theorem cutObjects_eq (h : CRep g hyper verts ghosts types) (ht : 0 < types.length) :
    cutObjects g = .ok (upTo types[0].pins.length, upTo types[0].pins.length) := by
  unfold cutObjects
  rw [numEdges_eq h ht, Outcome.bind_ok]
  set n := types[0].pins.length
  have := range_states (f := cutObj) (fun k => (filled (upTo n) n k, filled (upTo n) n k)) (n := n) (by
    intro k hk
    unfold cutObj
    have hk' : k < (upTo n).length := by rw [upTo_length]; exact hk
    simp only
    rw [filled_store hk' hk (upTo_get hk'), Outcome.bind_ok, Outcome.bind_ok]
    rfl)
  simp only [filled_zero] at this
  rw [this, Outcome.bind_ok]
  simp only
  rw [readArr_filled (upTo_length n), Outcome.bind_ok, Outcome.bind_ok]
  rfl

/-! ## lists -/

/-- the degree of vertex `u` -/
def cdeg (hyper : Bool) (verts : List Gid) (e : EdgeInput) (u : Nat) : Nat := degOf hyper e.pins (verts.getD u 0)

/-- the starts of the lists -/
def starts (hyper : Bool) (verts : List Gid) (e : EdgeInput) : List Int :=
  (List.range (verts.length + 1)).map (fun k : Nat => (offs (cdeg hyper verts e) k : Int))

theorem starts_length (e : EdgeInput) : (starts hyper verts e).length = verts.length + 1 := by simp [starts]

theorem starts_get (e : EdgeInput) {k : Nat} (h : k < (starts hyper verts e).length) :
    (starts hyper verts e)[k] = (offs (cdeg hyper verts e) k : Int) := by simp [starts]

/-- the arrays before vertex `k` -/
def cutState (zid : Gid → Int) (hyper : Bool) (verts : List Gid) (e : EdgeInput) (spare k : Nat) : CutCsr :=
  ⟨filled (verts.map zid) verts.length k, filled (starts hyper verts e) (verts.length + spare) (k + 1),
    filled (upTo e.pins.length) e.pins.length (offs (cdeg hyper verts e) k), k⟩

theorem cutPin_eq {e : EdgeInput} {C k j : Nat} (hk : k < verts.length) (hC : k + 1 < C) (hj : j < cdeg hyper verts e k)
    (hE : offs (cdeg hyper verts e) k + j < e.pins.length) :
    cutPin e.pins.length (filled (starts hyper verts e) C (k + 2)) k
        (filled (upTo e.pins.length) e.pins.length (offs (cdeg hyper verts e) k + j)) j =
      .ok (filled (upTo e.pins.length) e.pins.length (offs (cdeg hyper verts e) k + (j + 1))) := by
  have hl := starts_length (hyper := hyper) (verts := verts) e
  have hu := upTo_length e.pins.length
  have hs := offs_succ (cdeg hyper verts e) k
  unfold cutPin
  rw [filled_load (by omega) (show k < k + 2 by omega), starts_get, Outcome.bind_ok]
  simp only
  rw [show ((offs (cdeg hyper verts e) k : Nat) : Int) + (j : Int) = ((offs (cdeg hyper verts e) k + j : Nat) : Int) by push_cast; rfl,
    toIdx_nat, Outcome.bind_ok, filled_store (by omega) hE (upTo_get _), Outcome.bind_ok, if_neg (by omega),
    filled_load (by omega) (show k + 1 < k + 2 by omega), starts_get, Outcome.bind_ok, if_neg (by omega)]
  rfl

theorem cutPin_ub {e : EdgeInput} {C k j : Nat} (hk : k < verts.length)
    (hE : offs (cdeg hyper verts e) k + j = e.pins.length) :
    cutPin e.pins.length (filled (starts hyper verts e) C (k + 2)) k
        (filled (upTo e.pins.length) e.pins.length (offs (cdeg hyper verts e) k + j)) j = .ub := by
  have hl := starts_length (hyper := hyper) (verts := verts) e
  have hu := upTo_length e.pins.length
  unfold cutPin
  rw [filled_load (by omega) (show k < k + 2 by omega), starts_get, Outcome.bind_ok]
  simp only
  rw [show ((offs (cdeg hyper verts e) k : Nat) : Int) + (j : Int) = ((offs (cdeg hyper verts e) k + j : Nat) : Int) by push_cast; rfl,
    toIdx_nat, Outcome.bind_ok, store_end (by rw [filled_length (by omega) (by omega)]; omega)]
  rfl

theorem cdeg_eq (h : CRep g hyper verts ghosts types) (ht : 0 < types.length) {k : Nat} (hk : k < verts.length) :
    g.degreeV (getVertex k) 0 = .ok ((cdeg hyper verts types[0] k : Nat) : Int) := by
  rw [degreeV_eq h ht hk, cdeg, getD_at hk]

theorem cutVertex_eq (h : CRep g hyper verts ghosts types) (ht : 0 < types.length) {spare k : Nat} (hk : k < verts.length)
    (hs : 0 < spare ∨ k + 1 < verts.length) (hE : offs (cdeg hyper verts types[0]) (k + 1) ≤ types[0].pins.length) :
    hgVertex g zid types[0].pins.length (cutState zid hyper verts types[0] spare k) (getVertex k) =
      .ok (cutState zid hyper verts types[0] spare (k + 1), false) := by
  have hl := starts_length (hyper := hyper) (verts := verts) types[0]
  have hsu := offs_succ (cdeg hyper verts types[0]) k
  unfold hgVertex
  rw [globalID_idx h.v (by simp; omega), Outcome.bind_ok]
  unfold cutState
  simp only
  rw [filled_store (by simpa using hk) hk (by simp [List.getElem_append_left hk]), Outcome.bind_ok, cdeg_eq h ht hk,
    Outcome.bind_ok]
  unfold cutPtr
  rw [h.v.nl, if_pos hk, filled_load (by omega) (Nat.lt_succ_self k), starts_get, Outcome.bind_ok,
    filled_store (by omega) (by omega) (show _ = ((offs (cdeg hyper verts types[0]) k : Nat) : Int) + ((cdeg hyper verts types[0] k : Nat) : Int) by
      rw [starts_get]; rw [hsu]; push_cast; rfl), Outcome.bind_ok, Int.toNat_natCast, show k + 1 + 1 = k + 2 from rfl]
  have := range_states (f := cutPin types[0].pins.length (filled (starts hyper verts types[0]) (verts.length + spare) (k + 2)) k)
    (fun j => filled (upTo types[0].pins.length) types[0].pins.length (offs (cdeg hyper verts types[0]) k + j))
    (n := cdeg hyper verts types[0] k) (by
      intro j hj
      exact cutPin_eq hk (by omega) hj (by omega))
  simp only [Nat.add_zero] at this
  rw [this, Outcome.bind_ok, ← hsu]
  rfl

theorem cutVertex_ub (h : CRep g hyper verts ghosts types) (ht : 0 < types.length) {spare k : Nat} (hk : k < verts.length)
    (hb : (spare = 0 ∧ k + 1 = verts.length) ∨ types[0].pins.length < offs (cdeg hyper verts types[0]) (k + 1))
    (hE : offs (cdeg hyper verts types[0]) k ≤ types[0].pins.length) :
    hgVertex g zid types[0].pins.length (cutState zid hyper verts types[0] spare k) (getVertex k) = .ub := by
  have hl := starts_length (hyper := hyper) (verts := verts) types[0]
  have hsu := offs_succ (cdeg hyper verts types[0]) k
  unfold hgVertex
  rw [globalID_idx h.v (by simp; omega), Outcome.bind_ok]
  unfold cutState
  simp only
  rw [filled_store (by simpa using hk) hk (by simp [List.getElem_append_left hk]), Outcome.bind_ok, cdeg_eq h ht hk,
    Outcome.bind_ok]
  unfold cutPtr
  rw [h.v.nl, if_pos hk, filled_load (by omega) (Nat.lt_succ_self k), starts_get, Outcome.bind_ok]
  by_cases hz : spare = 0 ∧ k + 1 = verts.length
  · rw [store_end (by rw [filled_length (by omega) (by omega)]; omega)]
    rfl
  · rw [filled_store (by omega) (by omega) (show _ = ((offs (cdeg hyper verts types[0]) k : Nat) : Int) + ((cdeg hyper verts types[0] k : Nat) : Int) by
      rw [starts_get]; rw [hsu]; push_cast; rfl), Outcome.bind_ok, Int.toNat_natCast, show k + 1 + 1 = k + 2 from rfl]
    have := range_ub (f := cutPin types[0].pins.length (filled (starts hyper verts types[0]) (verts.length + spare) (k + 2)) k)
      (fun j => filled (upTo types[0].pins.length) types[0].pins.length (offs (cdeg hyper verts types[0]) k + j))
      (n := cdeg hyper verts types[0] k) (m := types[0].pins.length - offs (cdeg hyper verts types[0]) k) (by omega) (by
        intro j hj
        exact cutPin_eq hk (by omega) (by omega) (by omega)) (cutPin_ub hk (by omega))
    simp only [Nat.add_zero] at this
    rw [this]
    rfl

/-- `hg_data` in full -/
theorem cutFill_eq (h : CRep g hyper verts ghosts types) (ht : 0 < types.length) (spare : Nat) :
    cutFill g zid spare = if 0 < spare ∧ offs (cdeg hyper verts types[0]) verts.length ≤ types[0].pins.length
      then .ok (cutState zid hyper verts types[0] spare verts.length) else .ub := by
  have hl := starts_length (hyper := hyper) (verts := verts) types[0]
  have hmono : ∀ {a b : Nat}, a ≤ b → offs (cdeg hyper verts types[0]) a ≤ offs (cdeg hyper verts types[0]) b :=
    fun hab => offs_mono _ hab
  unfold cutFill
  rw [numEdges_eq h ht, Outcome.bind_ok, h.v.nl]
  have hy := yields_vertices g
  rw [h.v.nl] at hy
  have hb := bound_verts h
  by_cases h0 : 0 < verts.length + spare
  · have hst : (Mem.alloc (verts.length + spare) : Mem Int).store 0 0 =
        .ok (filled (starts hyper verts types[0]) (verts.length + spare) 1) := by
      have := filled_store (L := starts hyper verts types[0]) (n := verts.length + spare) (k := 0) (x := (0 : Int)) (by omega) h0
        (by rw [starts_get, offs_zero]; rfl)
      rwa [filled_zero] at this
    rw [hst, Outcome.bind_ok]
    have hB0 : cutState zid hyper verts types[0] spare 0 = ⟨Mem.alloc verts.length,
        filled (starts hyper verts types[0]) (verts.length + spare) 1, Mem.alloc types[0].pins.length, 0⟩ := by
      unfold cutState
      rw [filled_zero, offs_zero, filled_zero]
    rw [← hB0]
    by_cases hgood : 0 < spare ∧ offs (cdeg hyper verts types[0]) verts.length ≤ types[0].pins.length
    · rw [if_pos hgood]
      have := iterLoop_states (body := hgVertex g zid types[0].pins.length) (fuel := g.bound) hy (by simpa using hb)
        (cutState zid hyper verts types[0] spare) (by
          intro k hk
          have hk' : k < verts.length := by simpa using hk
          simp only [List.getElem_map, List.getElem_range]
          exact cutVertex_eq h ht hk' (Or.inl hgood.1) (Nat.le_trans (hmono hk') hgood.2))
      simpa using this
    · rw [if_neg hgood]
      classical
      have hex : ∃ k, k < verts.length ∧ ((spare = 0 ∧ k + 1 = verts.length) ∨
          types[0].pins.length < offs (cdeg hyper verts types[0]) (k + 1)) := by
        have hpos : 0 < verts.length := by
          rcases Nat.eq_zero_or_pos verts.length with h1 | h1
          · exfalso
            apply hgood
            rw [h1, offs_zero]
            omega
          · exact h1
        refine ⟨verts.length - 1, by omega, ?_⟩
        rw [show verts.length - 1 + 1 = verts.length by omega]
        by_cases hsp : spare = 0
        · exact Or.inl ⟨hsp, rfl⟩
        · right
          by_contra hc
          exact hgood ⟨by omega, by omega⟩
      set m := Nat.find hex with hm
      obtain ⟨hm1, hm2⟩ := Nat.find_spec hex
      rw [← hm] at hm1 hm2
      have hlt : ∀ k, k < m → (0 < spare ∨ k + 1 < verts.length) ∧ offs (cdeg hyper verts types[0]) (k + 1) ≤ types[0].pins.length := by
        intro k hk
        have := Nat.find_min hex hk
        have hkv : k < verts.length := by omega
        constructor
        · by_contra hc
          exact this ⟨hkv, Or.inl (by omega)⟩
        · by_contra hc
          exact this ⟨hkv, Or.inr (by omega)⟩
      refine iterLoop_ub (body := hgVertex g zid types[0].pins.length) (fuel := g.bound) hy (by simpa using hb)
        (cutState zid hyper verts types[0] spare) (m := m) (by simpa using hm1) ?_ ?_
      · intro k hk
        simp only [List.getElem_map, List.getElem_range]
        exact cutVertex_eq h ht (by omega) (hlt k hk).1 (hlt k hk).2
      · simp only [List.getElem_map, List.getElem_range]
        refine cutVertex_ub h ht hm1 hm2 ?_
        rcases Nat.eq_zero_or_pos m with h1 | h1
        · rw [h1, offs_zero]; omega
        · have := (hlt (m - 1) (by omega)).2
          rwa [show m - 1 + 1 = m by omega] at this
  · rw [if_neg (by omega), store_end (by rw [Mem.alloc, List.length_replicate]; omega)]
    rfl

theorem cutRow_eq {e : EdgeInput} {spare u : Nat} (hs : 0 < spare) (hu : u < verts.length)
    (hE : offs (cdeg hyper verts e) verts.length = e.pins.length) :
    cutRow (cutState zid hyper verts e spare verts.length) u =
      .ok ((List.range' (offs (cdeg hyper verts e) u) (cdeg hyper verts e u)).map (fun k : Nat => (k : Int))) := by
  have hl := starts_length (hyper := hyper) (verts := verts) e
  have hsu := offs_succ (cdeg hyper verts e) u
  have hmo := offs_mono (cdeg hyper verts e) (show u + 1 ≤ verts.length by omega)
  unfold cutRow cutState
  simp only
  rw [filled_load (by omega) (by omega), starts_get, Outcome.bind_ok]
  have key : (List.range' ((offs (cdeg hyper verts e) u : Nat) : Int).toNat
      (((offs (cdeg hyper verts e) (u + 1) : Nat) : Int) - ((offs (cdeg hyper verts e) u : Nat) : Int)).toNat).mapM
      (filled (upTo e.pins.length) e.pins.length (offs (cdeg hyper verts e) verts.length)).load =
      .ok ((List.range' (offs (cdeg hyper verts e) u) (cdeg hyper verts e u)).map (fun k : Nat => (k : Int))) := by
    rw [Int.toNat_natCast, hsu, show (((offs (cdeg hyper verts e) u + cdeg hyper verts e u : Nat) : Int) -
      ((offs (cdeg hyper verts e) u : Nat) : Int)).toNat = cdeg hyper verts e u by omega]
    refine mapM_ok ?_
    intro k hk
    rw [List.mem_range'_1] at hk
    rw [hE, filled_load (by rw [upTo_length]) (by omega), upTo_get]
  rw [filled_length (by simp) (Nat.le_refl _)]
  by_cases hlt : u + 1 < verts.length
  · rw [if_pos hlt, filled_load (by omega) (by omega), starts_get, Outcome.bind_ok, key]
  · rw [if_neg hlt, filled_length (by rw [upTo_length]; omega) (by omega), Outcome.bind_ok]
    rw [show u + 1 = verts.length by omega, hE] at key
    rw [hE]
    exact key

/-- the last list reads past what was written -/
theorem cutRow_ub {e : EdgeInput} {spare u : Nat} (hs : 0 < spare) (hu : u + 1 = verts.length)
    (hE : offs (cdeg hyper verts e) verts.length < e.pins.length) :
    cutRow (cutState zid hyper verts e spare verts.length) u = .ub := by
  have hl := starts_length (hyper := hyper) (verts := verts) e
  have hsu := offs_succ (cdeg hyper verts e) u
  unfold cutRow cutState
  simp only
  rw [filled_load (by omega) (by omega), starts_get, Outcome.bind_ok, filled_length (by simp) (Nat.le_refl _), if_neg (by omega),
    Outcome.bind_ok, filled_length (by rw [upTo_length]; omega) (by omega), Int.toNat_natCast]
  set a := offs (cdeg hyper verts e) u
  set b := offs (cdeg hyper verts e) verts.length with hb
  have hab : a ≤ b := by rw [hb, ← hu, hsu]; omega
  have hsplit : List.range' a ((e.pins.length : Int) - (a : Int)).toNat =
      List.range' a (b - a) ++ b :: List.range' (b + 1) (e.pins.length - (b + 1)) := by
    rw [← List.range'_succ, show ((e.pins.length : Int) - (a : Int)).toNat = (b - a) + (e.pins.length - (b + 1) + 1) by omega,
      ← List.range'_append_1, show a + (b - a) = b by omega]
  rw [hsplit, List.mapM_append, mapM_ok (g := fun k : Nat => (k : Int)) (by
    intro k hk
    rw [List.mem_range'_1] at hk
    rw [filled_load (by rw [upTo_length]; omega) (by omega), upTo_get]), Outcome.bind_ok, List.mapM_cons,
    filled_unwritten (by rw [upTo_length]; omega) hE]
  rfl

end
end Verif.Part
