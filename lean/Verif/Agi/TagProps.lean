import Verif.Agi.TagModel
import Verif.Io.BytesProps
/-!
# Property C14: tags behave as arrays per entity

Spec: a history is a list of writes `(l, x)` - the value `x` written to the entity with local index `l`.
Reading entity `l` afterwards gives the value of the last write to `l`.
-/
namespace Verif.Agi
open Verif.Io

/-- the last value written to `l` -/
def lastWrite : List (Nat × Nat) → Nat → Option Nat
  | [], _ => none
  | (l', x) :: h, l => match lastWrite h l with
    | some y => some y
    | none => if l' = l then some x else none

/-- what a user who reads must see: the last value written; the value is indeterminate before any write -/
def readsAs : Option Nat → Outcome Nat
  | some x => .ok x
  | none => .ub

/-- the signed value of a `w`-byte two's complement pattern -/
def signedOf (w x : Nat) : Int := if 2 * x < 256 ^ w then x else x - (256 ^ w : Nat)
/-- the pattern of a signed value -/
def patternOf (w : Nat) (v : Int) : Nat := (v % (256 ^ w : Nat)).toNat

theorem lastWrite_snoc (h : List (Nat × Nat)) (l' x l : Nat) :
    lastWrite (h ++ [(l', x)]) l = if l' = l then some x else lastWrite h l := by
  induction h with
  | nil => simp [lastWrite]
  | cons a h ih =>
    obtain ⟨a, y⟩ := a
    simp only [List.cons_append, lastWrite, ih]
    by_cases hl : l' = l <;> simp [hl]

/-- the block holds exactly the bytes of the last writes -/
structure Holds (little : Bool) (w n : Nat) (h : List (Nat × Nat)) (d : Mem Nat) : Prop where
  len : d.length = w * n
  cell : ∀ l k, l < n → k < w → d[w * l + k]? = some ((lastWrite h l).bind (fun x => (memBytes little w x)[k]?))

theorem holds_new (little : Bool) (w n : Nat) : Holds little w n [] (infoNew n w) := by
  refine ⟨by simp [infoNew], ?_⟩
  intro l k hl hk
  have : w * l + k < w * n := by
    have : w * (l + 1) ≤ w * n := Nat.mul_le_mul_left w hl
    rw [Nat.mul_succ] at this; omega
  simp [infoNew, Mem.alloc, lastWrite, this]

theorem store_bytes (base : Nat) (bs : List Nat) : ∀ (s : Nat) (d : Mem Nat), base + s + bs.length ≤ d.length →
    ∃ d', (bs.zipIdx s).foldlM (fun (d : Mem Nat) (bk : Nat × Nat) => d.store (base + bk.2) bk.1) d = .ok d' ∧
      d'.length = d.length ∧
      ∀ j, d'[j]? = if base + s ≤ j ∧ j < base + s + bs.length then some (bs[j - (base + s)]?) else d[j]? := by
  induction bs with
  | nil => intro s d _; refine ⟨d, rfl, rfl, ?_⟩; intro j; rw [if_neg (by simp)]
  | cons b bs ih =>
    intro s d hd
    simp only [List.length_cons] at hd
    rw [List.zipIdx_cons, List.foldlM_cons, Mem.store_ok _ (by simp; omega), Outcome.bind_ok]
    obtain ⟨d', h1, h2, h3⟩ := ih (s + 1) (d.set (base + s) (some b)) (by simp; omega)
    refine ⟨d', h1, by simpa using h2, ?_⟩
    intro j
    rw [h3, Mem.getElem?_set']
    simp only [List.length_cons]
    by_cases hj : j = base + s
    · subst hj
      rw [if_neg (by omega), if_pos rfl, if_pos (by omega), if_pos (by omega)]
      simp
    · by_cases hr : base + (s + 1) ≤ j ∧ j < base + (s + 1) + bs.length
      · rw [if_pos hr, if_pos (by omega)]
        have : j - (base + s) = (j - (base + (s + 1))) + 1 := by omega
        rw [this, List.getElem?_cons_succ]
      · rw [if_neg hr, if_neg (by omega), if_neg (by omega)]

theorem holds_set {little : Bool} {w n : Nat} {h : List (Nat × Nat)} {d : Mem Nat} (H : Holds little w n h d)
    {l : Nat} (x : Nat) (hl : l < n) :
    ∃ d', infoSet little w d l x = .ok d' ∧ Holds little w n (h ++ [(l, x)]) d' := by
  have hbound : w * l + w ≤ w * n := by
    have : w * (l + 1) ≤ w * n := Nat.mul_le_mul_left w hl
    rw [Nat.mul_succ] at this; omega
  obtain ⟨d', h1, h2, h3⟩ := store_bytes (w * l) (memBytes little w x) 0 d
    (by rw [memBytes_length, H.len]; omega)
  refine ⟨d', h1, by rw [h2, H.len], ?_⟩
  intro l2 k hl2 hk
  rw [h3, memBytes_length, lastWrite_snoc]
  by_cases he : l = l2
  · subst he
    rw [if_pos (by omega), if_pos rfl]
    simp
  · rw [if_neg he, if_neg, H.cell l2 k hl2 hk]
    intro hc
    apply he
    rcases Nat.lt_or_gt_of_ne he with hlt | hlt
    · have : w * (l + 1) ≤ w * l2 := Nat.mul_le_mul_left w hlt
      rw [Nat.mul_succ] at this; omega
    · have : w * (l2 + 1) ≤ w * l := Nat.mul_le_mul_left w hlt
      rw [Nat.mul_succ] at this; omega

theorem holds_get {little : Bool} {w n : Nat} {h : List (Nat × Nat)} {d : Mem Nat} (H : Holds little w n h d)
    (hw : 0 < w) (hx : ∀ p ∈ h, p.2 < 256 ^ w) {l : Nat} (hl : l < n) :
    infoGet little w d l = readsAs (lastWrite h l) := by
  unfold infoGet
  cases hlw : lastWrite h l with
  | none =>
    obtain ⟨w', rfl⟩ : ∃ w', w = w' + 1 := ⟨w - 1, by omega⟩
    have hc := H.cell l 0 hl (by omega)
    rw [hlw] at hc
    rw [List.range_succ_eq_map, List.mapM_cons]
    have : d.load ((w' + 1) * l + 0) = .ub := by simp only [Mem.load, hc]; rfl
    rw [this]; rfl
  | some x =>
    have hxw : x < 256 ^ w := by
      have : ∀ h : List (Nat × Nat), lastWrite h l = some x → ∃ p ∈ h, p.2 = x := by
        intro h
        induction h with
        | nil => intro h; simp [lastWrite] at h
        | cons a h ih =>
          obtain ⟨a, y⟩ := a
          intro hh
          simp only [lastWrite] at hh
          cases hq : lastWrite h l with
          | some z =>
            rw [hq] at hh
            obtain ⟨p, hp, e⟩ := ih (by rw [hq]; exact hh)
            exact ⟨p, by simp [hp], e⟩
          | none =>
            rw [hq] at hh
            simp only at hh
            split at hh
            · exact ⟨(a, y), by simp, by simpa using hh⟩
            · simp at hh
      obtain ⟨p, hp, e⟩ := this h hlw
      rw [← e]; exact hx p hp
    rw [mapM_ok (g := fun k => (memBytes little w x).getD k 0)]
    · have : (List.range w).map (fun k => (memBytes little w x).getD k 0) = memBytes little w x := by
        apply List.ext_getElem
        · simp [memBytes_length]
        · intro i h1 h2
          simp [h2]
      simp only [Outcome.bind_ok, this, ofMem_memBytes, readsAs, Nat.mod_eq_of_lt hxw, Outcome.pure_eq]
    · intro k hk
      have hk : k < w := by simpa using hk
      have hc := H.cell l k hl hk
      rw [hlw] at hc
      have hkl : k < (memBytes little w x).length := by rw [memBytes_length]; exact hk
      simp only [Option.bind_some, List.getElem?_eq_getElem hkl] at hc
      rw [Mem.load_ok hc]
      simp [hkl]

theorem holds_run {little : Bool} {w n : Nat} (wr : Mem Nat → Nat → Nat → Outcome (Mem Nat))
    (hwr : ∀ d l x, l < n → wr d l x = infoSet little w d l x) (h : List (Nat × Nat))
    (hl : ∀ p ∈ h, p.1 < n) (d : Mem Nat) (pre : List (Nat × Nat)) (H : Holds little w n pre d) :
    ∃ d', h.foldlM (fun (d : Mem Nat) (p : Nat × Nat) => wr d p.1 p.2) d = .ok d' ∧
      Holds little w n (pre ++ h) d' := by
  induction h generalizing d pre with
  | nil => exact ⟨d, rfl, by simpa using H⟩
  | cons p h ih =>
    obtain ⟨d1, e1, H1⟩ := holds_set H p.2 (hl p (by simp))
    obtain ⟨d2, e2, H2⟩ := ih (fun q hq => hl q (by simp [hq])) d1 _ H1
    refine ⟨d2, ?_, by simpa using H2⟩
    rw [List.foldlM_cons, hwr _ _ _ (hl p (by simp)), e1]
    exact e2

/-- **C14**, vertices.  For every width (4 for `int`, 8 for `long` and `double`), both byte orders and
every history of writes to local vertices of a new vertex tag: no write fails, and afterwards reading each
local vertex gives the last value written to that vertex, whatever was written to the others. -/
theorem c14_vertex_tag (g : Graph) (little : Bool) (w : Nat) (hw : 0 < w) (h : List (Nat × Nat))
    (hl : ∀ p ∈ h, p.1 < g.numLocal) (hx : ∀ p ∈ h, p.2 < 256 ^ w) :
    ∃ d0 d, g.createTag w none = .ok d0 ∧
      h.foldlM (fun (d : Mem Nat) (p : Nat × Nat) => g.setTagV little w d (getVertex p.1) p.2) d0 = .ok d ∧
      ∀ l < g.numLocal, g.getTagV little w d (getVertex l) = readsAs (lastWrite h l) := by
  obtain ⟨d, e, H⟩ := holds_run (n := g.numLocal) (fun d l x => g.setTagV little w d (getVertex l) x)
    (fun d l x _ => by simp [Graph.setTagV, vidx, fromPtr, getVertex]) h hl _ [] (holds_new little w _)
  refine ⟨infoNew g.numLocal w, d, rfl, e, ?_⟩
  intro l hlt
  have := holds_get H hw (by simpa using hx) hlt
  simp only [Graph.getTagV, vidx, fromPtr, getVertex]
  simp [Nat.not_le.mpr hlt]
  simpa using this

/-- **C14**, edges of type `t`: the same for the edges of one type, through their handles. -/
theorem c14_edge_tag (g : Graph) (t : Nat) (e : EType) (ht : t < g.numTypes)
    (hslot : g.types[t]? = some (some e)) (little : Bool) (w : Nat) (hw : 0 < w) (h : List (Nat × Nat))
    (hl : ∀ p ∈ h, p.1 < e.numEdges) (hx : ∀ p ∈ h, p.2 < 256 ^ w) :
    ∃ d0 d, g.createTag w (some t) = .ok d0 ∧
      h.foldlM (fun (d : Mem Nat) (p : Nat × Nat) => g.setTagE little w d (g.getEdge p.1 t) p.2) d0 = .ok d ∧
      ∀ l < e.numEdges, g.getTagE little w d (g.getEdge l t) = readsAs (lastWrite h l) := by
  have hdec : ∀ l, g.decodeEdge (g.getEdge l t) = .ok (t, l) := by
    intro l
    unfold Graph.decodeEdge Graph.getEdge
    rw [if_neg (by omega)]
    have h1 : (g.numTypes * l + t + 1 - 1) % g.numTypes = t := by
      rw [Nat.add_sub_cancel, Nat.mul_add_mod, Nat.mod_eq_of_lt ht]
    have h2 : (g.numTypes * l + t + 1 - 1) / g.numTypes = l := by
      rw [Nat.add_sub_cancel, Nat.mul_add_div (by omega), Nat.div_eq_of_lt ht]; simp
    rw [h1, h2]
  obtain ⟨d, e', H⟩ := holds_run (n := e.numEdges) (fun d l x => g.setTagE little w d (g.getEdge l t) x)
    (fun d l x _ => by simp [Graph.setTagE, hdec]) h hl _ [] (holds_new little w _)
  refine ⟨infoNew e.numEdges w, d, by simp [Graph.createTag, Graph.tagSize, hslot], e', ?_⟩
  intro l hlt
  have := holds_get H hw (by simpa using hx) hlt
  simp only [Graph.getTagE, hdec, Outcome.bind_ok]
  simpa using this

/-- the values of `int` and `long` tags: a signed value in range is its pattern's signed value, and its
pattern fits, so the theorems above apply to signed values -/
theorem c14_signed (w : Nat) (v : Int) (h1 : -(256 ^ w : Nat) ≤ 2 * v) (h2 : 2 * v < (256 ^ w : Nat)) :
    patternOf w v < 256 ^ w ∧ signedOf w (patternOf w v) = v := by
  unfold patternOf signedOf
  generalize hP : (256 ^ w : Nat) = P at *
  have hP0 : 0 < P := by rw [← hP]; exact Nat.pow_pos (by omega)
  by_cases hv : 0 ≤ v
  · rw [Int.emod_eq_of_lt hv (by omega)]
    refine ⟨by omega, ?_⟩
    rw [if_pos (by omega)]; omega
  · have : v % (P : Int) = v + P := by
      rw [← Int.add_emod_right, Int.emod_eq_of_lt (by omega) (by omega)]
    rw [this]
    refine ⟨by omega, ?_⟩
    rw [if_neg (by omega)]; omega

/-- a part with two local vertices and one ghost -/
def tagSample : Graph := { emptyGraph 0 2 with numLocal := 2, numGhost := 1 }

/-- non-vacuity: a history with overwriting and with a negative `int` -/
example : lastWrite [(0, 7), (1, patternOf 4 (-3)), (0, 9)] 0 = some 9 ∧
    lastWrite [(0, 7), (1, patternOf 4 (-3)), (0, 9)] 1 = some (patternOf 4 (-3)) := by decide
example : ∀ p ∈ [(0, 7), (1, patternOf 4 (-3)), (0, 9)], p.1 < tagSample.numLocal ∧ p.2 < 256 ^ 4 := by
  decide
example : signedOf 4 (patternOf 4 (-3)) = -3 := by decide

/-- **Defect** (agi/agiTag.cpp:73-99 against 40-72): on a ghost, `get` shifts the index by the number of
local vertices and `set` does not.  Writing a ghost in a vertex tag writes outside the block. -/
theorem c14_ghost_write_out_of_bounds :
    (do let d ← tagSample.createTag 4 none
        tagSample.setTagV true 4 d (getVertex 2) 5) = .ub := by decide +kernel

/-- **Defect**: reading a ghost through a vertex tag silently returns the value of a local vertex. -/
theorem c14_ghost_reads_local_value :
    (do let d ← tagSample.createTag 4 none
        let d ← tagSample.setTagV true 4 d (getVertex 0) 5
        tagSample.getTagV true 4 d (getVertex 2)) = .ok 5 := by decide +kernel

/-- **Defect**: in a ghost tag (a block with one entry per ghost), writing a ghost with `setXTag` goes
out of the block although reading the same ghost is in range. -/
theorem c14_ghost_tag_not_writable :
    (tagSample.setTagV true 4 (infoNew tagSample.numGhost 4) (getVertex 2) 5) = .ub := by decide +kernel

end Verif.Agi
