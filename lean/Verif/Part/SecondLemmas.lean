import Verif.Part.SecondModel
import Verif.Part.ParmetisLemmas
import Verif.Part.CompProps
import Verif.Io.BinLemmas
/-!
# Lemmas about the second adjacencies
-/
namespace Verif.Part
open Verif.Agi

/-- the nested loops around `x` visit the handles of `L` -/
def GatherIs (G : Gather) (x : Handle) (L : List Handle) : Prop :=
  ∀ (β : Type) (f : β → Handle → Outcome β) (b : β), G β x f b = L.foldlM f b

theorem loopList_plain {β : Type} (f : β → Handle → Outcome β) (l : List Handle) (b : β) :
    loopList (plain f) l b = l.foldlM f b := loopList_fold l (fun b x _ => rfl) b

theorem iterLoop_plain {σ β : Type} {step : σ → Outcome (Handle × σ)} (f : β → Handle → Outcome β) {l : List Handle}
    {s : σ} {fuel : Nat} (b : β) (hy : Yields step s l) (hf : l.length < fuel) :
    iterLoop step (plain f) fuel s b = l.foldlM f b := by
  rw [iterLoop_yields _ l s fuel b hy hf, loopList_plain]

/-- the entries of the row of `x` -/
def rowOf (compress : Bool) (ord : Handle → List Handle → List Handle) (x : Handle) (L : List Handle) : List Handle :=
  if compress then ord x ((dedupL L).erase x) else L

theorem count_gather (L : List Handle) : ∀ (n : Nat) (s : List Handle),
    L.foldlM (m := Outcome) (fun (c : Nat × List Handle) h => .ok (c.1 + 1, insertSet c.2 h)) (n, s) =
      .ok (n + L.length, L.foldl insertSet s) := by
  induction L with
  | nil => intro n s; rfl
  | cons x L ih =>
    intro n s
    rw [List.foldlM_cons, Outcome.bind_ok, ih]
    simp only [List.foldl_cons, List.length_cons]
    congr 2; omega

theorem rowSize_eq {G : Gather} {x : Handle} {L : List Handle} (hG : GatherIs G x L) (compress : Bool)
    {ord : Handle → List Handle → List Handle} (ho : ∀ x l, (ord x l).Perm l) :
    rowSize G compress x = .ok (rowOf compress ord x L).length := by
  unfold rowSize rowOf
  rw [hG, count_gather, Outcome.bind_ok]
  cases compress with
  | true =>
    simp only [if_true, Outcome.pure_eq]
    rw [(ho x _).length_eq]; rfl
  | false => simp

section
variable {G : Gather} {xs : List Handle} {L : Nat → List Handle} (hG : ∀ k (h : k < xs.length), GatherIs G xs[k] (L k))
  (compress : Bool) {ord : Handle → List Handle → List Handle} (ho : ∀ x l, (ord x l).Perm l)

/-- the rows of the first `n` entities -/
def rowsOf (compress : Bool) (ord : Handle → List Handle → List Handle) (xs : List Handle) (L : Nat → List Handle) :
    List (List Handle) := (List.range xs.length).map (fun k => rowOf compress ord (xs.getD k 0) (L k))

include hG ho in
theorem countLoop_spec :
    xs.foldlM (countStep G compress) (Mem.ofList [0] ++ Mem.alloc xs.length, 1) =
      .ok (Mem.ofList ((List.range (xs.length + 1)).map
        (fun k => ((rowsOf compress ord xs L).take k).flatten.length)), xs.length + 1) := by
  have key := foldlM_inv (countStep G compress)
    (fun (pre : List Handle) (s : Mem Nat × Nat) => s = (Mem.ofList ((List.range (pre.length + 1)).map
        (fun k => ((rowsOf compress ord xs L).take k).flatten.length)) ++ Mem.alloc (xs.length - pre.length),
        pre.length + 1)) xs
    (by
      intro pre x s hp hs
      subst hs
      have hl : pre.length < xs.length := by
        have := hp.length_le; simp at this; omega
      have hx : xs[pre.length] = x := by
        obtain ⟨r, rfl⟩ := hp; simp
      have hx2 : xs.getD pre.length 0 = x := by simp [hl, hx]
      have hstep : countStep G compress (Mem.ofList ((List.range (pre.length + 1)).map
        (fun k => ((rowsOf compress ord xs L).take k).flatten.length)) ++ Mem.alloc (xs.length - pre.length),
        pre.length + 1) x = .ok (Mem.ofList ((List.range (pre.length + 1 + 1)).map
        (fun k => ((rowsOf compress ord xs L).take k).flatten.length)) ++ Mem.alloc (xs.length - (pre.length + 1)),
        pre.length + 1 + 1) := by
        unfold countStep
        have h1 := hG pre.length hl
        rw [hx] at h1
        rw [rowSize_eq h1 compress ho, Outcome.bind_ok]
        simp only [Nat.add_sub_cancel]
        have hld : (Mem.ofList ((List.range (pre.length + 1)).map
            (fun k => ((rowsOf compress ord xs L).take k).flatten.length)) ++ Mem.alloc (xs.length - pre.length)).load
              pre.length = .ok ((rowsOf compress ord xs L).take pre.length).flatten.length := by
          apply Mem.load_ok
          rw [List.getElem?_append_left (by simp [Mem.ofList])]
          simp [Mem.ofList]
        rw [hld, Outcome.bind_ok]
        have hst := Io.store_next ((List.range (pre.length + 1)).map
          (fun k => ((rowsOf compress ord xs L).take k).flatten.length)) (xs.length - (pre.length + 1))
          (((rowsOf compress ord xs L).take pre.length).flatten.length + (rowOf compress ord x (L pre.length)).length)
        rw [List.length_map, List.length_range] at hst
        rw [show xs.length - pre.length = xs.length - (pre.length + 1) + 1 by omega, hst, Outcome.bind_ok,
          Outcome.pure_eq]
        congr 3
        rw [List.range_succ (n := pre.length + 1), List.map_append, List.map_cons, List.map_nil]
        congr 3
        rw [List.take_add_one, List.flatten_append, List.length_append]
        congr 1
        unfold rowsOf
        rw [List.getElem?_map, List.getElem?_range hl]
        simp only [Option.map_some, Option.toList_some, List.flatten_cons, List.flatten_nil, List.append_nil, hx2]
      refine ⟨_, hstep, ?_⟩
      simp only [List.length_append, List.length_singleton])
    (Mem.ofList [0] ++ Mem.alloc xs.length, 1) (by simp)
  obtain ⟨s, e, hs⟩ := key
  rw [e, hs]
  simp [Mem.alloc]

theorem put_fold {lid : Handle → Outcome Nat} {lf : Handle → Nat} {u : List Handle} : ∀ (R : List Handle),
    (∀ h ∈ R, lid h = .ok (lf h)) → ∀ (A : List Nat) (r : Nat),
    R.foldlM (RowSt.put lid) ⟨Mem.ofList A ++ Mem.alloc (R.length + r), A.length, u⟩ =
      .ok ⟨Mem.ofList (A ++ R.map lf) ++ Mem.alloc r, A.length + R.length, u⟩ := by
  intro R
  induction R with
  | nil => intro _ A r; simp
  | cons h R ih =>
    intro hl A r
    rw [List.foldlM_cons]
    have hs : RowSt.put lid ⟨Mem.ofList A ++ Mem.alloc ((h :: R).length + r), A.length, u⟩ h =
        .ok ⟨Mem.ofList (A ++ [lf h]) ++ Mem.alloc (R.length + r), (A ++ [lf h]).length, u⟩ := by
      unfold RowSt.put
      rw [hl h (by simp), Outcome.bind_ok]
      simp only
      rw [show (h :: R).length + r = R.length + r + 1 by simp; omega, Io.store_next, Outcome.bind_ok]
      simp
    rw [hs, Outcome.bind_ok, ih (fun x hx => hl x (by simp [hx]))]
    simp; omega

theorem uniq_fold (lid : Handle → Outcome Nat) (m : Mem Nat) (i : Nat) : ∀ (R : List Handle) (s : List Handle),
    R.foldlM (fillBody lid true) ⟨m, i, s⟩ = .ok ⟨m, i, R.foldl insertSet s⟩ := by
  intro R
  induction R with
  | nil => intro s; rfl
  | cons h R ih => intro s; rw [List.foldlM_cons]; unfold fillBody; simp only [if_true, Outcome.bind_ok]; exact ih _

include ho in
theorem fillStep_eq {lid : Handle → Outcome Nat} {lf : Handle → Nat} {x : Handle} {R : List Handle} (h1 : GatherIs G x R)
    (hl : ∀ h ∈ R, lid h = .ok (lf h)) (A : List Nat) (r : Nat) :
    fillStep G lid compress ord (Mem.ofList A ++ Mem.alloc ((rowOf compress ord x R).length + r), A.length) x =
      .ok (Mem.ofList (A ++ (rowOf compress ord x R).map lf) ++ Mem.alloc r,
        A.length + (rowOf compress ord x R).length) := by
  unfold fillStep
  rw [h1]
  simp only
  cases compress with
  | true =>
    rw [uniq_fold, Outcome.bind_ok]
    simp only
    have hrow : rowOf true ord x R = ord x ((R.foldl insertSet []).erase x) := rfl
    rw [hrow, put_fold _ (by
      intro h hh
      have := List.mem_of_mem_erase ((ho x _).mem_iff.mp hh)
      exact hl h (mem_dedupL.mp this)), Outcome.bind_ok]
    rfl
  | false =>
    have hrow : rowOf false ord x R = R := rfl
    have hb : ∀ s : RowSt, R.foldlM (fillBody lid false) s = R.foldlM (RowSt.put lid) s := fun s => rfl
    rw [hrow, hb, put_fold R hl, Outcome.bind_ok]
    simp only [List.erase_nil]
    have : ord x [] = [] := List.perm_nil.mp (ho x [])
    rw [this]
    rfl

include hG ho in
theorem fillLoop_spec {lid : Handle → Outcome Nat} {lf : Handle → Nat}
    (hl : ∀ k, k < xs.length → ∀ h ∈ L k, lid h = .ok (lf h)) :
    xs.foldlM (fillStep G lid compress ord) (Mem.alloc (rowsOf compress ord xs L).flatten.length, 0) =
      .ok (Mem.ofList ((rowsOf compress ord xs L).flatten.map lf), (rowsOf compress ord xs L).flatten.length) := by
  have hlen : (rowsOf compress ord xs L).length = xs.length := by simp [rowsOf]
  have key := foldlM_inv (fillStep G lid compress ord)
    (fun (pre : List Handle) (s : Mem Nat × Nat) => s =
      (Mem.ofList (((rowsOf compress ord xs L).take pre.length).flatten.map lf) ++
        Mem.alloc (((rowsOf compress ord xs L).drop pre.length).flatten.length),
        ((rowsOf compress ord xs L).take pre.length).flatten.length)) xs
    (by
      intro pre x s hp hs
      subst hs
      have hl2 : pre.length < xs.length := by
        have := hp.length_le; simp at this; omega
      have hx : xs[pre.length] = x := by
        obtain ⟨r, rfl⟩ := hp; simp
      have hx2 : xs.getD pre.length 0 = x := by simp [hl2, hx]
      have h1 := hG pre.length hl2
      rw [hx] at h1
      have hrow : (rowsOf compress ord xs L)[pre.length]'(by omega) = rowOf compress ord x (L pre.length) := by
        simp only [rowsOf, List.getElem_map, List.getElem_range, hx2]
      have hd : ((rowsOf compress ord xs L).drop pre.length).flatten.length =
          (rowOf compress ord x (L pre.length)).length +
            ((rowsOf compress ord xs L).drop (pre.length + 1)).flatten.length := by
        rw [List.drop_eq_getElem_cons (by omega), List.flatten_cons, List.length_append, hrow]
      have ht : (rowsOf compress ord xs L).take (pre.length + 1) =
          (rowsOf compress ord xs L).take pre.length ++ [rowOf compress ord x (L pre.length)] := by
        rw [List.take_add_one, List.getElem?_eq_getElem (by omega), hrow]; rfl
      have hf := fillStep_eq compress ho h1 (hl pre.length hl2)
        (((rowsOf compress ord xs L).take pre.length).flatten.map lf)
        (((rowsOf compress ord xs L).drop (pre.length + 1)).flatten.length)
      rw [List.length_map] at hf
      refine ⟨_, by rw [hd]; exact hf, ?_⟩
      rw [List.length_append, List.length_singleton, ht]
      simp [List.flatten_append])
    (Mem.alloc (rowsOf compress ord xs L).flatten.length, 0) (by simp [Mem.ofList])
  obtain ⟨s, e, hs⟩ := key
  rw [e, hs, List.take_of_length_le (by omega), List.drop_of_length_le (by omega)]
  simp [Mem.alloc]

end

/-- walking from position `a` to position `b` -/
theorem visit_range {step : Nat → Outcome (Handle × Nat)} {nt : Nat} (hnt : 0 < nt) {hd : Nat → Handle} : ∀ (n a fuel : Nat),
    (∀ k, k ≤ a + n → a ≤ k → ∃ h, step (k * nt + 1) = .ok (h, k * nt + nt + 1) ∧ (k < a + n → h = hd k)) → n < fuel →
    visit step ((a + n) * nt + nt + 1) fuel (a * nt + 1) = .ok ((List.range' a n).map hd) := by
  intro n
  induction n with
  | zero =>
    intro a fuel hs hf
    obtain ⟨fuel, rfl⟩ : ∃ k, fuel = k + 1 := ⟨fuel - 1, by omega⟩
    obtain ⟨h, e, -⟩ := hs a (by omega) (Nat.le_refl _)
    rw [visit, e, Outcome.bind_ok]
    simp
  | succ n ih =>
    intro a fuel hs hf
    obtain ⟨fuel, rfl⟩ : ∃ k, fuel = k + 1 := ⟨fuel - 1, by omega⟩
    obtain ⟨h, e, e2⟩ := hs a (by omega) (Nat.le_refl _)
    rw [visit, e, Outcome.bind_ok]
    simp only
    have hlt : (a + 1) * nt < (a + (n + 1) + 1) * nt := Nat.mul_lt_mul_of_pos_right (by omega) hnt
    have h1 : a * nt + nt = (a + 1) * nt := by rw [Nat.succ_mul]
    have h2 : (a + (n + 1)) * nt + nt = (a + (n + 1) + 1) * nt := by rw [Nat.succ_mul]
    rw [if_neg (by omega)]
    have := ih (a + 1) fuel (fun k hk hak => by
      obtain ⟨h, e, e2⟩ := hs k (by omega) (by omega)
      exact ⟨h, e, fun hlt => e2 (by omega)⟩) (by omega)
    rw [show a + 1 + n = a + (n + 1) by omega, ← h1] at this
    rw [this, Outcome.bind_ok, List.range'_succ, List.map_cons, e2 (by omega)]
    rfl

theorem take_flatten_le {α : Type} (rows : List (List α)) (k : Nat) :
    (rows.take k).flatten.length ≤ rows.flatten.length := by
  have h := congrArg (fun l => (List.flatten l).length) (List.take_append_drop k rows)
  simp only [List.flatten_append, List.length_append] at h
  omega

/-- the entries of one row in the flattened list -/
theorem row_slice {α β : Type} (rows : List (List α)) (F : Nat → β) (f : α → β)
    (hF : ∀ j (h : j < rows.flatten.length), F j = f rows.flatten[j]) {k : Nat} (hk : k < rows.length) :
    (List.range' (rows.take k).flatten.length rows[k].length).map F = rows[k].map f := by
  have hsplit : rows.flatten = (rows.take k).flatten ++ (rows[k] ++ (rows.drop (k + 1)).flatten) := by
    conv_lhs => rw [← List.take_append_drop k rows, List.drop_eq_getElem_cons hk]
    rw [List.flatten_append, List.flatten_cons]
  apply List.ext_getElem
  · simp
  · intro j h1 h2
    simp only [List.length_map, List.length_range'] at h1
    have hlt : (rows.take k).flatten.length + j < rows.flatten.length := by
      rw [hsplit]; simp only [List.length_append]; omega
    simp only [List.getElem_map, List.getElem_range', Nat.one_mul]
    rw [hF _ hlt]
    congr 1
    have : rows.flatten[(rows.take k).flatten.length + j]? = some rows[k][j] := by
      rw [hsplit, List.getElem?_append_right (by omega), List.getElem?_append_left (by omega)]
      simp [h1]
    rw [List.getElem?_eq_getElem hlt] at this
    exact Option.some.inj this

end Verif.Part
