import Verif.Io.BinModel
import Verif.Io.BytesProps
import Verif.Agi.Bucket
/-!
# Lemmas on the loader of binary edge lists
-/
namespace Verif.Io
open Verif.Agi

/-- the numbers of a list of edges, one after the other -/
def flat {α : Type} (es : List (α × α)) : List α := es.flatMap (fun e => [e.1, e.2])

theorem flat_length {α : Type} (es : List (α × α)) : (flat es).length = 2 * es.length := by
  induction es with
  | nil => rfl
  | cons e es ih =>
    unfold flat at ih ⊢
    rw [List.flatMap_cons, List.length_append, ih]
    simp only [List.length_cons, List.length_nil]; omega

theorem flat_cons {α : Type} (e : α × α) (es : List (α × α)) : flat (e :: es) = e.1 :: e.2 :: flat es := rfl

theorem flat_append {α : Type} (a b : List (α × α)) : flat (a ++ b) = flat a ++ flat b := by
  unfold flat; rw [List.flatMap_append]

theorem flat_map {α β : Type} (f : α → β) (es : List (α × α)) : flat (es.map (fun e => (f e.1, f e.2))) = (flat es).map f := by
  induction es with
  | nil => rfl
  | cons e es ih => rw [List.map_cons, flat_cons, flat_cons, ih]; rfl

theorem flat_get {α : Type} : ∀ (es : List (α × α)) (k : Nat) (hk : k < es.length),
    (flat es)[2 * k]? = some es[k].1 ∧ (flat es)[2 * k + 1]? = some es[k].2
  | e :: es, 0, _ => ⟨rfl, rfl⟩
  | e :: es, k + 1, hk => by
    have := flat_get es k (by simpa using hk)
    rw [flat_cons]
    rw [show 2 * (k + 1) = 2 * k + 1 + 1 by omega]
    simp only [List.getElem?_cons_succ, List.getElem_cons_succ]
    exact this

theorem mem_flat {α : Type} {es : List (α × α)} {x : α} : x ∈ flat es ↔ ∃ e ∈ es, x = e.1 ∨ x = e.2 := by
  unfold flat
  rw [List.mem_flatMap]
  simp

/-! ## loops -/

theorem foldlM_range_get {σ α : Type} {f : σ → Nat → Outcome σ} {h : σ → α → Outcome σ} (l : List α)
    (hf : ∀ s k (hk : k < l.length), f s k = h s l[k]) (s : σ) :
    (List.range l.length).foldlM f s = l.foldlM h s := by
  induction l generalizing f s with
  | nil => rfl
  | cons a l ih =>
    rw [List.length_cons, List.range_succ_eq_map, List.foldlM_cons, List.foldlM_cons]
    rw [hf s 0 (by simp)]
    show (h s a >>= _) = (h s a >>= _)
    congr 1
    funext s'
    rw [List.foldlM_map]
    exact ih (fun s k hk => by
      have := hf s (k + 1) (by simpa using hk)
      simpa using this) s'

/-! ## reading -/

/-- the bytes of an edge -/
def edgeBytes (little : Bool) (e : Nat × Nat) : List Nat := memBytes little 4 e.1 ++ memBytes little 4 e.2

theorem edgeBytes_length (little : Bool) (e : Nat × Nat) : (edgeBytes little e).length = 8 := by
  simp [edgeBytes, memBytes_length]

theorem blocks_length (little : Bool) (es : List (Nat × Nat)) : (es.flatMap (edgeBytes little)).length = 8 * es.length := by
  induction es with
  | nil => rfl
  | cons e es ih => rw [List.flatMap_cons, List.length_append, edgeBytes_length, ih]; simp; omega

theorem blocks_eq (little : Bool) (es : List (Nat × Nat)) :
    es.flatMap (edgeBytes little) = ((flat es).map (memBytes little 4)).flatten := by
  induction es with
  | nil => rfl
  | cons e es ih => rw [List.flatMap_cons, ih, flat_cons]; simp [edgeBytes]

theorem blocks_slice (little : Bool) (es : List (Nat × Nat)) (rest : List Nat) (a b : Nat) (hb : a + b ≤ es.length) :
    ((es.flatMap (edgeBytes little) ++ rest).drop (8 * a)).take (8 * b) =
      ((es.drop a).take b).flatMap (edgeBytes little) := by
  have h1 : es = es.take a ++ ((es.drop a).take b ++ (es.drop a).drop b) := by
    rw [List.take_append_drop, List.take_append_drop]
  conv_lhs => rw [h1]
  rw [List.flatMap_append, List.flatMap_append, List.append_assoc, List.drop_append_of_le_length
    (by rw [blocks_length, List.length_take]; omega), List.drop_of_length_le
    (by rw [blocks_length, List.length_take]; omega), List.nil_append, List.append_assoc]
  exact List.take_left' (by rw [blocks_length, List.length_take, List.length_drop]; omega)

/-- first edge of rank `p` -/
def firstEdge (P p m : Nat) : Nat := p * (m / P)
/-- one past the last edge of rank `p` -/
def lastEdge (P p m : Nat) : Nat := if p = P - 1 then m else (p + 1) * (m / P)

theorem edges_bounds {P p m : Nat} (hp : p < P) : firstEdge P p m ≤ lastEdge P p m ∧ lastEdge P p m ≤ m := by
  have h1 : m / P * P ≤ m := Nat.div_mul_le_self m P
  unfold firstEdge lastEdge
  split
  · rename_i h
    have : p * (m / P) ≤ P * (m / P) := Nat.mul_le_mul_right _ (by omega)
    rw [Nat.mul_comm P] at this
    exact ⟨by omega, Nat.le_refl _⟩
  · refine ⟨Nat.mul_le_mul_right _ (by omega), ?_⟩
    have : (p + 1) * (m / P) ≤ P * (m / P) := Nat.mul_le_mul_right _ (by omega)
    rw [Nat.mul_comm P] at this
    omega

/-- the edges rank `p` reads -/
def share {α : Type} (P p : Nat) (es : List α) : List α :=
  (es.drop (firstEdge P p es.length)).take (lastEdge P p es.length - firstEdge P p es.length)

theorem signed32_small {x : Nat} (h : x < 2147483648) : signed32 x = (x : Int) := by
  unfold signed32; rw [if_pos h]

theorem loadEdges_eq (little : Bool) (es : List (Nat × Nat)) (rest : List Nat) (hrest : rest.length < 8)
    (hid : ∀ e ∈ es, e.1 < 2147483648 ∧ e.2 < 2147483648) {P p : Nat} (hp : p < P) :
    loadEdges little (es.flatMap (edgeBytes little) ++ rest) P p =
      .ok (flat ((share P p es).map (fun e => ((e.1 : Int), (e.2 : Int))))) := by
  obtain ⟨h1, h2⟩ := edges_bounds (m := es.length) hp
  have hlen : (es.flatMap (edgeBytes little) ++ rest).length / 8 = es.length := by
    rw [List.length_append, blocks_length]; omega
  have hs : readStart P p es.length = 8 * firstEdge P p es.length := by
    unfold readStart firstEdge
    rw [Nat.mul_comm p 8, Nat.mul_assoc]
  have ht : readStop P p es.length = 8 * lastEdge P p es.length := by
    unfold readStop lastEdge
    split
    · rfl
    · rw [Nat.mul_comm (p + 1) 8, Nat.mul_assoc]
  have hm : (8 * lastEdge P p es.length - 8 * firstEdge P p es.length) / 8 =
      lastEdge P p es.length - firstEdge P p es.length := by omega
  unfold loadEdges
  simp only [hlen, hs, ht, hm]
  rw [Nat.mul_comm _ 8, blocks_slice little es rest _ _ (by omega)]
  have hsl : ((es.drop (firstEdge P p es.length)).take (lastEdge P p es.length - firstEdge P p es.length)).length =
      lastEdge P p es.length - firstEdge P p es.length := by
    rw [List.length_take, List.length_drop]; omega
  rw [blocks_length, hsl, if_neg (by omega)]
  have hfl : 2 * (lastEdge P p es.length - firstEdge P p es.length) =
      (flat ((es.drop (firstEdge P p es.length)).take (lastEdge P p es.length - firstEdge P p es.length))).length := by
    rw [flat_length, hsl]
  rw [hfl, blocks_eq, ofArray_eq, List.map_map, flat_map]
  congr 1
  unfold share
  apply List.map_congr_left
  intro x hx
  obtain ⟨e, he, hxe⟩ := mem_flat.mp hx
  have hb := hid e (List.mem_of_mem_drop (List.mem_of_mem_take he))
  have hlt : x < 2147483648 := by rcases hxe with rfl | rfl <;> omega
  show signed32 (x % 256 ^ 4) = (x : Int)
  rw [Nat.mod_eq_of_lt (by omega), signed32_small hlt]

/-- the shares are the whole list, in order -/
theorem shares_flatten {α : Type} (es : List α) {P : Nat} (hP : 0 < P) :
    (List.range P).flatMap (fun p => share P p es) = es := by
  obtain ⟨Q, rfl⟩ : ∃ Q, P = Q + 1 := ⟨P - 1, by omega⟩
  rw [List.range_succ, List.flatMap_append]
  have h : ∀ k, k ≤ Q → (List.range k).flatMap (fun p => share (Q + 1) p es) = es.take (k * (es.length / (Q + 1))) := by
    intro k
    induction k with
    | zero => intro _; simp
    | succ k ih =>
      intro hk
      rw [List.range_succ, List.flatMap_append, ih (by omega), List.flatMap_singleton]
      unfold share firstEdge lastEdge
      rw [if_neg (by omega), Nat.succ_mul, Nat.add_sub_cancel_left, ← List.take_add]
  rw [h Q (Nat.le_refl _), List.flatMap_singleton]
  unfold share firstEdge lastEdge
  rw [if_pos (by omega)]
  have ht : (es.drop (Q * (es.length / (Q + 1)))).take (es.length - Q * (es.length / (Q + 1))) =
      es.drop (Q * (es.length / (Q + 1))) := List.take_of_length_le (by rw [List.length_drop]; exact Nat.le_refl _)
  rw [ht, List.take_append_drop]

/-! ## the ids -/

theorem maxId_spec (l : List Int) : 0 ≤ maxId l ∧ (∀ x ∈ l, x ≤ maxId l) ∧ (maxId l = 0 ∨ maxId l ∈ l) := by
  unfold maxId
  have H : ∀ (l : List Int) (a : Int), a ≤ l.foldl (fun a x => if a < x then x else a) a ∧
      (∀ x ∈ l, x ≤ l.foldl (fun a x => if a < x then x else a) a) ∧
      (l.foldl (fun a x => if a < x then x else a) a = a ∨ l.foldl (fun a x => if a < x then x else a) a ∈ l) := by
    intro l
    induction l with
    | nil => intro a; simp
    | cons y l ih =>
      intro a
      obtain ⟨h1, h2, h3⟩ := ih (if a < y then y else a)
      rw [List.foldl_cons]
      have ha : a ≤ (if a < y then y else a) := by split <;> omega
      have hy : y ≤ (if a < y then y else a) := by split <;> omega
      refine ⟨by omega, ?_, ?_⟩
      · intro x hx
        rcases List.mem_cons.mp hx with rfl | hx
        · omega
        · exact h2 x hx
      · rcases h3 with h3 | h3
        · by_cases hlt : a < y
          · rw [if_pos hlt] at h3
            right; rw [if_pos hlt, h3]; simp
          · rw [if_neg hlt] at h3
            left; rw [if_neg hlt]; exact h3
        · right; simp [h3]
  obtain ⟨h1, h2, h3⟩ := H l 0
  exact ⟨h1, h2, h3⟩

theorem foldl_max_ge (l : List Int) : ∀ a : Int, a ≤ l.foldl max a ∧ (∀ x ∈ l, x ≤ l.foldl max a) ∧
    (l.foldl max a = a ∨ l.foldl max a ∈ l) := by
  induction l with
  | nil => intro a; simp
  | cons y l ih =>
    intro a
    obtain ⟨h1, h2, h3⟩ := ih (max a y)
    rw [List.foldl_cons]
    refine ⟨by omega, ?_, ?_⟩
    · intro x hx
      rcases List.mem_cons.mp hx with rfl | hx
      · omega
      · exact h2 x hx
    · rcases h3 with h3 | h3
      · by_cases hlt : a < y
        · right; rw [h3, show max a y = y by omega]; simp
        · left; rw [h3]; omega
      · right; simp [h3]

theorem globalVerts_gt {reads : List (List Int)} {r : List Int} (hr : r ∈ reads) {x : Int} (hx : x ∈ r) :
    x < (globalVerts reads : Int) := by
  unfold globalVerts
  obtain ⟨h1, h2, -⟩ := foldl_max_ge (reads.map maxId) 0
  have h3 := h2 _ (List.mem_map.mpr ⟨r, hr, rfl⟩)
  have h4 := (maxId_spec r).2.1 x hx
  push_cast
  rw [Int.toNat_of_nonneg h1]
  omega

/-! ## block ranks -/

theorem block_lt {n P i : Nat} (hP : 0 < P) (hi : i < n) : i / (n / P + 1) < P := by
  rw [Nat.div_lt_iff_lt_mul (Nat.succ_pos _), Nat.mul_succ]
  have h1 := Nat.div_add_mod n P
  have h2 := Nat.mod_lt n hP
  generalize P * (n / P) = k at *
  omega

theorem vertBlockRanks_eq (n P : Nat) :
    vertBlockRanks n P = .ok (Mem.ofList ((List.range n).map (fun i => ((i / (n / P + 1) : Nat) : Int)))) := by
  unfold vertBlockRanks
  obtain ⟨m, e, hl, hc⟩ := range_inv (fun (m : Mem Int) i => m.store i ((i / (n / P + 1) : Nat) : Int))
    (fun k m => m.length = n ∧ ∀ j, j < k → m[j]? = some (some ((j / (n / P + 1) : Nat) : Int))) 0 n (by
      intro k m hk ⟨h1, h2⟩
      refine ⟨_, Mem.store_ok _ (by omega), by simpa using h1, ?_⟩
      intro j hj
      rw [List.getElem?_set]
      by_cases hjk : 0 + k = j
      · subst hjk
        rw [if_pos rfl, if_pos (by omega)]
      · rw [if_neg hjk]; exact h2 j (by omega)) (Mem.alloc n) ⟨by simp, by omega⟩
  rw [List.range_eq_range', e]
  congr 1
  apply List.ext_getElem?
  intro j
  by_cases hj : j < n
  · rw [hc j hj]
    simp [Mem.ofList, hj]
  · rw [List.getElem?_eq_none (by omega), List.getElem?_eq_none (by simp [Mem.ofList]; omega)]

/-! ## counting and filling -/

theorem count_loop (n d : Nat) (ks : List Nat) (h : ∀ t ∈ ks, t < n) :
    ∃ m, ks.foldlM (fun (m : Mem Nat) t => incr m t d) (List.replicate n (some 0)) = .ok m ∧ m.length = n ∧
      ∀ q, q < n → m[q]? = some (some (d * ks.count q)) := by
  refine foldlM_inv (fun (m : Mem Nat) t => incr m t d)
    (fun done (m : Mem Nat) => m.length = n ∧ ∀ q, q < n → m[q]? = some (some (d * done.count q))) ks ?_ _ ?_
  rotate_left
  · refine ⟨by simp, ?_⟩
    intro q hq
    simp [hq]
  · intro done t m hks ⟨hl, hm⟩
    have ht : t < n := h t (hks.subset (by simp))
    refine ⟨m.set t (some (d * done.count t + d)), ?_, by simpa using hl, ?_⟩
    · unfold incr
      rw [Mem.load_ok (hm t ht), Outcome.bind_ok, Mem.store_ok _ (by omega)]
    · intro q hq
      rw [List.getElem?_set, List.count_append]
      by_cases hqt : t = q
      · subst hqt
        rw [if_pos rfl, if_pos (by omega)]
        simp [Nat.mul_add]
      · rw [if_neg hqt, hm q hq, List.count_singleton]
        simp [hqt]

theorem displ_loop (c : Nat → Nat) (cm : Mem Nat) (n : Nat) (hc : ∀ k, k < n → cm[k]? = some (some (c k))) :
    ∃ m, (List.range' 1 n).foldlM (displStep cm) (List.replicate (n + 1) (some 0)) = .ok m ∧ m.length = n + 1 ∧
      ∀ k, k ≤ n → m[k]? = some (some (offs c k)) := by
  obtain ⟨m', e, hl, ha⟩ := range_inv (displStep cm)
    (fun i (m : Mem Nat) => m.length = n + 1 ∧ (∀ k, k ≤ i → m[k]? = some (some (offs c k)))) 1 n
    (by
      intro i m hi ⟨hl, h1⟩
      have e1 := Mem.load_ok (h1 i (Nat.le_refl _))
      have e2 := Mem.load_ok (hc i hi)
      refine ⟨m.set (1 + i) (some (offs c i + c i)), ?_, by simpa using hl, ?_⟩
      · unfold displStep
        rw [show 1 + i - 1 = i by omega, e1, Outcome.bind_ok, e2, Outcome.bind_ok, Mem.store_ok _ (by omega)]
      · intro k hk
        rw [List.getElem?_set]
        by_cases hki : 1 + i = k
        · subst hki
          rw [if_pos rfl, if_pos (by omega), Nat.add_comm 1 i, offs_succ]
        · rw [if_neg hki]; exact h1 k (by omega))
    (List.replicate (n + 1) (some 0)) ⟨by simp, fun k hk => by rw [Nat.le_zero.mp hk]; simp [offs_zero]⟩
  exact ⟨m', e, hl, ha⟩

/-- the values for bucket `u` -/
def bkt {α : Type} (u : Nat) (items : List (Nat × α)) : List α := (items.filter (fun p => p.1 == u)).map (·.2)

theorem bkt_append {α : Type} (u : Nat) (a b : List (Nat × α)) : bkt u (a ++ b) = bkt u a ++ bkt u b := by simp [bkt]

theorem bkt_one_self {α : Type} (u : Nat) (x : α) : bkt u [(u, x)] = [x] := by simp [bkt]

theorem bkt_one_ne {α : Type} {u w : Nat} (x : α) (h : w ≠ u) : bkt u [(w, x)] = [] := by simp [bkt, h]

theorem put_loop {α : Type} (n : Nat) (items : List (Nat × α)) (hk : ∀ p ∈ items, p.1 < n) (cur : Mem Nat) (buf : Mem α)
    (hcl : cur.length = n) (hc : ∀ u, u < n → cur[u]? = some (some (offs (fun u => (bkt u items).length) u)))
    (hb : buf.length = offs (fun u => (bkt u items).length) n) :
    ∃ s, items.foldlM (fun s (p : Nat × α) => cursorPut s p.1 p.2) (cur, buf) = .ok s ∧ s.2.length = buf.length ∧
      ∀ u, u < n → ∀ k (h : k < (bkt u items).length),
        s.2[offs (fun u => (bkt u items).length) u + k]? = some (some (bkt u items)[k]) := by
  set c := fun u => (bkt u items).length with hcdef
  have key : ∃ s, items.foldlM (fun s (p : Nat × α) => cursorPut s p.1 p.2) (cur, buf) = .ok s ∧
      (s.1.length = n ∧ s.2.length = buf.length ∧
        (∀ u, u < n → s.1[u]? = some (some (offs c u + (bkt u items).length))) ∧
        ∀ u, u < n → ∀ k (h : k < (bkt u items).length), s.2[offs c u + k]? = some (some (bkt u items)[k])) := by
    refine foldlM_inv (fun s (p : Nat × α) => cursorPut s p.1 p.2)
      (fun done (s : Mem Nat × Mem α) => s.1.length = n ∧ s.2.length = buf.length ∧
        (∀ u, u < n → s.1[u]? = some (some (offs c u + (bkt u done).length))) ∧
        ∀ u, u < n → ∀ k (h : k < (bkt u done).length), s.2[offs c u + k]? = some (some (bkt u done)[k])) items ?_ _ ?_
    rotate_left
    · refine ⟨hcl, rfl, ?_, ?_⟩
      · intro u hu; rw [hc u hu]; simp [bkt]
      · intro u hu k h; simp [bkt] at h
    · intro done p s hit ⟨h1, h2, h3, h4⟩
      obtain ⟨t, x⟩ := p
      have ht : t < n := hk (t, x) (hit.subset (by simp))
      have hroom : ∀ w, (bkt w (done ++ [(t, x)])).length ≤ c w := by
        intro w
        show _ ≤ (bkt w items).length
        obtain ⟨rest, hrest⟩ := hit
        rw [← hrest, bkt_append w (done ++ [(t, x)]) rest, List.length_append]
        omega
      have hr := hroom t
      rw [bkt_append, bkt_one_self, List.length_append, List.length_singleton] at hr
      have hoff := offs_succ c t
      have hmono := offs_mono c (show t + 1 ≤ n by omega)
      have hbd : offs c t + (bkt t done).length < s.2.length := by rw [h2, hb]; omega
      unfold cursorPut
      rw [Mem.load_ok (h3 t ht), Outcome.bind_ok, Mem.store_ok _ hbd, Outcome.bind_ok, Mem.store_ok _ (by omega),
        Outcome.bind_ok]
      refine ⟨_, rfl, by simpa using h1, by simpa using h2, ?_, ?_⟩
      · intro w hw
        simp only
        rw [List.getElem?_set]
        by_cases hwu : t = w
        · subst hwu; rw [if_pos rfl, if_pos (by omega), bkt_append, bkt_one_self]; simp; omega
        · rw [if_neg hwu, bkt_append, bkt_one_ne x hwu, List.append_nil]; exact h3 w hw
      · intro w hw k hk
        simp only
        rw [List.getElem?_set]
        by_cases hwu : t = w
        · subst hwu
          have hk' : k < (bkt t done).length + 1 := by
            rw [bkt_append, bkt_one_self] at hk; simpa using hk
          rcases Nat.lt_or_ge k (bkt t done).length with hlt | hge
          · rw [if_neg (by omega), h4 t hw k hlt]
            congr 2
            simp only [bkt_append]
            rw [List.getElem_append_left]
          · have hkk : k = (bkt t done).length := by omega
            subst hkk
            rw [if_pos rfl, if_pos (by omega)]
            simp [bkt_append, bkt_one_self]
        · have hrw := hroom w
          rw [bkt_append, bkt_one_ne x hwu, List.append_nil] at hrw
          have hk' : k < (bkt w done).length := by rw [bkt_append, bkt_one_ne x hwu, List.append_nil] at hk; exact hk
          have hne : offs c t + (bkt t done).length ≠ offs c w + k := by
            have h1 := offs_succ c w
            rcases Nat.lt_or_gt_of_ne hwu with h' | h'
            · have := offs_mono c (show t + 1 ≤ w by omega); omega
            · have := offs_mono c (show w + 1 ≤ t by omega); omega
          rw [if_neg hne, h4 w hw k hk']
          simp only [bkt_append, bkt_one_ne x hwu, List.append_nil]
  obtain ⟨s, e, -, h2, -, h4⟩ := key
  exact ⟨s, e, h2, h4⟩

theorem rangeM_inv {σ : Type} (f : σ → Nat → Outcome σ) (I : Nat → σ → Prop) (n : Nat)
    (hstep : ∀ k s, k < n → I k s → ∃ s', f s k = .ok s' ∧ I (k + 1) s')
    (s : σ) (h0 : I 0 s) : ∃ s', (List.range n).foldlM f s = .ok s' ∧ I n s' := by
  rw [List.range_eq_range']
  exact range_inv f I 0 n (fun k s hk hI => by rw [Nat.zero_add]; exact hstep k s hk hI) s h0

theorem foldlM_append' {σ α : Type} (f : σ → α → Outcome σ) (l l' : List α) (s : σ) :
    (l ++ l').foldlM f s = (do let s' ← l.foldlM f s; l'.foldlM f s') := by
  induction l generalizing s with
  | nil => rfl
  | cons a l ih =>
    rw [List.cons_append, List.foldlM_cons, List.foldlM_cons]
    cases h : f s a with
    | ok x => rw [Outcome.bind_ok, Outcome.bind_ok, ih]
    | fail => rfl
    | ub => rfl

theorem foldlM_flatMap' {σ α β : Type} (f : σ → β → Outcome σ) (g : α → List β) (l : List α) (s : σ) :
    (l.flatMap g).foldlM f s = l.foldlM (fun s a => (g a).foldlM f s) s := by
  induction l generalizing s with
  | nil => rfl
  | cons a l ih =>
    rw [List.flatMap_cons, foldlM_append', List.foldlM_cons]
    congr 1
    funext s'
    exact ih s'

/-! ## packing -/

/-- an edge of natural ids as the integers the program has -/
def cast2 (e : Nat × Nat) : Int × Int := ((e.1 : Int), (e.2 : Int))

/-- the edges with source on rank `q` -/
def sentTo (owner : Nat → Nat) (q : Nat) (es : List (Nat × Nat)) : List (Nat × Nat) := es.filter (fun e => owner e.1 == q)

/-- the numbers put in the buffer, with the rank they go to -/
def bufItems (owner : Nat → Nat) (es : List (Nat × Nat)) : List (Nat × Int) :=
  es.flatMap (fun e => [(owner e.1, (e.1 : Int)), (owner e.1, (e.2 : Int))])

theorem bkt_bufItems (owner : Nat → Nat) (q : Nat) (es : List (Nat × Nat)) :
    bkt q (bufItems owner es) = flat ((sentTo owner q es).map cast2) := by
  induction es with
  | nil => rfl
  | cons e es ih =>
    have h1 : bufItems owner (e :: es) = [(owner e.1, (e.1 : Int))] ++ ([(owner e.1, (e.2 : Int))] ++ bufItems owner es) := rfl
    rw [h1, bkt_append, bkt_append, ih]
    unfold sentTo
    by_cases h : owner e.1 = q
    · rw [List.filter_cons_of_pos (by simpa using h), h, bkt_one_self, bkt_one_self]
      rfl
    · rw [List.filter_cons_of_neg (by simpa using h), bkt_one_ne _ h, bkt_one_ne _ h]
      rfl

theorem cast2_flat_get (es : List (Nat × Nat)) (k : Nat) (hk : k < es.length) :
    (Mem.ofList (flat (es.map cast2))).load (2 * k) = .ok (es[k].1 : Int) ∧
    (Mem.ofList (flat (es.map cast2))).load (2 * k + 1) = .ok (es[k].2 : Int) := by
  have h := flat_get (es.map cast2) k (by simpa using hk)
  rw [List.getElem_map] at h
  constructor
  · apply Mem.load_ok; rw [Mem.ofList, List.getElem?_map, h.1]; rfl
  · apply Mem.load_ok; rw [Mem.ofList, List.getElem?_map, h.2]; rfl

theorem toIdx_nat (n : Nat) : toIdx (n : Int) = .ok n := by
  unfold toIdx
  rw [if_pos (by omega)]
  rfl

theorem taskOf_eq {ranks : Mem Int} {owner : Nat → Nat} {es : List (Nat × Nat)}
    (hr : ∀ e ∈ es, ranks[e.1]? = some (some (owner e.1 : Int))) (k : Nat) (hk : k < es.length) :
    taskOf ranks (Mem.ofList (flat (es.map cast2))) (2 * k) = .ok (owner es[k].1) := by
  unfold taskOf
  rw [(cast2_flat_get es k hk).1, Outcome.bind_ok, toIdx_nat, Outcome.bind_ok,
    Mem.load_ok (hr _ (List.getElem_mem hk)), Outcome.bind_ok, toIdx_nat]

/-- what a send buffer holds for every rank -/
structure Packed (P : Nat) (owner : Nat → Nat) (es : List (Nat × Nat)) (s : SendBuf) : Prop where
  counts : ∀ q, q < P → s.counts[q]? = some (some (2 * (sentTo owner q es).length))
  block : ∀ q, q < P → ∃ o, s.displs[q]? = some (some o) ∧ ∀ k (h : k < (flat ((sentTo owner q es).map cast2)).length),
    s.buf[o + k]? = some (some (flat ((sentTo owner q es).map cast2))[k])

theorem count_sources (owner : Nat → Nat) (q : Nat) (es : List (Nat × Nat)) :
    (es.map (fun e => owner e.1)).count q = (sentTo owner q es).length := by
  unfold sentTo
  rw [List.count_eq_countP, List.countP_map, List.countP_eq_length_filter]
  rfl

theorem packEdges_spec {P : Nat} (hP : 0 < P) {ranks : Mem Int} {owner : Nat → Nat} {es : List (Nat × Nat)}
    (hr : ∀ e ∈ es, ranks[e.1]? = some (some (owner e.1 : Int)) ∧ owner e.1 < P) :
    ∃ s, packEdges P ranks (Mem.ofList (flat (es.map cast2))) es.length = .ok s ∧ Packed P owner es s := by
  have htask := taskOf_eq (fun e he => (hr e he).1)
  obtain ⟨sc, e1, hl1, hc1⟩ := count_loop P 2 (es.map (fun e => owner e.1)) (by
    intro t ht
    obtain ⟨e, he, rfl⟩ := List.mem_map.mp ht
    exact (hr e he).2)
  rw [List.foldlM_map] at e1
  have hlen : ∀ q, (bkt q (bufItems owner es)).length = 2 * (sentTo owner q es).length := by
    intro q; rw [bkt_bufItems, flat_length, List.length_map]
  have hc2 : ∀ q, q < P → sc[q]? = some (some ((bkt q (bufItems owner es)).length)) := by
    intro q hq; rw [hc1 q hq, count_sources, hlen]
  obtain ⟨sd, e2, hl2, hd⟩ := displ_loop (fun q => (bkt q (bufItems owner es)).length) sc (P - 1)
    (fun k hk => hc2 k (by omega))
  rw [show P - 1 + 1 = P by omega] at e2 hl2
  obtain ⟨s, e3, hl3, hb⟩ := put_loop P (bufItems owner es) (by
    intro p hp
    unfold bufItems at hp
    obtain ⟨e, he, h⟩ := List.mem_flatMap.mp hp
    have := (hr e he).2
    rcases List.mem_cons.mp h with rfl | h
    · exact this
    · rw [List.mem_singleton.mp h]; exact this) sd
    (Mem.alloc (offs (fun q => (bkt q (bufItems owner es)).length) P)) hl2 (fun u hu => hd u (by omega)) (by simp)
  unfold packEdges
  have f1 := foldlM_range_get (f := fun (m : Mem Nat) k => do
    let t ← taskOf ranks (Mem.ofList (flat (es.map cast2))) (2 * k)
    incr m t 2) (h := fun m (e : Nat × Nat) => incr m (owner e.1) 2) es (by
      intro m k hk
      rw [htask k hk, Outcome.bind_ok]) (List.replicate P (some 0))
  rw [f1, e1, Outcome.bind_ok, e2, Outcome.bind_ok, Mem.load_ok (hd (P - 1) (Nat.le_refl _)), Outcome.bind_ok,
    Mem.load_ok (hc2 (P - 1) (by omega)), Outcome.bind_ok, ← offs_succ, show P - 1 + 1 = P by omega]
  have f2 := foldlM_range_get (f := fun (s : Mem Nat × Mem Int) k => do
    let t ← taskOf ranks (Mem.ofList (flat (es.map cast2))) (2 * k)
    let x ← (Mem.ofList (flat (es.map cast2))).load (2 * k)
    let y ← (Mem.ofList (flat (es.map cast2))).load (2 * k + 1)
    let s ← cursorPut s t x
    cursorPut s t y) (h := fun s (e : Nat × Nat) =>
      [(owner e.1, (e.1 : Int)), (owner e.1, (e.2 : Int))].foldlM (fun s (p : Nat × Int) => cursorPut s p.1 p.2) s) es (by
      intro m k hk
      rw [htask k hk, (cast2_flat_get es k hk).1, (cast2_flat_get es k hk).2]
      simp only [Outcome.bind_ok, List.foldlM_cons, List.foldlM_nil]
      congr 1
      funext s'
      exact (bind_pure (m := Outcome) _).symm) (sd, Mem.alloc (offs (fun q => (bkt q (bufItems owner es)).length) P))
  rw [f2]
  have f3 : es.foldlM (fun s (e : Nat × Nat) =>
      [(owner e.1, (e.1 : Int)), (owner e.1, (e.2 : Int))].foldlM (fun s (p : Nat × Int) => cursorPut s p.1 p.2) s)
      (sd, Mem.alloc (offs (fun q => (bkt q (bufItems owner es)).length) P)) = .ok s := by
    rw [← e3]
    unfold bufItems
    exact (foldlM_flatMap' _ _ _ _).symm
  rw [f3, Outcome.bind_ok]
  refine ⟨_, rfl, ?_, ?_⟩
  · intro q hq; rw [← hlen]; exact hc2 q hq
  · intro q hq
    refine ⟨_, hd q (by omega), ?_⟩
    intro k hk
    simp only [← bkt_bufItems] at hk ⊢
    exact hb q hq k hk

/-! ## exchanging -/

theorem store_next {α : Type} (A : List α) (r : Nat) (x : α) :
    (Mem.ofList A ++ Mem.alloc (r + 1)).store A.length x = .ok (Mem.ofList (A ++ [x]) ++ Mem.alloc r) := by
  rw [Mem.store_ok _ (by simp [Mem.ofList, Mem.alloc])]
  congr 1
  simp only [Mem.ofList, Mem.alloc, List.replicate_succ]
  rw [List.set_append_right _ _ (by simp)]
  simp

theorem recvBlock_spec {P : Nat} {owner : Nat → Nat} {es : List (Nat × Nat)} {s : SendBuf} (h : Packed P owner es s)
    {me : Nat} (hme : me < P) (A : List Int) (r : Nat) :
    recvBlock me s (2 * (sentTo owner me es).length) A.length (Mem.ofList A ++ Mem.alloc (2 * (sentTo owner me es).length + r)) =
      .ok (Mem.ofList (A ++ flat ((sentTo owner me es).map cast2)) ++ Mem.alloc r) := by
  obtain ⟨o, ho, hb⟩ := h.block me hme
  unfold recvBlock
  rw [Mem.load_ok ho, Outcome.bind_ok]
  generalize hB : flat ((sentTo owner me es).map cast2) = B at hb
  have hlen : 2 * (sentTo owner me es).length = B.length := by
    rw [← hB, flat_length, List.length_map]
  rw [hlen]
  obtain ⟨m, e, hm⟩ := rangeM_inv (fun (el : Mem Int) k => do
    let x ← s.buf.load (o + k)
    el.store (A.length + k) x)
    (fun k m => m = Mem.ofList (A ++ B.take k) ++ Mem.alloc (B.length - k + r)) B.length (by
      intro k m hk hm
      rw [Mem.load_ok (hb k hk), Outcome.bind_ok]
      have hl : A.length + k = (A ++ B.take k).length := by simp; omega
      rw [hm, show B.length - k + r = (B.length - (k + 1) + r) + 1 by omega, hl, store_next]
      refine ⟨_, rfl, ?_⟩
      rw [List.take_add_one, List.getElem?_eq_getElem hk]
      simp)
    (Mem.ofList A ++ Mem.alloc (B.length + r)) (by simp)
  rw [e, hm]
  simp

theorem rd_some {α : Type} {l : List α} {i : Nat} {x : α} (h : l[i]? = some x) : rd l i = .ok x := by
  obtain ⟨hi, e⟩ := List.getElem?_eq_some_iff.mp h
  rw [rd_ok hi, e]

theorem offs_sum (c : Nat → Nat) (n : Nat) (l : List Nat) (h : l = (List.range n).map c) : l.sum = offs c n := by
  rw [h]; rfl

/-- what rank `me` receives -/
theorem exchangeEdges_spec {P : Nat} (hP : 0 < P) {owner : Nat → Nat} (shares : Nat → List (Nat × Nat)) {sends : List SendBuf}
    (hl : sends.length = P) (hs : ∀ p (hp : p < P), Packed P owner (shares p) (sends[p]'(by omega))) {me : Nat} (hme : me < P) :
    exchangeEdges P sends me =
      .ok (Mem.ofList (flat (((List.range P).flatMap (fun p => sentTo owner me (shares p))).map cast2))) := by
  set c : Nat → Nat := fun p => 2 * (sentTo owner me (shares p)).length with hc
  have hrc : recvCounts sends me = .ok ((List.range P).map c) := by
    unfold recvCounts
    have : sends = (List.range P).map (fun p => if hp : p < P then sends[p]'(by omega) else ⟨[], [], []⟩) := by
      apply List.ext_getElem
      · simp [hl]
      · intro i h1 h2
        simp only [List.getElem_map, List.getElem_range]
        rw [dif_pos (by omega)]
    rw [this, List.mapM_map]
    apply mapM_ok
    intro p hp
    have hp' := List.mem_range.mp hp
    show Mem.load (if hp : p < P then sends[p]'(by omega) else ⟨[], [], []⟩).counts me = _
    rw [dif_pos hp', Mem.load_ok ((hs p hp').counts me hme)]
  have hcm : ∀ k, k < P → (Mem.ofList ((List.range P).map c))[k]? = some (some (c k)) := by
    intro k hk; simp [Mem.ofList, hk]
  obtain ⟨d, e2, hl2, hd⟩ := displ_loop c (Mem.ofList ((List.range P).map c)) (P - 1) (fun k hk => hcm k (by omega))
  rw [show P - 1 + 1 = P by omega] at e2
  unfold exchangeEdges
  rw [hrc, Outcome.bind_ok, e2, Outcome.bind_ok, Mem.load_ok (hd (P - 1) (Nat.le_refl _)), Outcome.bind_ok,
    rd_some (show ((List.range P).map c)[P - 1]? = some (c (P - 1)) by simp [show P - 1 < P by omega]), Outcome.bind_ok,
    ← offs_succ, show P - 1 + 1 = P by omega]
  set got : Nat → List Int := fun k => flat (((List.range k).flatMap (fun p => sentTo owner me (shares p))).map cast2) with hgot
  have hgl : ∀ k, (got k).length = offs c k := by
    intro k
    rw [hgot]
    simp only
    rw [flat_length, List.length_map]
    induction k with
    | zero => rfl
    | succ k ih =>
      rw [offs_succ, ← ih, List.range_succ, List.flatMap_append, List.length_append, List.flatMap_singleton]
      show _ = _ + 2 * _
      omega
  obtain ⟨m, e, hm⟩ := rangeM_inv (fun (el : Mem Int) p => do
    let s ← rd sends p
    let n ← rd ((List.range P).map c) p
    let d ← d.load p
    recvBlock me s n d el)
    (fun k m => m = Mem.ofList (got k) ++ Mem.alloc (offs c P - offs c k)) P (by
      intro k m hk hm
      have hmono := offs_mono c (show k + 1 ≤ P by omega)
      rw [offs_succ] at hmono
      rw [rd_some (show sends[k]? = some sends[k] from List.getElem?_eq_getElem (by omega)), Outcome.bind_ok,
        rd_some (show ((List.range P).map c)[k]? = some (c k) by simp [hk]), Outcome.bind_ok,
        Mem.load_ok (hd k (by omega)), Outcome.bind_ok, ← hgl k, hm]
      refine ⟨_, ?_, rfl⟩
      have hsplit : offs c P - offs c k = c k + (offs c P - offs c (k + 1)) := by rw [offs_succ]; omega
      rw [hsplit]
      have := recvBlock_spec (hs k hk) hme (got k) (offs c P - offs c (k + 1))
      rw [this]
      congr 2
      rw [hgot]
      simp only
      rw [List.range_succ, List.flatMap_append, List.flatMap_singleton, List.map_append, flat_append])
    (Mem.alloc (offs c P)) (by simp [hgot, flat, Mem.ofList, offs_zero])
  rw [e, hm, Nat.sub_self]
  simp [Mem.alloc, hgot]

end Verif.Io
