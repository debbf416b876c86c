import Verif.Pcu.StoreModel
import Mathlib.Data.List.Perm.Basic
/-!
# Lemmas for C85: the blocks of a state
-/
namespace Verif.Pcu.Store

/-- exactly these blocks are allocated -/
structure Has (h : Heap) (L : List (Nat × Nat)) : Prop where
  perm : h.live.Perm L
  nodup : (h.live.map Prod.fst).Nodup
  below : ∀ x ∈ h.live, x.1 < h.next

theorem Has.of_perm {h : Heap} {L M : List (Nat × Nat)} (hh : Has h L) (p : L.Perm M) : Has h M := ⟨hh.perm.trans p, hh.nodup, hh.below⟩

theorem Has.ids {h : Heap} {L : List (Nat × Nat)} (hh : Has h L) : (L.map Prod.fst).Nodup := ((hh.perm.map Prod.fst).nodup_iff).mp hh.nodup

theorem Has.malloc {h : Heap} {L : List (Nat × Nat)} (hh : Has h L) {n : Nat} (hn : n ≠ 0) :
    h.malloc n = (some h.next, { h with next := h.next + 1, live := (h.next, n) :: h.live }) ∧
      Has { h with next := h.next + 1, live := (h.next, n) :: h.live } ((h.next, n) :: L) := by
  refine ⟨by unfold Heap.malloc; rw [if_neg hn], hh.perm.cons _, ?_, ?_⟩
  · show ((h.next :: h.live.map Prod.fst)).Nodup
    refine List.nodup_cons.mpr ⟨?_, hh.nodup⟩
    intro hc
    obtain ⟨x, hx, he⟩ := List.mem_map.mp hc
    have := hh.below x hx
    omega
  · intro x hx
    rcases List.mem_cons.mp hx with rfl | hx
    · exact Nat.lt_succ_self _
    · have := hh.below x hx
      show x.1 < h.next + 1
      omega

/-- the block list of an optional block -/
def optBlock (p : Option Nat) (n : Nat) : List (Nat × Nat) :=
  match p with
  | none => []
  | some b => [(b, n)]

/-- allocation, also of nothing -/
theorem Has.malloc' {h : Heap} {L : List (Nat × Nat)} (hh : Has h L) (n : Nat) :
    Has (h.malloc n).2 (optBlock (h.malloc n).1 n ++ L) ∧ (h.malloc n).2.busy = h.busy ∧ ((h.malloc n).1 = none ↔ n = 0) := by
  by_cases hn : n = 0
  · unfold Heap.malloc
    rw [if_pos hn]
    exact ⟨hh, rfl, by simp [hn]⟩
  · obtain ⟨e, hh'⟩ := hh.malloc hn
    rw [e]
    exact ⟨hh', rfl, by simp [hn]⟩

theorem Has.free {h : Heap} {L : List (Nat × Nat)} {b n : Nat} (hh : Has h ((b, n) :: L)) (hb : b ∉ h.busy) :
    ∃ h', h.free (some b) = .ok h' ∧ Has h' L ∧ h'.busy = h.busy := by
  have hmem : b ∈ h.live.map Prod.fst := (hh.perm.map Prod.fst).mem_iff.mpr (by simp)
  refine ⟨_, if_pos ⟨hmem, hb⟩, ⟨?_, ?_, ?_⟩, rfl⟩
  · have h1 := hh.perm.filter (fun x => decide (x.1 ≠ b))
    have hnd := hh.ids
    have h2 : ((b, n) :: L).filter (fun x => decide (x.1 ≠ b)) = L := by
      rw [List.filter_cons_of_neg (by simp), List.filter_eq_self]
      intro x hx
      have hnb := (List.nodup_cons.mp hnd).1
      simp only [decide_eq_true_iff]
      intro hc
      exact hnb (List.mem_map.mpr ⟨x, hx, hc⟩)
    rw [h2] at h1
    exact h1
  · exact hh.nodup.sublist (List.filter_sublist.map Prod.fst)
  · intro x hx
    exact hh.below x (List.mem_filter.mp hx).1

theorem Has.free' {h : Heap} {L : List (Nat × Nat)} {p : Option Nat} {n : Nat} (hh : Has h (optBlock p n ++ L)) (hb : ∀ b, p = some b → b ∉ h.busy) :
    ∃ h', h.free p = .ok h' ∧ Has h' L ∧ h'.busy = h.busy := by
  cases p with
  | none => exact ⟨h, rfl, hh, rfl⟩
  | some b => exact Has.free hh (hb b rfl)

theorem Has.realloc {h : Heap} {L : List (Nat × Nat)} {p : Option Nat} {n : Nat} (hh : Has h (optBlock p n ++ L)) (hb : ∀ b, p = some b → b ∉ h.busy)
    (k : Nat) : ∃ q h', h.realloc p k = .ok (q, h') ∧ Has h' (optBlock q k ++ L) ∧ h'.busy = h.busy ∧ (q = none ↔ k = 0) := by
  obtain ⟨h1, e1, hh1, hb1⟩ := hh.free' hb
  obtain ⟨a, b, c⟩ := hh1.malloc' k
  refine ⟨(h1.malloc k).1, (h1.malloc k).2, ?_, a, by rw [b, hb1], c⟩
  unfold Heap.realloc
  rw [e1]; rfl

theorem Has.touch {h : Heap} {L : List (Nat × Nat)} {p : Option Nat} {n : Nat} (hh : Has h (optBlock p n ++ L)) (hp : p = none → n = 0) {a k : Nat}
    (hk : a + k ≤ n) : h.touch p a k = .ok () := by
  unfold Heap.touch
  by_cases h0 : k = 0
  · rw [if_pos h0]
  · rw [if_neg h0]
    cases p with
    | none => have := hp rfl; omega
    | some b =>
      simp only
      rw [if_pos ⟨(b, n), hh.perm.mem_iff.mpr (by simp [optBlock]), rfl, hk⟩]

/-! ## buffers -/

def Buf.blocks (b : Buf) : List (Nat × Nat) := optBlock b.start b.cap

/-- a buffer that points nowhere has no room, and nothing lies beyond its room -/
def Buf.Ok (b : Buf) : Prop := (b.start = none → b.cap = 0) ∧ b.size ≤ b.cap

theorem make_ok : Buf.make.Ok := ⟨fun _ => rfl, Nat.le_refl _⟩

theorem push_spec {h : Heap} {L : List (Nat × Nat)} {b : Buf} (hb : b.Ok) (hh : Has h (b.blocks ++ L)) (hbusy : h.busy = []) (n : Nat) :
    ∃ b' h', push h b n = .ok (b', h') ∧ b'.Ok ∧ Has h' (b'.blocks ++ L) ∧ h'.busy = [] ∧ b'.size = b.size + n ∧
      (b.cap ≤ 3 * (b.size + 15) / 2 → b'.cap ≤ 3 * (b'.size + 15) / 2) := by
  unfold push
  by_cases hc : b.cap < b.size + n
  · obtain ⟨q, h', e, hh', hb', hq⟩ := Has.realloc (n := b.cap) hh (by intro x _; rw [hbusy]; simp) (max (b.size + n) ((b.cap + 16) * 3 / 2))
    dsimp only
    rw [if_pos hc, e, Outcome.bind_ok]
    have hmax : b.size + n ≤ max (b.size + n) ((b.cap + 16) * 3 / 2) := Nat.le_max_left _ _
    have ht := Has.touch hh' (fun hn => hq.mp hn) (a := b.size) (k := n) hmax
    refine ⟨⟨q, b.size + n, max (b.size + n) ((b.cap + 16) * 3 / 2)⟩, h', ?_, ⟨fun hn => hq.mp hn, hmax⟩, hh', by rw [hb', hbusy], rfl, ?_⟩
    · show Outcome.bind (h'.touch q b.size n) _ = _
      rw [ht]; rfl
    · intro _
      show max (b.size + n) ((b.cap + 16) * 3 / 2) ≤ 3 * (b.size + n + 15) / 2
      apply Nat.max_le.mpr
      constructor <;> omega
  · dsimp only
    rw [if_neg hc, Outcome.bind_ok]
    have ht := Has.touch hh hb.1 (a := b.size) (k := n) (by omega)
    refine ⟨⟨b.start, b.size + n, b.cap⟩, h, ?_, ⟨hb.1, by show b.size + n ≤ b.cap; omega⟩, hh, hbusy, rfl, ?_⟩
    · show Outcome.bind (h.touch b.start b.size n) _ = _
      rw [ht]; rfl
    · intro hle
      show b.cap ≤ 3 * (b.size + n + 15) / 2
      omega

theorem walk_spec {h : Heap} {L : List (Nat × Nat)} {b : Buf} (hb : b.Ok) (hh : Has h (b.blocks ++ L)) (n : Nat) :
    walk h b n = .fail ∨ (b.size + n ≤ b.cap ∧ walk h b n = .ok { b with size := b.size + n }) := by
  unfold walk
  by_cases hc : b.cap < b.size + n
  · left; rw [if_pos hc]
  · right
    refine ⟨by omega, ?_⟩
    rw [if_neg hc, Has.touch hh hb.1 (a := b.size) (k := n) (by omega)]
    rfl

theorem resize_spec {h : Heap} {L : List (Nat × Nat)} {b : Buf} (hb : b.Ok) (hh : Has h (b.blocks ++ L)) (hbusy : ∀ x, b.start = some x → x ∉ h.busy) (n : Nat) :
    ∃ b' h', resize h b n = .ok (b', h') ∧ b'.Ok ∧ b'.cap = n ∧ b'.size = n ∧ Has h' (b'.blocks ++ L) ∧ h'.busy = h.busy ∧ h'.touch b'.start 0 n = .ok () := by
  unfold resize
  by_cases hc : b.size = n ∧ b.cap = n
  · rw [if_pos hc]
    refine ⟨b, h, rfl, hb, hc.2, hc.1, hh, rfl, ?_⟩
    exact Has.touch hh hb.1 (by omega)
  · rw [if_neg hc]
    obtain ⟨q, h', e, hh', hb', hq⟩ := Has.realloc (n := b.cap) hh hbusy n
    rw [e]
    exact ⟨⟨q, n, n⟩, h', rfl, ⟨fun hn => hq.mp hn, Nat.le_refl _⟩, rfl, rfl, hh', hb', Has.touch hh' (fun hn => hq.mp hn) (by omega)⟩

/-! ## messages -/

def Msg.blocks (m : Msg) : List (Nat × Nat) := m.buf.blocks ++ [(m.node, nodeBytes)]

def msgBlocks (l : List Msg) : List (Nat × Nat) := l.flatMap Msg.blocks

/-- the blocks MPI reads are not these -/
def NotBusy (h : Heap) (L : List (Nat × Nat)) : Prop := ∀ x ∈ L, x.1 ∉ h.busy

theorem freeMsg_spec {h : Heap} {L : List (Nat × Nat)} {m : Msg} (hh : Has h (m.blocks ++ L)) (hb : NotBusy h m.blocks) :
    ∃ h', freeMsg h m = .ok h' ∧ Has h' L ∧ h'.busy = h.busy := by
  unfold Msg.blocks at hh hb
  rw [List.append_assoc] at hh
  obtain ⟨h1, e1, hh1, hb1⟩ := Has.free' (n := m.buf.cap) hh (by
    intro b hbs
    exact hb (b, m.buf.cap) (by simp [Buf.blocks, hbs, optBlock]))
  obtain ⟨h2, e2, hh2, hb2⟩ := Has.free (b := m.node) (n := nodeBytes) hh1 (by
    rw [hb1]
    exact hb (m.node, nodeBytes) (by simp))
  refine ⟨h2, ?_, hh2, by rw [hb2, hb1]⟩
  unfold freeMsg
  rw [e1, Outcome.bind_ok, e2]

theorem freeMsgs_spec (l : List Msg) {h : Heap} {L : List (Nat × Nat)} (hh : Has h (msgBlocks l ++ L)) (hb : NotBusy h (msgBlocks l)) :
    ∃ h', l.foldlM freeMsg h = .ok h' ∧ Has h' L ∧ h'.busy = h.busy := by
  induction l generalizing h with
  | nil => exact ⟨h, rfl, hh, rfl⟩
  | cons m l ih =>
    unfold msgBlocks at hh hb
    rw [List.flatMap_cons] at hh hb
    rw [List.append_assoc] at hh
    obtain ⟨h1, e1, hh1, hb1⟩ := freeMsg_spec hh (fun x hx => hb x (List.mem_append_left _ hx))
    obtain ⟨h2, e2, hh2, hb2⟩ := ih hh1 (fun x hx => by rw [hb1]; exact hb x (List.mem_append_right _ hx))
    refine ⟨h2, ?_, hh2, by rw [hb2, hb1]⟩
    rw [List.foldlM_cons, e1, Outcome.bind_ok, e2]

theorem freeComm_spec {l : List Msg} {b : Buf} {h : Heap} {L : List (Nat × Nat)} (hh : Has h (msgBlocks l ++ (b.blocks ++ L))) (hl : NotBusy h (msgBlocks l))
    (hb : NotBusy h b.blocks) : ∃ h', freeComm h l b = .ok h' ∧ Has h' L ∧ h'.busy = h.busy := by
  obtain ⟨h1, e1, hh1, hb1⟩ := freeMsgs_spec l hh hl
  obtain ⟨h2, e2, hh2, hb2⟩ := Has.free' (n := b.cap) hh1 (by
    intro x hx
    rw [hb1]
    exact hb (x, b.cap) (by simp [Buf.blocks, hx, optBlock]))
  refine ⟨h2, ?_, hh2, by rw [hb2, hb1]⟩
  unfold freeComm
  rw [e1, Outcome.bind_ok, e2]

/-! ## the order -/

def Ord.blocks (o : Ord) : List (Nat × Nat) := msgBlocks o.tree ++ (optBlock o.array (8 * o.count) ++ [(o.self, nodeBytes)])

/-- what an ordering object is between calls -/
structure Ord.Ok (o : Ord) : Prop where
  bufs : ∀ m ∈ o.tree, m.buf.Ok
  count : o.count = o.tree.length
  array : o.array = none → o.count = 0
  empty : o.ready = false → o.tree = [] ∧ o.array = none
  pos : o.ready = true → 0 ≤ o.at_ ∧ o.at_ < (o.count : Int)

theorem orderDtor_spec {o : Ord} {h : Heap} {L : List (Nat × Nat)} (hh : Has h (msgBlocks o.tree ++ (optBlock o.array (8 * o.count) ++ L)))
    (hb : NotBusy h (msgBlocks o.tree ++ optBlock o.array (8 * o.count))) :
    ∃ h', orderDtor h o = .ok h' ∧ Has h' L ∧ h'.busy = h.busy := by
  obtain ⟨h1, e1, hh1, hb1⟩ := freeMsgs_spec o.tree hh (fun x hx => hb x (List.mem_append_left _ hx))
  obtain ⟨h2, e2, hh2, hb2⟩ := Has.free' (n := 8 * o.count) hh1 (by
    intro x hx
    rw [hb1]
    exact hb (x, 8 * o.count) (List.mem_append_right _ (by simp [hx, optBlock])))
  refine ⟨h2, ?_, hh2, by rw [hb2, hb1]⟩
  unfold orderDtor
  rw [e1, Outcome.bind_ok, e2]

theorem orderFree_spec {o : Ord} {h : Heap} {L : List (Nat × Nat)} (hh : Has h (o.blocks ++ L)) (hb : NotBusy h o.blocks) :
    ∃ h', orderFree h o = .ok h' ∧ Has h' L ∧ h'.busy = h.busy := by
  unfold Ord.blocks at hh hb
  obtain ⟨h1, e1, hh1, hb1⟩ := orderDtor_spec (L := (o.self, nodeBytes) :: L) (o := o) (h := h) (by simpa [List.append_assoc] using hh) (by
    intro x hx
    apply hb
    rw [← List.append_assoc]
    exact List.mem_append_left _ hx)
  obtain ⟨h2, e2, hh2, hb2⟩ := hh1.free (by
    rw [hb1]
    exact hb (o.self, nodeBytes) (by simp))
  refine ⟨h2, ?_, hh2, by rw [hb2, hb1]⟩
  unfold orderFree
  rw [e1, Outcome.bind_ok, e2]

theorem current_spec {o : Ord} (ho : o.Ok) {h : Heap} {L : List (Nat × Nat)} (hh : Has h (o.blocks ++ L)) (h0 : 0 ≤ o.at_) (h1 : o.at_ < (o.count : Int)) :
    ∃ hk : o.at_.toNat < o.tree.length, current h o = .ok o.tree[o.at_.toNat] := by
  have hk : o.at_.toNat < o.tree.length := by rw [← ho.count]; omega
  refine ⟨hk, ?_⟩
  unfold current
  rw [if_neg (by omega)]
  have hh' : Has h (optBlock o.array (8 * o.count) ++ (msgBlocks o.tree ++ [(o.self, nodeBytes)] ++ L)) := by
    refine hh.of_perm ?_
    unfold Ord.blocks
    exact List.perm_iff_count.mpr fun x => by simp only [List.count_append]; omega
  rw [Has.touch hh' (fun hn => by rw [ho.array hn]) (by omega), Outcome.bind_ok]
  unfold rd
  rw [List.getElem?_eq_getElem hk]
  rfl

theorem msgBlocks_modify (l : List Msg) (i : Nat) (hi : i < l.length) (b : Buf) (hb : b.blocks = l[i].buf.blocks) :
    msgBlocks (l.modify i (fun m => { m with buf := b })) = msgBlocks l := by
  induction l generalizing i with
  | nil => exact absurd hi (by simp)
  | cons m l ih =>
    cases i with
    | zero =>
      have hb' : b.blocks = m.buf.blocks := hb
      unfold msgBlocks
      rw [List.modify_zero_cons, List.flatMap_cons, List.flatMap_cons]
      congr 1
      unfold Msg.blocks
      show b.blocks ++ _ = _
      rw [hb']
    | succ i =>
      unfold msgBlocks at ih ⊢
      rw [List.modify_succ_cons, List.flatMap_cons, List.flatMap_cons, ih i (by simpa using hi) hb]

theorem setCurrent_blocks {o : Ord} (hi : o.at_.toNat < o.tree.length) {b : Buf} (hb : b.blocks = o.tree[o.at_.toNat].buf.blocks) :
    (setCurrent o b).blocks = o.blocks := by
  unfold Ord.blocks setCurrent
  rw [msgBlocks_modify _ _ hi _ hb]

theorem setCurrent_ok {o : Ord} (ho : o.Ok) {b : Buf} (hb : b.Ok) : (setCurrent o b).Ok := by
  refine ⟨?_, by unfold setCurrent; simp [ho.count], ho.array, ?_, ho.pos⟩
  · intro m hm
    obtain ⟨i, hi, rfl⟩ := List.mem_iff_getElem.mp hm
    unfold setCurrent at hi ⊢
    simp only [List.getElem_modify]
    split
    · exact hb
    · exact ho.bufs _ (List.getElem_mem _)
  · intro hr
    obtain ⟨h1, h2⟩ := ho.empty hr
    refine ⟨?_, h2⟩
    unfold setCurrent
    rw [h1]
    simp

theorem insMsg_blocks (m : Msg) (l : List Msg) (h : m.rank ∉ l.map Msg.rank) : (msgBlocks (insMsg m l)).Perm (m.blocks ++ msgBlocks l) := by
  induction l with
  | nil => exact List.Perm.refl _
  | cons k l ih =>
    unfold insMsg
    split
    · exact List.Perm.refl _
    · split
      · rename_i _ he
        exact absurd he (by intro hc; exact h (by simp [hc]))
      · have := ih (by intro hc; exact h (by simp at hc ⊢; exact Or.inr hc))
        unfold msgBlocks at this ⊢
        rw [List.flatMap_cons, List.flatMap_cons]
        refine (this.append_left _).trans ?_
        exact List.perm_iff_count.mpr fun x => by simp only [List.count_append]; omega

theorem insMsg_ranks (m : Msg) (l : List Msg) (h : m.rank ∉ l.map Msg.rank) : (insMsg m l).Perm (m :: l) := by
  induction l with
  | nil => exact List.Perm.refl _
  | cons k l ih =>
    unfold insMsg
    split
    · exact List.Perm.refl _
    · split
      · rename_i _ he
        exact absurd he (by intro hc; exact h (by simp [hc]))
      · have := ih (by intro hc; exact h (by simp at hc ⊢; exact Or.inr hc))
        exact (this.cons k).trans (List.Perm.swap _ _ _)

end Verif.Pcu.Store
