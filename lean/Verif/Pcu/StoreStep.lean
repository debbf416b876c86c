import Verif.Pcu.StoreInv
import Verif.Pcu.StoreSpec
/-!
# Lemmas for C85: every call keeps the books
-/
namespace Verif.Pcu.Store

def ordBlocks : Option Ord → List (Nat × Nat)
  | none => []
  | some o => o.blocks

/-- the state between calls, the library being up -/
structure Inv (s : St) : Prop where
  up : s.up = true
  has : Has s.heap (msgBlocks s.peers ++ (s.received.blocks ++ ordBlocks s.order))
  bufs : ∀ m ∈ s.peers, m.buf.Ok ∧ m.buf.cap ≤ 3 * (m.buf.size + 15) / 2
  recv : s.received.Ok
  ord : ∀ o, s.order = some o → o.Ok
  keys : (s.peers.map Msg.rank).Nodup
  idle : s.mode = .idle → s.peers = []
  calm : s.mode ≠ .exch → s.received = Buf.make ∧ s.heap.busy = []
  busy : s.mode = .exch → s.heap.busy = s.peers.filterMap (fun m => m.buf.start)

/-- the state between calls -/
def Books (s : St) : Prop := Inv s ∨ (s.up = false ∧ Has s.heap [] ∧ s.heap.busy = [])

/-- a step that keeps the books, or ends the program with a message -/
def Keeps (x : Outcome St) : Prop := x = .fail ∨ ∃ s, x = .ok s ∧ Books s

theorem keeps_fail : Keeps .fail := Or.inl rfl
theorem keeps_inv {s : St} (h : Inv s) : Keeps (.ok s) := Or.inr ⟨s, rfl, Or.inl h⟩

theorem notBusy_rest {h : Heap} {l : List Msg} {R : List (Nat × Nat)} (hh : Has h (msgBlocks l ++ R)) (hb : h.busy = l.filterMap (fun m => m.buf.start)) :
    NotBusy h R := by
  intro x hx hc
  rw [hb, List.mem_filterMap] at hc
  obtain ⟨m, hm, hs⟩ := hc
  have hnd := hh.ids
  rw [List.map_append, List.nodup_append] at hnd
  exact hnd.2.2 x.1 (List.mem_map.mpr ⟨(x.1, m.buf.cap), List.mem_flatMap.mpr ⟨m, hm, by simp [Msg.blocks, Buf.blocks, hs, optBlock]⟩, rfl⟩)
    x.1 (List.mem_map.mpr ⟨x, hx, rfl⟩) rfl

theorem Inv.rest {s : St} (h : Inv s) : NotBusy s.heap (s.received.blocks ++ ordBlocks s.order) := by
  by_cases hm : s.mode = .exch
  · exact notBusy_rest h.has (h.busy hm)
  · intro x _
    rw [(h.calm hm).2]
    simp

theorem nil_notBusy {h : Heap} (hb : h.busy = []) (L : List (Nat × Nat)) : NotBusy h L := by
  intro x _
  rw [hb]; simp

/-! ## setting up and taking down -/

theorem orderNew_spec {h : Heap} {L : List (Nat × Nat)} (hh : Has h L) :
    Has (orderNew h).2 ((orderNew h).1.blocks ++ L) ∧ (orderNew h).1.Ok ∧ (orderNew h).2.busy = h.busy ∧ (orderNew h).1.ready = false := by
  obtain ⟨e, hh'⟩ := hh.malloc (n := nodeBytes) (by decide)
  unfold orderNew
  rw [e]
  exact ⟨hh', ⟨by simp, rfl, fun _ => rfl, fun _ => ⟨rfl, rfl⟩, fun hc => by cases hc⟩, rfl, rfl⟩

theorem setOrder_keeps {s : St} (h : Inv s) (on : Bool) : ∃ s', setOrder on s = .ok s' ∧ Inv s' ∧ s'.order.isSome = on := by
  unfold setOrder
  cases ho : s.order with
  | none =>
    cases on with
    | false => exact ⟨s, rfl, h, by simp [ho]⟩
    | true =>
      obtain ⟨h1, h2, h3, -⟩ := orderNew_spec h.has
      refine ⟨_, rfl, ?_, rfl⟩
      refine { h with has := ?_, ord := ?_, calm := ?_, busy := ?_ }
      · refine h1.of_perm ?_
        rw [ho]
        exact List.perm_iff_count.mpr fun x => by simp only [List.count_append, ordBlocks, List.count_nil]; omega
      · intro o he
        rw [← Option.some.inj he]; exact h2
      · intro hm; exact ⟨(h.calm hm).1, by rw [← (h.calm hm).2]; exact h3⟩
      · intro hm; rw [← h.busy hm]; exact h3
  | some o =>
    cases on with
    | true => exact ⟨s, rfl, h, by simp [ho]⟩
    | false =>
      have hr := h.rest
      have hh := h.has
      rw [ho] at hr hh
      obtain ⟨h', e, hh', hb'⟩ := orderFree_spec (o := o) (L := msgBlocks s.peers ++ s.received.blocks) (h := s.heap) (hh.of_perm (by
        exact List.perm_iff_count.mpr fun x => by simp only [List.count_append, ordBlocks]; omega)) (fun x hx => hr x (List.mem_append_right _ hx))
      refine ⟨{ s with order := none, heap := h' }, ?_, ?_, rfl⟩
      · show Outcome.bind (orderFree s.heap o) _ = _
        rw [e]; rfl
      · refine { h with has := ?_, ord := ?_, calm := ?_, busy := ?_ }
        · simpa [ordBlocks] using hh'
        · intro o he; cases he
        · intro hm; exact ⟨(h.calm hm).1, by rw [← (h.calm hm).2]; exact hb'⟩
        · intro hm; rw [← h.busy hm]; exact hb'

theorem init_keeps {s : St} (h : Books s) : Keeps (init s) := by
  unfold init
  rcases h with h | ⟨h1, h2, h3⟩
  · rw [if_pos h.up]; exact keeps_fail
  · rw [if_neg (by rw [h1]; simp)]
    obtain ⟨s', e, hi, -⟩ := setOrder_keeps (s := { fresh with up := true, heap := s.heap })
      { up := rfl, has := h2, bufs := (fun m hm => by cases hm), recv := make_ok, ord := (fun o ho => by cases ho), keys := List.nodup_nil, idle := fun _ => rfl,
        calm := fun _ => ⟨rfl, h3⟩, busy := (fun hc => by cases hc) } true
    rw [e]
    exact keeps_inv hi

theorem commFree_keeps {s : St} (h : Inv s) (ha : s.mode ≠ .exch ∨ s.peers = []) :
    ∃ s', commFree s = .ok s' ∧ s'.up = false ∧ Has s'.heap [] ∧ s'.heap.busy = [] := by
  have hbusy : s.heap.busy = [] := by
    by_cases hm : s.mode = .exch
    · rw [h.busy hm]
      rcases ha with ha | ha
      · exact absurd hm ha
      · rw [ha]; rfl
    · exact (h.calm hm).2
  have key : ∃ h1, orderFreeOpt s.heap s.order = .ok h1 ∧
      Has h1 (msgBlocks s.peers ++ (s.received.blocks ++ [])) ∧ h1.busy = [] := by
    cases ho : s.order with
    | none =>
      have hh := h.has
      rw [ho] at hh
      exact ⟨s.heap, rfl, hh, hbusy⟩
    | some o =>
      have hh := h.has
      rw [ho] at hh
      obtain ⟨h', e, hh', hb'⟩ := orderFree_spec (o := o) (L := msgBlocks s.peers ++ (s.received.blocks ++ [])) (h := s.heap) (hh.of_perm (by
        exact List.perm_iff_count.mpr fun x => by simp only [List.count_append, ordBlocks, List.count_nil]; omega)) (nil_notBusy hbusy _)
      exact ⟨h', e, hh', by rw [hb', hbusy]⟩
  obtain ⟨h1, e1, hh1, hb1⟩ := key
  obtain ⟨h2, e2, hh2, hb2⟩ := freeComm_spec hh1 (nil_notBusy hb1 _) (nil_notBusy hb1 _)
  refine ⟨{ s with up := false, heap := h2 }, ?_, rfl, hh2, by rw [hb2, hb1]⟩
  unfold commFree
  rw [e1, Outcome.bind_ok, e2]
  rfl

/-! ## packing -/

theorem packTo_keeps {s : St} (h : Inv s) (hm : s.mode = .pack) (q : Int) (n : Nat) : ∃ s', packTo s q n = .ok s' ∧ Inv s' ∧ s'.mode = .pack := by
  have hne : s.mode ≠ .exch := by rw [hm]; simp
  have hni : s.mode ≠ .idle := by rw [hm]; simp
  obtain ⟨hrec, hbusy⟩ := h.calm hne
  unfold packTo
  cases hf : s.peers.find? (fun m => decide (m.rank = q)) with
  | none =>
    obtain ⟨e, hh⟩ := h.has.malloc (n := nodeBytes) (by decide)
    obtain ⟨b', h', e', hb', hh', hbu, hsz, hcap⟩ := push_spec (b := Buf.make) make_ok (L := (s.heap.next, nodeBytes) :: (msgBlocks s.peers ++ (s.received.blocks ++ ordBlocks s.order)))
      (h := { s.heap with next := s.heap.next + 1, live := (s.heap.next, nodeBytes) :: s.heap.live }) hh hbusy n
    refine ⟨{ s with peers := s.peers ++ [⟨q, s.heap.next, b'⟩], heap := h' }, ?_, ?_, hm⟩
    · show Outcome.bind (push (s.heap.malloc nodeBytes).2 Buf.make n) _ = _
      rw [e, e']
      rfl
    · refine { h with has := ?_, bufs := ?_, keys := ?_, idle := fun hc => absurd hc hni, calm := fun _ => ⟨hrec, hbu⟩, busy := fun hc => absurd hc hne }
      · refine hh'.of_perm ?_
        show (b'.blocks ++ (s.heap.next, nodeBytes) :: (msgBlocks s.peers ++ (s.received.blocks ++ ordBlocks s.order))).Perm
          (msgBlocks (s.peers ++ [⟨q, s.heap.next, b'⟩]) ++ (s.received.blocks ++ ordBlocks s.order))
        unfold msgBlocks
        rw [List.flatMap_append, List.flatMap_singleton]
        unfold Msg.blocks
        exact List.perm_iff_count.mpr fun x => by simp only [List.count_append, List.count_cons, List.count_nil]; omega
      · intro m hmm
        rcases List.mem_append.mp hmm with hmm | hmm
        · exact h.bufs m hmm
        · rw [List.mem_singleton.mp hmm]
          exact ⟨hb', hcap (by simp [Buf.make])⟩
      · rw [List.map_append, List.map_singleton]
        refine List.nodup_append.mpr ⟨h.keys, (by simp), ?_⟩
        intro a ha b hb hab
        rw [List.mem_singleton.mp hb] at hab
        obtain ⟨m, hmm, hme⟩ := List.mem_map.mp ha
        have := List.find?_eq_none.mp hf m hmm
        simp at this
        exact this (hme.trans hab)
  | some m =>
    obtain ⟨hmt, A, B, hAB, -⟩ := List.find?_eq_some_iff_append.mp hf
    have hmt : m.rank = q := by simpa using hmt
    have hk := h.keys
    rw [hAB] at hk
    have hmem : m ∈ s.peers := by rw [hAB]; simp
    have hfixed : ∀ b', s.peers.map (fun (k : Msg) => if k.rank = q then { m with buf := b' } else k) = A ++ { m with buf := b' } :: B := by
      intro b'
      rw [List.map_append, List.map_cons, List.nodup_append] at hk
      obtain ⟨-, hB, hA⟩ := hk
      have hB := (List.nodup_cons.mp hB).1
      rw [hAB, List.map_append, List.map_cons, if_pos hmt]
      congr 1
      · conv => rhs; rw [← List.map_id A]
        apply List.map_congr_left
        intro k hkA
        rw [if_neg, id]
        intro hc
        exact hA k.rank (List.mem_map_of_mem hkA) m.rank (by simp) (by rw [hc, hmt])
      · congr 1
        conv => rhs; rw [← List.map_id B]
        apply List.map_congr_left
        intro k hkB
        rw [if_neg, id]
        intro hc
        exact hB (by rw [hmt, ← hc]; exact List.mem_map_of_mem hkB)
    obtain ⟨b', h', e', hb', hh', hbu, hsz, hcap⟩ := push_spec (b := m.buf) (h.bufs m hmem).1 (h := s.heap)
      (L := (m.node, nodeBytes) :: (msgBlocks A ++ (msgBlocks B ++ (s.received.blocks ++ ordBlocks s.order)))) (h.has.of_perm (by
        rw [hAB]
        unfold msgBlocks
        rw [List.flatMap_append, List.flatMap_cons]
        unfold Msg.blocks
        exact List.perm_iff_count.mpr fun x => by simp only [List.count_append, List.count_cons, List.count_nil]; omega)) hbusy n
    refine ⟨{ s with peers := A ++ { m with buf := b' } :: B, heap := h' }, ?_, ?_, hm⟩
    · show Outcome.bind (push s.heap m.buf n) _ = _
      rw [e']
      show Outcome.ok { s with peers := s.peers.map (fun (k : Msg) => if k.rank = q then { m with buf := b' } else k), heap := h' } = _
      rw [hfixed]
    · refine { h with has := ?_, bufs := ?_, keys := ?_, idle := fun hc => absurd hc hni, calm := fun _ => ⟨hrec, hbu⟩, busy := fun hc => absurd hc hne }
      · refine hh'.of_perm ?_
        show List.Perm _ (msgBlocks (A ++ { m with buf := b' } :: B) ++ (s.received.blocks ++ ordBlocks s.order))
        unfold msgBlocks
        rw [List.flatMap_append, List.flatMap_cons]
        unfold Msg.blocks
        exact List.perm_iff_count.mpr fun x => by simp only [List.count_append, List.count_cons, List.count_nil]; omega
      · intro k hk
        rcases List.mem_append.mp hk with hk | hk
        · exact h.bufs k (by rw [hAB]; simp [hk])
        · rcases List.mem_cons.mp hk with rfl | hk
          · exact ⟨hb', hcap (h.bufs m hmem).2⟩
          · exact h.bufs k (by rw [hAB]; simp [hk])
      · show ((A ++ { m with buf := b' } :: B).map Msg.rank).Nodup
        simpa using hk

theorem sendAll_keeps {s : St} (h : Inv s) (hm : s.mode = .pack) : ∃ s', sendAll s = .ok s' ∧ Inv s' := by
  have hne : s.mode ≠ .exch := by rw [hm]; simp
  have e : s.peers.mapM (fun m => s.heap.touch m.buf.start 0 m.buf.size) = .ok (s.peers.map (fun _ => ())) := by
    apply mapM_ok
    intro m hmm
    obtain ⟨A, B, hAB⟩ := List.append_of_mem hmm
    refine Has.touch (n := m.buf.cap) (L := (m.node, nodeBytes) :: (msgBlocks A ++ (msgBlocks B ++ (s.received.blocks ++ ordBlocks s.order)))) (h.has.of_perm ?_)
      (h.bufs m hmm).1.1 (by have := (h.bufs m hmm).1.2; omega)
    rw [hAB]
    unfold msgBlocks
    rw [List.flatMap_append, List.flatMap_cons]
    unfold Msg.blocks Buf.blocks
    exact List.perm_iff_count.mpr fun x => by simp only [List.count_append, List.count_cons, List.count_nil]; omega
  refine ⟨{ s with mode := .exch, heap := { s.heap with busy := s.peers.filterMap (fun m => m.buf.start) } }, ?_, ?_⟩
  · unfold sendAll
    rw [e]; rfl
  · exact { h with has := ⟨h.has.perm, h.has.nodup, h.has.below⟩, idle := (fun hc => by cases hc), calm := fun hc => absurd rfl hc, busy := fun _ => rfl }

/-! ## receiving -/

/-- a message arrives -/
theorem receive_some {s : St} (h : Inv s) (r : Int) (n : Nat) :
    msgReceive s (some (r, n)) = .fail ∨ ∃ b' h', msgReceive s (some (r, n)) = .ok (true, r, { s with received := b', heap := h' }) ∧
      Inv { s with received := b', heap := h' } ∧ s.mode = .exch ∧ b'.cap = n := by
  unfold msgReceive
  by_cases hm : s.mode = .exch
  · by_cases hw : s.received.size = s.received.cap
    · right
      obtain ⟨b', h', e, hb', hc', hs', hh', hbu, ht⟩ := resize_spec h.recv (h := s.heap) (L := msgBlocks s.peers ++ ordBlocks s.order) (h.has.of_perm (by
        exact List.perm_iff_count.mpr fun x => by simp only [List.count_append]; omega)) (by
        intro x hx
        exact h.rest (x, s.received.cap) (List.mem_append_left _ (by simp [Buf.blocks, hx, optBlock]))) n
      refine ⟨{ b' with size := 0 }, h', ?_, ?_, hm, hc'⟩
      · rw [if_neg (by simpa using hm), if_neg (by simpa using hw)]
        show Outcome.bind (resize s.heap s.received n) _ = _
        rw [e]
        show Outcome.bind (h'.touch b'.start 0 n) _ = _
        rw [ht]; rfl
      · refine { h with has := ?_, recv := ⟨hb'.1, Nat.zero_le _⟩, calm := fun hc => absurd hm hc, busy := fun _ => by rw [← h.busy hm]; exact hbu }
        exact hh'.of_perm (List.perm_iff_count.mpr fun x => by simp only [List.count_append, Buf.blocks]; omega)
    · left; rw [if_neg (by simpa using hm), if_pos hw]
  · left; rw [if_pos hm]

/-- the phase is over -/
theorem receive_none {s : St} (h : Inv s) :
    msgReceive s none = .fail ∨ ∃ h', msgReceive s none = .ok (false, 0, { s with mode := .idle, peers := [], received := Buf.make, heap := h' }) ∧
      Inv { s with mode := .idle, peers := [], received := Buf.make, heap := h' } ∧ s.mode = .exch := by
  unfold msgReceive
  by_cases hm : s.mode = .exch
  · by_cases hw : s.received.size = s.received.cap
    · right
      obtain ⟨h', e, hh', hbu⟩ := freeComm_spec (h := { s.heap with busy := [] }) (l := s.peers) (b := s.received) (L := ordBlocks s.order)
        ⟨h.has.perm, h.has.nodup, h.has.below⟩ (nil_notBusy rfl _) (nil_notBusy rfl _)
      refine ⟨h', ?_, ?_, hm⟩
      · rw [if_neg (by simpa using hm), if_neg (by simpa using hw)]
        show Outcome.bind (freeComm { s.heap with busy := [] } s.peers s.received) _ = _
        rw [e]; rfl
      · exact { h with has := hh', bufs := (fun m hc => by cases hc), recv := make_ok, keys := List.nodup_nil, idle := fun _ => rfl, calm := fun _ => ⟨rfl, hbu⟩, busy := (fun hc => by cases hc) }
    · left; rw [if_neg (by simpa using hm), if_pos hw]
  · left; rw [if_pos hm]

/-! ## ordered receiving -/

/-- the state inside `prepare`: the blocks of the messages taken are not yet in the ordering object -/
structure Mid (s : St) (o : Ord) (tree : List Msg) : Prop where
  up : s.up = true
  has : Has s.heap (msgBlocks s.peers ++ (s.received.blocks ++ (msgBlocks tree ++ [(o.self, nodeBytes)])))
  bufs : ∀ m ∈ s.peers, m.buf.Ok ∧ m.buf.cap ≤ 3 * (m.buf.size + 15) / 2
  recv : s.received.Ok
  tree : ∀ m ∈ tree, m.buf.Ok
  keys : (s.peers.map Msg.rank).Nodup
  mode : s.mode = .exch
  busy : s.heap.busy = s.peers.filterMap (fun m => m.buf.start)

/-- such a state seen as one without an order, the rest put aside -/
theorem mid_receive {s : St} {o : Ord} {tree : List Msg} (h : Mid s o tree) (r : Int) (n : Nat) :
    msgReceive s (some (r, n)) = .fail ∨ ∃ b' h', msgReceive s (some (r, n)) = .ok (true, r, { s with received := b', heap := h' }) ∧
      Mid { s with received := b', heap := h' } o tree := by
  unfold msgReceive
  by_cases hw : s.received.size = s.received.cap
  · right
    have hrest := notBusy_rest h.has h.busy
    obtain ⟨b', h', e, hb', hc', hs', hh', hbu, ht⟩ := resize_spec h.recv (h := s.heap) (L := msgBlocks s.peers ++ (msgBlocks tree ++ [(o.self, nodeBytes)])) (h.has.of_perm (by
      exact List.perm_iff_count.mpr fun x => by simp only [List.count_append]; omega)) (by
      intro x hx
      exact hrest (x, s.received.cap) (List.mem_append_left _ (by simp [Buf.blocks, hx, optBlock]))) n
    refine ⟨{ b' with size := 0 }, h', ?_, ?_⟩
    · rw [if_neg (by simpa using h.mode), if_neg (by simpa using hw)]
      show Outcome.bind (resize s.heap s.received n) _ = _
      rw [e]
      show Outcome.bind (h'.touch b'.start 0 n) _ = _
      rw [ht]; rfl
    · refine { h with has := ?_, recv := ⟨hb'.1, Nat.zero_le _⟩, busy := by rw [← h.busy]; exact hbu }
      exact hh'.of_perm (List.perm_iff_count.mpr fun x => by simp only [List.count_append, Buf.blocks]; omega)
  · left; rw [if_neg (by simpa using h.mode), if_pos hw]

theorem takeOne_spec {s : St} {o : Ord} {tree : List Msg} (h : Mid s o tree) (a : Int × Nat) (ha : a.1 ∉ tree.map Msg.rank) :
    takeOne (s, tree) a = .fail ∨ ∃ s' t', takeOne (s, tree) a = .ok (s', t') ∧ Mid s' o t' ∧ (t'.map Msg.rank).Perm (a.1 :: tree.map Msg.rank) ∧
      s'.order = s.order := by
  obtain ⟨r, n⟩ := a
  unfold takeOne
  rcases mid_receive h r n with e | ⟨b', h', e, hm⟩
  · left
    show Outcome.bind (msgReceive s (some (r, n))) _ = _
    rw [e]; rfl
  · right
    obtain ⟨e2, hh2⟩ := hm.has.malloc (n := nodeBytes) (by decide)
    have e2' : h'.malloc nodeBytes = (some h'.next, { h' with next := h'.next + 1, live := (h'.next, nodeBytes) :: h'.live }) := e2
    refine ⟨{ s with received := Buf.make, heap := { h' with next := h'.next + 1, live := (h'.next, nodeBytes) :: h'.live } }, insMsg ⟨r, h'.next, b'⟩ tree, ?_, ?_, ?_, rfl⟩
    · show Outcome.bind (msgReceive s (some (r, n))) _ = _
      rw [e]
      show Outcome.ok ({ s with received := Buf.make, heap := (h'.malloc nodeBytes).2 }, insMsg ⟨r, h'.next, b'⟩ tree) = _
      rw [e2']
    · refine { h with has := ?_, recv := make_ok, tree := ?_, busy := hm.busy }
      · refine hh2.of_perm ?_
        show List.Perm ((h'.next, nodeBytes) :: (msgBlocks s.peers ++ (b'.blocks ++ (msgBlocks tree ++ [(o.self, nodeBytes)]))))
          (msgBlocks s.peers ++ ([] ++ (msgBlocks (insMsg ⟨r, h'.next, b'⟩ tree) ++ [(o.self, nodeBytes)])))
        have hp := insMsg_blocks ⟨r, h'.next, b'⟩ tree ha
        refine List.perm_iff_count.mpr fun x => ?_
        have := List.perm_iff_count.mp hp x
        simp only [List.count_append, List.count_cons, List.count_nil, Msg.blocks] at this ⊢
        omega
      · intro m hmm
        have hp := insMsg_ranks ⟨r, h'.next, b'⟩ tree ha
        rcases List.mem_cons.mp (hp.mem_iff.mp hmm) with rfl | hmm
        · exact hm.recv
        · exact h.tree m hmm
    · exact (insMsg_ranks ⟨r, h'.next, b'⟩ tree ha).map Msg.rank

theorem takeAll_spec (arr : List (Int × Nat)) {s : St} {o : Ord} {tree : List Msg} (h : Mid s o tree) (ha : (arr.map Prod.fst ++ tree.map Msg.rank).Nodup) :
    arr.foldlM takeOne (s, tree) = .fail ∨ ∃ s' t', arr.foldlM takeOne (s, tree) = .ok (s', t') ∧ Mid s' o t' ∧ s'.order = s.order ∧ t'.length = arr.length + tree.length := by
  induction arr generalizing s tree with
  | nil => exact Or.inr ⟨s, tree, rfl, h, rfl, by simp⟩
  | cons a arr ih =>
    rw [List.map_cons, List.cons_append, List.nodup_cons] at ha
    rcases takeOne_spec h a (fun hc => ha.1 (List.mem_append_right _ hc)) with e | ⟨s', t', e, hm, hp, ho⟩
    · left; rw [List.foldlM_cons, e]; rfl
    · have hnd : (arr.map Prod.fst ++ t'.map Msg.rank).Nodup := by
        refine ((List.Perm.append_left _ hp).nodup_iff).mpr ?_
        refine (List.perm_middle.nodup_iff).mpr ?_
        exact List.nodup_cons.mpr ha
      have hlen : t'.length = tree.length + 1 := by
        have := hp.length_eq
        simpa using this
      rcases ih hm hnd with e2 | ⟨s'', t'', e2, hm2, ho2, hl2⟩
      · left; rw [List.foldlM_cons, e, Outcome.bind_ok, e2]
      · right
        exact ⟨s'', t'', by rw [List.foldlM_cons, e, Outcome.bind_ok, e2], hm2, ho2.trans ho, by rw [hl2, List.length_cons]; omega⟩

/-- after `prepare`: everything is in the ordering object, which stands before its first message -/
structure Prepared (s : St) (o : Ord) : Prop where
  up : s.up = true
  mode : s.mode = .idle
  peers : s.peers = []
  recv : s.received = Buf.make
  busy : s.heap.busy = []
  has : Has s.heap o.blocks
  bufs : ∀ m ∈ o.tree, m.buf.Ok
  count : o.count = o.tree.length
  array : o.array = none → o.count = 0
  ready : o.ready = true
  at_ : 0 ≤ o.at_ + 1 ∧ o.at_ + 1 ≤ (o.count : Int)

theorem prepare_spec {s : St} (h : Inv s) {o : Ord} (ho : s.order = some o) (hr : o.ready = false) {arr : List (Int × Nat)} (ha : (arr.map Prod.fst).Nodup) :
    prepare s o arr = .fail ∨ ∃ s' o', prepare s o arr = .ok (s', o') ∧ Prepared s' o' ∧ o'.count = arr.length := by
  have hok := h.ord o ho
  obtain ⟨ht, hr'⟩ := hok.empty hr
  unfold prepare
  by_cases hm : s.mode = .exch
  · have hmid : Mid s o o.tree := by
      refine ⟨h.up, ?_, h.bufs, h.recv, hok.bufs, h.keys, hm, h.busy hm⟩
      have := h.has
      rw [ho] at this
      simpa [ordBlocks, Ord.blocks, hr', optBlock] using this
    rcases takeAll_spec arr hmid (by rw [ht]; simpa using ha) with e | ⟨s', t', e, hm', ho', hl'⟩
    · left; rw [e]; rfl
    · rw [e, Outcome.bind_ok]
      dsimp only
      by_cases hw : s'.received.size = s'.received.cap
      · right
        obtain ⟨h1, e1, hh1, hb1⟩ := freeComm_spec (h := { s'.heap with busy := [] }) (l := s'.peers) (b := s'.received) (L := msgBlocks t' ++ [(o.self, nodeBytes)])
          ⟨hm'.has.perm, hm'.has.nodup, hm'.has.below⟩ (nil_notBusy rfl _) (nil_notBusy rfl _)
        have e2 : msgReceive s' none = .ok (false, 0, { s' with mode := .idle, peers := [], received := Buf.make, heap := h1 }) := by
          unfold msgReceive
          rw [if_neg (by simpa using hm'.mode), if_neg (by simpa using hw)]
          show Outcome.bind (freeComm { s'.heap with busy := [] } s'.peers s'.received) _ = _
          rw [e1]; rfl
        rw [e2, Outcome.bind_ok]
        obtain ⟨a, b, c⟩ := hh1.malloc' (8 * t'.length)
        refine ⟨_, _, rfl, ⟨hm'.up, rfl, rfl, rfl, ?_, ?_, hm'.tree, rfl, ?_, rfl, ?_⟩, ?_⟩
        · show (h1.malloc (8 * t'.length)).2.busy = []
          rw [b, hb1]
        · refine a.of_perm ?_
          show List.Perm (optBlock (h1.malloc (8 * t'.length)).1 (8 * t'.length) ++ (msgBlocks t' ++ [(o.self, nodeBytes)]))
            (msgBlocks t' ++ (optBlock (h1.malloc (8 * t'.length)).1 (8 * t'.length) ++ [(o.self, nodeBytes)]))
          exact List.perm_iff_count.mpr fun x => by simp only [List.count_append]; omega
        · intro hn
          show t'.length = 0
          have := c.mp hn
          omega
        · show 0 ≤ (-1 : Int) + 1 ∧ (-1 : Int) + 1 ≤ (t'.length : Int)
          omega
        · show t'.length = arr.length
          rw [hl', ht]; rfl
      · left
        have e2 : msgReceive s' none = .fail := by
          unfold msgReceive
          rw [if_neg (by simpa using hm'.mode), if_pos hw]
        rw [e2]; rfl
  · left
    have e0 : ∀ a, msgReceive s a = .fail := by
      intro a
      unfold msgReceive
      rw [if_pos hm]
    cases arr with
    | nil =>
      show Outcome.bind (msgReceive s none) _ = _
      rw [e0]; rfl
    | cons a arr =>
      rw [List.foldlM_cons]
      have : takeOne (s, o.tree) a = .fail := by
        unfold takeOne
        show Outcome.bind (msgReceive s (some a)) _ = _
        rw [e0]; rfl
      rw [this]; rfl

/-- the state before the step to the next message -/
structure Adv (s : St) (o : Ord) : Prop where
  up : s.up = true
  has : Has s.heap (msgBlocks s.peers ++ (s.received.blocks ++ o.blocks))
  pbufs : ∀ m ∈ s.peers, m.buf.Ok ∧ m.buf.cap ≤ 3 * (m.buf.size + 15) / 2
  recv : s.received.Ok
  keys : (s.peers.map Msg.rank).Nodup
  idle : s.mode = .idle → s.peers = []
  calm : s.mode ≠ .exch → s.received = Buf.make ∧ s.heap.busy = []
  busy : s.mode = .exch → s.heap.busy = s.peers.filterMap (fun m => m.buf.start)
  bufs : ∀ m ∈ o.tree, m.buf.Ok
  count : o.count = o.tree.length
  array : o.array = none → o.count = 0
  ready : o.ready = true
  at_ : 0 ≤ o.at_ + 1 ∧ o.at_ + 1 ≤ (o.count : Int)

theorem Prepared.adv {s : St} {o : Ord} (h : Prepared s o) : Adv s o := by
  refine ⟨h.up, ?_, ?_, ?_, ?_, fun _ => h.peers, fun _ => ⟨h.recv, h.busy⟩, (fun hx => by rw [h.mode] at hx; cases hx), h.bufs, h.count, h.array, h.ready, h.at_⟩
  · rw [h.peers, h.recv]; exact h.has
  · rw [h.peers]; intro m hm; cases hm
  · rw [h.recv]; exact make_ok
  · rw [h.peers]; exact List.nodup_nil

theorem Inv.adv {s : St} (h : Inv s) {o : Ord} (ho : s.order = some o) (hr : o.ready = true) : Adv s o := by
  have hok := h.ord o ho
  have hp := hok.pos hr
  refine ⟨h.up, ?_, h.bufs, h.recv, h.keys, h.idle, h.calm, h.busy, hok.bufs, hok.count, hok.array, hr, by omega, by omega⟩
  have := h.has
  rw [ho] at this
  exact this

theorem advance_spec {s : St} {o : Ord} (h : Adv s o) : ∃ s', advance s o = .ok s' ∧ Inv s' ∧ s'.mode = s.mode ∧
    ((∃ o', s'.order = some o' ∧ o'.ready = true) ∨ (o.at_ + 1 = (o.count : Int) ∧ ∃ o', s'.order = some o' ∧ o'.ready = false)) := by
  have hrest : NotBusy s.heap (s.received.blocks ++ o.blocks) := by
    by_cases hm : s.mode = .exch
    · exact notBusy_rest h.has (h.busy hm)
    · exact nil_notBusy (h.calm hm).2 _
  unfold advance
  dsimp only
  by_cases hc : o.at_ + 1 = (o.count : Int)
  · rw [if_pos hc]
    obtain ⟨h1, e1, hh1, hb1⟩ := orderDtor_spec (o := { o with at_ := o.at_ + 1 }) (h := s.heap) (L := (o.self, nodeBytes) :: (msgBlocks s.peers ++ s.received.blocks))
      (h.has.of_perm (by
        unfold Ord.blocks
        exact List.perm_iff_count.mpr fun x => by simp only [List.count_append, List.count_cons, List.count_nil]; omega)) (by
        intro x hx
        apply hrest x
        apply List.mem_append_right
        unfold Ord.blocks
        rw [← List.append_assoc]
        exact List.mem_append_left _ hx)
    rw [e1]
    refine ⟨{ s with order := some ⟨o.self, [], none, 0, false, 0⟩, heap := h1 }, rfl, ?_, rfl, Or.inr ⟨hc, _, rfl, rfl⟩⟩
    refine ⟨h.up, ?_, h.pbufs, h.recv, ?_, h.keys, h.idle, fun hm => ⟨(h.calm hm).1, by rw [← (h.calm hm).2]; exact hb1⟩, fun hm => by rw [← h.busy hm]; exact hb1⟩
    · refine hh1.of_perm ?_
      show List.Perm _ (msgBlocks s.peers ++ (s.received.blocks ++ ([] ++ ([] ++ [(o.self, nodeBytes)]))))
      exact List.perm_iff_count.mpr fun x => by simp only [List.count_append, List.count_cons, List.count_nil]; omega
    · intro o' ho'
      rw [← Option.some.inj ho']
      exact ⟨by simp, rfl, fun _ => rfl, fun _ => ⟨rfl, rfl⟩, fun hx => by cases hx⟩
  · rw [if_neg hc]
    have hok : ({ o with at_ := o.at_ + 1 } : Ord).Ok := by
      refine ⟨h.bufs, h.count, h.array, fun hx => ?_, fun _ => ⟨h.at_.1, ?_⟩⟩
      · rw [h.ready] at hx; cases hx
      · have := h.at_.2
        show o.at_ + 1 < (o.count : Int)
        omega
    have hpos := hok.pos h.ready
    obtain ⟨hk, e⟩ := current_spec hok (h := s.heap) (L := msgBlocks s.peers ++ s.received.blocks) (h.has.of_perm (by
      show List.Perm _ (o.blocks ++ (msgBlocks s.peers ++ s.received.blocks))
      exact List.perm_iff_count.mpr fun x => by simp only [List.count_append]; omega)) hpos.1 hpos.2
    rw [e, Outcome.bind_ok]
    refine ⟨_, rfl, ?_, rfl, Or.inl ⟨_, rfl, h.ready⟩⟩
    refine ⟨h.up, ?_, h.pbufs, h.recv, ?_, h.keys, h.idle, h.calm, h.busy⟩
    · show Has s.heap (msgBlocks s.peers ++ (s.received.blocks ++ (setCurrent _ _).blocks))
      rw [setCurrent_blocks hk (by rfl)]
      exact h.has
    · intro o' ho'
      rw [← Option.some.inj ho']
      exact setCurrent_ok hok ⟨(h.bufs _ (List.getElem_mem hk)).1, Nat.zero_le _⟩

/-! ## the calls -/

theorem listen_keeps {s : St} (h : Inv s) {arr : List (Int × Nat)} (ha : (arr.map Prod.fst).Nodup) : Keeps (listen s arr) := by
  unfold listen
  cases ho : s.order with
  | none =>
    show Keeps (Outcome.bind (msgReceive s arr.head?) _)
    cases arr with
    | nil =>
      rcases receive_none h with e | ⟨h', e, hi, -⟩
      · rw [List.head?_nil, e]; exact keeps_fail
      · rw [List.head?_nil, e]; exact keeps_inv hi
    | cons a arr =>
      obtain ⟨r, n⟩ := a
      rcases receive_some h r n with e | ⟨b', h', e, hi, -⟩
      · rw [List.head?_cons, e]; exact keeps_fail
      · rw [List.head?_cons, e]; exact keeps_inv hi
  | some o =>
    cases hr : o.ready with
    | true =>
      obtain ⟨s', e, hi, -⟩ := advance_spec (h.adv ho hr)
      show Keeps (if o.ready = true then advance s o else _)
      rw [if_pos hr, e]
      exact keeps_inv hi
    | false =>
      show Keeps (if o.ready = true then advance s o else (prepare s o arr) >>= fun x => advance x.1 x.2)
      rw [if_neg (by rw [hr]; simp)]
      rcases prepare_spec h ho hr ha with e | ⟨s', o', e, hp, -⟩
      · rw [e]; exact keeps_fail
      · obtain ⟨s'', e', hi, -⟩ := advance_spec hp.adv
        rw [e, Outcome.bind_ok, e']
        exact keeps_inv hi

theorem inv_current {s : St} (h : Inv s) {o : Ord} (ho : s.order = some o) (hr : o.ready = true) :
    ∃ hk : o.at_.toNat < o.tree.length, current s.heap o = .ok o.tree[o.at_.toNat] := by
  have hok := h.ord o ho
  have hp := hok.pos hr
  have hh := h.has
  rw [ho] at hh
  exact current_spec hok (L := msgBlocks s.peers ++ s.received.blocks) (hh.of_perm (by
    show List.Perm _ (o.blocks ++ (msgBlocks s.peers ++ s.received.blocks))
    exact List.perm_iff_count.mpr fun x => by simp only [List.count_append, ordBlocks]; omega)) hp.1 hp.2

theorem msg_split (l : List Msg) (i : Nat) (hi : i < l.length) : ∃ R, (msgBlocks l).Perm (l[i].buf.blocks ++ R) := by
  obtain ⟨A, B, hAB⟩ := List.append_of_mem (List.getElem_mem hi)
  refine ⟨(l[i].node, nodeBytes) :: (msgBlocks A ++ msgBlocks B), ?_⟩
  conv => lhs; rw [hAB]
  unfold msgBlocks
  rw [List.flatMap_append, List.flatMap_cons]
  unfold Msg.blocks
  exact List.perm_iff_count.mpr fun x => by simp only [List.count_append, List.count_cons, List.count_nil]; omega

theorem unpack_keeps {s : St} (h : Inv s) (ha : ∀ o, s.order = some o → o.ready = true) (n : Nat) : Keeps (unpack s n) := by
  unfold unpack
  cases ho : s.order with
  | none =>
    show Keeps (Outcome.bind (walk s.heap s.received n) _)
    rcases walk_spec h.recv (h := s.heap) (L := msgBlocks s.peers ++ ordBlocks s.order) (h.has.of_perm (by
      exact List.perm_iff_count.mpr fun x => by simp only [List.count_append]; omega)) n with e | ⟨hle, e⟩
    · rw [e]; exact keeps_fail
    · rw [e]
      have key : Inv { s with received := { s.received with size := s.received.size + n } } := by
        by_cases hm : s.mode = .exch
        · exact { h with recv := ⟨h.recv.1, hle⟩, calm := fun hc => absurd hm hc, has := h.has }
        · have hrm := (h.calm hm).1
          have hn : n = 0 := by rw [hrm] at hle; simp [Buf.make] at hle; exact hle
          have : ({ s.received with size := s.received.size + n } : Buf) = s.received := by rw [hn]; rfl
          rw [this]
          exact h
      refine keeps_inv ?_
      have e3 : ({ s with received := { s.received with size := s.received.size + n } } : St) = { s with received := { s.received with size := s.received.size + n }, order := none } := by rw [← ho]
      rw [e3] at key
      exact key
  | some o =>
    have hr := ha o ho
    obtain ⟨hk, e⟩ := inv_current h ho hr
    show Keeps (Outcome.bind (current s.heap o) _)
    rw [e]
    show Keeps (Outcome.bind (walk s.heap o.tree[o.at_.toNat].buf n) _)
    have hok := h.ord o ho
    obtain ⟨R, hR⟩ := msg_split o.tree _ hk
    have hh := h.has
    rw [ho] at hh
    rcases walk_spec (hok.bufs _ (List.getElem_mem hk)) (h := s.heap) (L := R ++ (optBlock o.array (8 * o.count) ++ [(o.self, nodeBytes)]) ++ (msgBlocks s.peers ++ s.received.blocks)) (hh.of_perm (by
      refine List.perm_iff_count.mpr fun x => ?_
      have := List.perm_iff_count.mp hR x
      simp only [List.count_append, ordBlocks, Ord.blocks] at this ⊢
      omega)) n with e2 | ⟨hle, e2⟩
    · rw [e2]; exact keeps_fail
    · rw [e2]
      refine keeps_inv { h with has := ?_, ord := ?_ }
      · show Has s.heap (msgBlocks s.peers ++ (s.received.blocks ++ (setCurrent _ _).blocks))
        rw [setCurrent_blocks hk (by rfl)]
        exact hh
      · intro o' ho'
        rw [← Option.some.inj ho']
        exact setCurrent_ok hok ⟨(hok.bufs _ (List.getElem_mem hk)).1, hle⟩

theorem ask_keeps {s : St} (h : Inv s) (ha : ∀ o, s.order = some o → o.ready = true) : Keeps (ask s) := by
  unfold ask
  cases ho : s.order with
  | none => exact keeps_inv h
  | some o =>
    obtain ⟨hk, e⟩ := inv_current h ho (ha o ho)
    show Keeps (Outcome.bind (current s.heap o) _)
    rw [e]
    exact keeps_inv h

theorem unpacked_keeps {s : St} (h : Inv s) : Keeps (unpacked s) := by
  unfold unpacked
  cases ho : s.order with
  | none => exact keeps_inv h
  | some o =>
    cases hr : o.ready with
    | true =>
      obtain ⟨hk, e⟩ := inv_current h ho hr
      show Keeps (if o.ready = true then Outcome.bind (current s.heap o) _ else _)
      rw [if_pos hr, e]
      exact keeps_inv h
    | false =>
      show Keeps (if o.ready = true then _ else _)
      rw [if_neg (by rw [hr]; simp)]
      exact keeps_inv h

theorem collSteps_spec (n k : Nat) {h : Heap} {L : List (Nat × Nat)} (hh : Has h L) (hb : ∀ x ∈ h.busy, x < h.next) :
    ∃ h', collSteps n k h = .ok h' ∧ Has h' L ∧ h'.busy = h.busy ∧ h.next ≤ h'.next := by
  induction k generalizing h with
  | zero => exact ⟨h, rfl, hh, rfl, Nat.le_refl _⟩
  | succ k ih =>
    unfold collSteps
    by_cases hn : n = 0
    · subst hn
      have e1 : resize h Buf.make 0 = .ok (Buf.make, h) := rfl
      rw [e1, Outcome.bind_ok]
      have e2 : h.touch Buf.make.start 0 0 = .ok () := rfl
      rw [e2, Outcome.bind_ok]
      show ∃ h', Outcome.bind (.ok h) _ = _ ∧ _
      exact ih hh hb
    · obtain ⟨e, hh1⟩ := hh.malloc hn
      have e1 : resize h Buf.make n = .ok (⟨some h.next, n, n⟩, { h with next := h.next + 1, live := (h.next, n) :: h.live }) := by
        unfold resize
        rw [if_neg (by intro hc; exact hn hc.1.symm)]
        show Outcome.bind (Outcome.ok (h.malloc n)) _ = _
        rw [e]; rfl
      rw [e1, Outcome.bind_ok]
      dsimp only
      rw [Has.touch (n := n) (p := some h.next) hh1 (by simp) (by omega), Outcome.bind_ok]
      obtain ⟨h2, e2, hh2, hb2⟩ := hh1.free (by
        show h.next ∉ h.busy
        intro hc
        have := hb _ hc
        omega)
      have hn2 : h2.next = h.next + 1 := by
        simp only [Heap.free] at e2
        split at e2
        · injection e2 with e2
          rw [← e2]
        · exact absurd e2 (by simp)
      rw [e2, Outcome.bind_ok]
      obtain ⟨h3, e3, hh3, hb3, hn3⟩ := ih hh2 (by
        intro x hx
        rw [hb2] at hx
        have := hb x hx
        omega)
      exact ⟨h3, e3, hh3, by rw [hb3, hb2], by omega⟩

theorem Inv.busyBelow {s : St} (h : Inv s) : ∀ x ∈ s.heap.busy, x < s.heap.next := by
  intro x hx
  by_cases hm : s.mode = .exch
  · rw [h.busy hm, List.mem_filterMap] at hx
    obtain ⟨m, hmm, hs⟩ := hx
    refine h.has.below (x, m.buf.cap) (h.has.perm.mem_iff.mpr (List.mem_append_left _ (List.mem_flatMap.mpr ⟨m, hmm, ?_⟩)))
    simp [Msg.blocks, Buf.blocks, hs, optBlock]
  · rw [(h.calm hm).2] at hx
    cases hx

theorem Inv.withHeap {s : St} (h : Inv s) {h' : Heap} (hh : Has h' (msgBlocks s.peers ++ (s.received.blocks ++ ordBlocks s.order))) (hb : h'.busy = s.heap.busy) :
    Inv { s with heap := h' } :=
  { h with has := hh, calm := fun hm => ⟨(h.calm hm).1, hb.trans (h.calm hm).2⟩, busy := fun hm => hb.trans (h.busy hm) }

theorem exscan_spec (n k : Nat) {h : Heap} {L : List (Nat × Nat)} (hh : Has h L) (hb : ∀ x ∈ h.busy, x < h.next) :
    ∃ h', exscan n k h = .ok h' ∧ Has h' L ∧ h'.busy = h.busy := by
  unfold exscan
  dsimp only
  by_cases hn : n = 0
  · subst hn
    have e0 : h.malloc 0 = (none, h) := rfl
    have e1 : h.touch none 0 0 = .ok () := rfl
    rw [e0]
    dsimp only
    rw [e1, Outcome.bind_ok]
    obtain ⟨h', e, hh', hb', -⟩ := collSteps_spec 0 k hh hb
    rw [e, Outcome.bind_ok]
    exact ⟨h', rfl, hh', hb'⟩
  · obtain ⟨e, hh1⟩ := hh.malloc hn
    rw [e]
    dsimp only
    rw [Has.touch (n := n) (p := some h.next) hh1 (by simp) (by omega), Outcome.bind_ok]
    obtain ⟨h2, e2, hh2, hb2, hn2⟩ := collSteps_spec n k hh1 (by
      intro x hx
      have := hb x hx
      show x < h.next + 1
      omega)
    rw [e2, Outcome.bind_ok, Has.touch (n := n) (p := some h.next) hh2 (by simp) (by omega), Outcome.bind_ok]
    obtain ⟨h3, e3, hh3, hb3⟩ := hh2.free (by
      rw [hb2]
      show h.next ∉ h.busy
      intro hc
      have := hb _ hc
      omega)
    exact ⟨h3, e3, hh3, by rw [hb3, hb2]⟩

/-- every allowed call keeps the books or stops with a message -/
theorem step_keeps (P : Nat) {s : St} (h : Books s) (c : Call) (ha : Allowed s c) : Keeps (step P s c) := by
  rcases h with h | ⟨hup, hh, hb⟩
  · have hu := h.up
    cases c with
    | init => exact init_keeps (Or.inl h)
    | free =>
      show Keeps (if s.up = true then commFree s else .fail)
      rw [if_pos hu]
      obtain ⟨s', e, h1, h2, h3⟩ := commFree_keeps h ha
      rw [e]
      exact Or.inr ⟨s', rfl, Or.inr ⟨h1, h2, h3⟩⟩
    | order on =>
      show Keeps (if s.up = true then setOrder on s else .fail)
      rw [if_pos hu]
      obtain ⟨s', e, hi, -⟩ := setOrder_keeps h on
      rw [e]; exact keeps_inv hi
    | begin =>
      show Keeps (if s.up = false then .fail else if s.mode ≠ .idle then .fail else .ok { s with mode := .pack })
      rw [if_neg (by rw [hu]; simp)]
      by_cases hm : s.mode = .idle
      · rw [if_neg (by simpa using hm)]
        have hne : s.mode ≠ .exch := by rw [hm]; simp
        exact keeps_inv { h with idle := (fun hc => by cases hc), calm := fun _ => h.calm hne, busy := (fun hc => by cases hc) }
      · rw [if_pos hm]; exact keeps_fail
    | pack q n =>
      show Keeps (if s.up = false then .fail else if q < 0 ∨ (P : Int) ≤ q then .fail else if s.mode ≠ .pack then .fail else packTo s q n)
      rw [if_neg (by rw [hu]; simp)]
      split
      · exact keeps_fail
      · by_cases hm : s.mode = .pack
        · rw [if_neg (by simpa using hm)]
          obtain ⟨s', e, hi, -⟩ := packTo_keeps h hm q n
          rw [e]; exact keeps_inv hi
        · rw [if_pos hm]; exact keeps_fail
    | packed q =>
      show Keeps (if s.up = false then .fail else if q < 0 ∨ (P : Int) ≤ q then .fail else if s.mode ≠ .pack then .fail else
        if (s.peers.find? (fun m => decide (m.rank = q))).isNone then .fail else .ok s)
      split
      · exact keeps_fail
      · split
        · exact keeps_fail
        · split
          · exact keeps_fail
          · split
            · exact keeps_fail
            · exact keeps_inv h
    | send =>
      show Keeps (if s.up = false then .fail else if s.mode ≠ .pack then .fail else sendAll s)
      rw [if_neg (by rw [hu]; simp)]
      by_cases hm : s.mode = .pack
      · rw [if_neg (by simpa using hm)]
        obtain ⟨s', e, hi⟩ := sendAll_keeps h hm
        rw [e]; exact keeps_inv hi
      · rw [if_pos hm]; exact keeps_fail
    | listen arr =>
      show Keeps (if s.up = true then listen s arr else .fail)
      rw [if_pos hu]; exact listen_keeps h ha
    | unpack n =>
      show Keeps (if s.up = true then unpack s n else .fail)
      rw [if_pos hu]; exact unpack_keeps h ha n
    | sender =>
      show Keeps (if s.up = true then ask s else .fail)
      rw [if_pos hu]; exact ask_keeps h ha
    | received =>
      show Keeps (if s.up = true then ask s else .fail)
      rw [if_pos hu]; exact ask_keeps h ha
    | unpacked =>
      show Keeps (if s.up = true then unpacked s else .fail)
      rw [if_pos hu]; exact unpacked_keeps h
    | coll n k =>
      show Keeps (if s.up = true then Outcome.bind (collSteps n k s.heap) _ else .fail)
      rw [if_pos hu]
      obtain ⟨h', e, hh', hb', -⟩ := collSteps_spec n k h.has h.busyBelow
      rw [e]; exact keeps_inv (h.withHeap hh' hb')
    | exscan n k =>
      show Keeps (if s.up = true then Outcome.bind (exscan n k s.heap) _ else .fail)
      rw [if_pos hu]
      obtain ⟨h', e, hh', hb'⟩ := exscan_spec n k h.has h.busyBelow
      rw [e]; exact keeps_inv (h.withHeap hh' hb')
  · cases c with
    | init => exact init_keeps (Or.inr ⟨hup, hh, hb⟩)
    | _ =>
      unfold step
      rw [hup]
      exact keeps_fail

end Verif.Pcu.Store
