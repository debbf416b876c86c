import Verif.Part.QueueModel
import Verif.Agi.ResidenceProps
/-!
# Lemmas on the iteration queue
-/
namespace Verif.Part
open Verif.Agi

/-- the queue has room for `cap` elements, sweeps over `C` and has kept `N` for the next sweep -/
structure QRep (q : Queue) (cap : Nat) (C N : List Handle) : Prop where
  curLen : cap ≤ q.cur.length
  nextLen : cap ≤ q.next.length
  size : q.size = C.length
  nsize : q.nextSize = N.length
  cur : ∀ i (h : i < C.length), q.cur[i]? = some (some C[i])
  next : ∀ i (h : i < N.length), q.next[i]? = some (some N[i])

theorem QRep.new (n : Nat) : QRep (Queue.new n) n [] [] :=
  ⟨by simp [Queue.new], by simp [Queue.new], rfl, rfl, by simp, by simp⟩

theorem QRep.mono {q : Queue} {cap cap' : Nat} {C N : List Handle} (h : QRep q cap C N) (hc : cap' ≤ cap) : QRep q cap' C N :=
  ⟨Nat.le_trans hc h.curLen, Nat.le_trans hc h.nextLen, h.size, h.nsize, h.cur, h.next⟩

theorem QRep.add {q : Queue} {cap : Nat} {C N : List Handle} (h : QRep q cap C N) (e : Handle) (hl : N.length < cap) :
    ∃ q', q.add e = .ok q' ∧ QRep q' cap C (N ++ [e]) := by
  unfold Queue.add
  rw [Mem.store_ok _ (by rw [h.nsize]; exact Nat.lt_of_lt_of_le hl h.nextLen), Outcome.bind_ok]
  refine ⟨_, rfl, h.curLen, by simpa using h.nextLen, h.size, by simp [h.nsize], h.cur, ?_⟩
  intro i hi
  rw [Mem.getElem?_set']
  by_cases hie : q.nextSize = i
  · rw [if_pos hie, if_pos (by rw [h.nsize]; exact Nat.lt_of_lt_of_le hl h.nextLen)]
    subst hie
    simp [h.nsize]
  · rw [if_neg hie]
    rw [h.nsize] at hie
    rw [List.length_append, List.length_singleton] at hi
    have hlt : i < N.length := by omega
    rw [h.next i hlt, List.getElem_append_left hlt]

theorem QRep.start {q : Queue} {cap : Nat} {C N : List Handle} (h : QRep q cap C N) : QRep q.start cap N [] :=
  ⟨h.nextLen, h.curLen, h.nsize, rfl, h.next, by simp⟩

theorem QRep.get {q : Queue} {cap : Nat} {C N : List Handle} (h : QRep q cap C N) {i : Nat} (hi : i < C.length) :
    q.get i = .ok C[i] := Mem.load_ok (h.cur i hi)

/-! ## boundary edges -/

theorem boundaryLoop_eq {g : Graph} : ∀ (os : List Part) (it : PinIt), Rounds g it os →
    boundaryLoop g os.length it = .ok (decide (∃ o ∈ os, o ≠ g.self)) := by
  intro os
  induction os with
  | nil => intro it _; simp [boundaryLoop]
  | cons o os ih =>
    intro it ⟨it', h, hr⟩
    rw [List.length_cons, boundaryLoop, h, Outcome.bind_ok]
    simp only
    by_cases ho : o = g.self
    · rw [if_neg (by simpa using ho), ih it' hr]
      congr 1
      simp [ho]
    · rw [if_pos ho]
      simp [ho]

/-- some pin of the edge is owned by another part -/
def Crosses (me : Part) (own : Gid → Part) (pins : List Gid) : Prop := ∃ v ∈ pins, own v ≠ me

instance (me : Part) (own : Gid → Part) (pins : List Gid) : Decidable (Crosses me own pins) := by
  unfold Crosses; infer_instance

theorem onBoundary_hyper {g : Graph} {verts ghosts : List Gid} {types : List EdgeInput} {own : Gid → Part}
    (hc : CRep g true verts ghosts types) (ho : ORep g ghosts own) {t : Nat} (ht : t < types.length)
    {k : Nat} (hk : k < types[t].pins.length) :
    onBoundary g (g.getEdge k t) = .ok (decide (Crosses g.self (ownerOf g.self verts own) types[t].pins[k])) := by
  obtain ⟨it, hp, hy⟩ := yields_pins_hyper hc ht hk
  have hmem : ∀ v ∈ types[t].pins[k], v ∈ verts ++ ghosts := fun v hv =>
    hc.pins t ht v (List.mem_flatten.mpr ⟨_, List.getElem_mem hk, hv⟩)
  let ownH : Handle → Part := fun h => ownerOf g.self verts own ((verts ++ ghosts).getD (h - 1) 0)
  have hownH : ∀ v ∈ types[t].pins[k], ownH (getVertex ((verts ++ ghosts).idxOf v)) =
      ownerOf g.self verts own v := by
    intro v hv
    have hlt := List.idxOf_lt_length_of_mem (hmem v hv)
    simp only [ownH, getVertex, Nat.add_sub_cancel]
    rw [List.getD_eq_getElem?_getD, List.getElem?_eq_getElem hlt, List.getElem_idxOf]; rfl
  have hown : ∀ h ∈ types[t].pins[k].map (fun v => getVertex ((verts ++ ghosts).idxOf v)),
      g.owner h = .ok (ownH h) := by
    intro h hh
    obtain ⟨v, hv, rfl⟩ := List.mem_map.mp hh
    rw [owner_eq hc.v ho (hmem v hv), hownH v hv]
  have hrd := rounds_of_yields ownH _ it hy hown
  have hos : (types[t].pins[k].map (fun v => getVertex ((verts ++ ghosts).idxOf v))).map ownH =
      types[t].pins[k].map (ownerOf g.self verts own) := by
    rw [List.map_map]
    exact List.map_congr_left (fun v hv => hownH v hv)
  rw [hos] at hrd
  unfold onBoundary
  rw [hp, Outcome.bind_ok, degreeE_hyper hc ht hk, Outcome.bind_ok]
  have hl : ((types[t].pins[k].length : Int)).toNat = (types[t].pins[k].map (ownerOf g.self verts own)).length := by simp
  rw [hl, boundaryLoop_eq _ it hrd]
  congr 1
  simp [Crosses]

theorem onBoundary_trad {g : Graph} {verts ghosts : List Gid} {types : List EdgeInput} {own : Gid → Part}
    (hc : CRep g false verts ghosts types) (ho : ORep g ghosts own) {t : Nat} (ht : t < types.length)
    {u : Nat} (hu : u < verts.length) {k : Nat}
    (hk : k < (adjOf false (verts ++ ghosts) types[t].pins verts[u]).length) {w : Gid}
    (hw : w ∈ verts ++ ghosts)
    (hadj : (adjOf false (verts ++ ghosts) types[t].pins verts[u])[k] = (verts ++ ghosts).idxOf w) :
    onBoundary g (g.getEdge (offs (fun u => degOf false types[t].pins (verts.getD u 0)) u + k) t) =
      .ok (decide (Crosses g.self (ownerOf g.self verts own) [verts[u], w])) := by
  have hp := pins_trad hc ht hu hk
  rw [hadj] at hp
  have hou : ownerOf g.self verts own verts[u] = g.self := by simp [ownerOf]
  have hd : g.degreeE (g.getEdge (offs (fun u => degOf false types[t].pins (verts.getD u 0)) u + k) t) =
      .ok 2 := by unfold Graph.degreeE; rw [if_pos hc.hyp]
  have h1 := owner_local hc.v hu
  have h2 := owner_eq hc.v ho hw
  have hnull : g.owner 0 = .ok g.self := by simp [Graph.owner, fromPtr]
  have hr : Rounds g ⟨t, getVertex u, getVertex ((verts ++ ghosts).idxOf w)⟩
      [g.self, ownerOf g.self verts own w] := by
    by_cases heq : getVertex u = getVertex ((verts ++ ghosts).idxOf w)
    · have how : ownerOf g.self verts own w = g.self := by
        rw [← heq, h1] at h2
        simpa using h2.symm
      refine ⟨⟨t, 0, 0⟩, ?_, ⟨⟨t, 0, 0⟩, ?_, trivial⟩⟩
      · unfold Graph.nextOwner Graph.iterPin
        rw [← heq]
        simp only [hc.hyp, Bool.false_eq_true, if_false, if_true, Outcome.bind_ok]
        rw [h1]; rfl
      · unfold Graph.nextOwner Graph.iterPin
        simp only [hc.hyp, Bool.false_eq_true, if_false, if_true, Outcome.bind_ok]
        rw [hnull, how]; rfl
    · refine ⟨⟨t, getVertex ((verts ++ ghosts).idxOf w), getVertex ((verts ++ ghosts).idxOf w)⟩, ?_,
        ⟨⟨t, 0, 0⟩, ?_, trivial⟩⟩
      · unfold Graph.nextOwner Graph.iterPin
        simp only [hc.hyp, Bool.false_eq_true, if_false, heq, Outcome.bind_ok]
        rw [h1]; rfl
      · unfold Graph.nextOwner Graph.iterPin
        simp only [hc.hyp, Bool.false_eq_true, if_false, if_true, Outcome.bind_ok]
        rw [h2]; rfl
  unfold onBoundary
  rw [hp, Outcome.bind_ok, hd, Outcome.bind_ok]
  have := boundaryLoop_eq _ _ hr
  simp only [List.length_cons, List.length_nil] at this
  rw [show (2 : Int).toNat = 0 + 1 + 1 from rfl, this]
  congr 1
  simp [Crosses, hou]

/-! ## the creation of the queue -/

theorem count_loop {g : Graph} {P : Handle → Bool} : ∀ (hs : List Handle) (n : Nat),
    (∀ h ∈ hs, onBoundary g h = .ok (P h)) →
    loopList (countBoundary g) hs n = .ok (n + (hs.filter P).length)
  | [], n, _ => rfl
  | h :: hs, n, hb => by
    have h0 := hb h (by simp)
    have ih := fun n => count_loop (P := P) hs n (fun x hx => hb x (by simp [hx]))
    have hbody : countBoundary g n h = .ok (if P h = true then n + 1 else n, false) := by
      unfold countBoundary
      rw [h0, Outcome.bind_ok]
      split <;> rfl
    rw [loopList, hbody, Outcome.bind_ok]
    simp only [Bool.false_eq_true, if_false]
    rw [ih, List.filter_cons]
    split
    · simp; omega
    · simp

theorem fill_loop {g : Graph} {P : Handle → Bool} {cap : Nat} : ∀ (hs : List Handle) (q : Queue) (C N : List Handle),
    (∀ h ∈ hs, onBoundary g h = .ok (P h)) → QRep q cap C N → N.length + (hs.filter P).length ≤ cap →
    ∃ q', loopList (fillBoundary g) hs q = .ok q' ∧ QRep q' cap C (N ++ hs.filter P)
  | [], q, C, N, _, hq, _ => ⟨q, rfl, by simpa using hq⟩
  | h :: hs, q, C, N, hb, hq, hl => by
    have h0 := hb h (by simp)
    by_cases hP : P h = true
    · rw [List.filter_cons, if_pos hP] at hl ⊢
      simp only [List.length_cons] at hl
      obtain ⟨q1, e1, hq1⟩ := hq.add h (by omega)
      obtain ⟨q2, e2, hq2⟩ := fill_loop (g := g) (P := P) hs q1 C (N ++ [h]) (fun x hx => hb x (by simp [hx])) hq1
        (by simp; omega)
      have hbody : fillBoundary g q h = .ok (q1, false) := by
        unfold fillBoundary
        rw [h0, Outcome.bind_ok, if_pos hP, e1]; rfl
      refine ⟨q2, ?_, by simpa using hq2⟩
      rw [loopList, hbody, Outcome.bind_ok]
      exact e2
    · rw [List.filter_cons, if_neg hP] at hl ⊢
      obtain ⟨q2, e2, hq2⟩ := fill_loop (g := g) (P := P) hs q C N (fun x hx => hb x (by simp [hx])) hq hl
      have hbody : fillBoundary g q h = .ok (q, false) := by
        unfold fillBoundary
        rw [h0, Outcome.bind_ok, if_neg hP]; rfl
      refine ⟨q2, ?_, hq2⟩
      rw [loopList, hbody, Outcome.bind_ok]
      exact e2

theorem iterationQueue_eq {g : Graph} {hs : List Handle} {P : Handle → Bool}
    (hy : YieldsFrom (g.edgeBegin 0) g.iterEdge hs) (hb : hs.length < g.bound)
    (hP : ∀ h ∈ hs, onBoundary g h = .ok (P h)) :
    ∃ q, iterationQueue g = .ok q ∧ QRep q (hs.filter P).length [] (hs.filter P) := by
  obtain ⟨it, e1, hy⟩ := hy
  unfold iterationQueue
  rw [e1, Outcome.bind_ok, iterLoop_yields _ _ _ _ _ hy hb, count_loop hs 0 hP, Outcome.bind_ok, Outcome.bind_ok,
    iterLoop_yields _ _ _ _ _ hy hb]
  obtain ⟨q, e2, hq⟩ := fill_loop (P := P) hs _ [] [] hP (QRep.new (0 + (hs.filter P).length)) (by simp)
  simp only [Nat.zero_add, List.nil_append] at e2 hq ⊢
  exact ⟨q, e2, hq⟩

/-! ## sweeps -/

theorem sweep_spec {keep : Handle → Option Bool} {cap : Nat} {C : List Handle} : ∀ (n i : Nat) (q : Queue)
    (N : List Handle), i + n = C.length → QRep q cap C N → N.length ≤ i → C.length ≤ cap →
    ∃ q', sweepFrom keep n i q = .ok q' ∧
      QRep q' cap C (N ++ ((C.drop i).takeWhile (fun e => (keep e).isSome)).filter (fun e => keep e == some true))
  | 0, i, q, N, hi, hq, _, _ => by
    refine ⟨q, rfl, ?_⟩
    rw [List.drop_eq_nil_of_le (by omega)]
    simpa using hq
  | n + 1, i, q, N, hi, hq, hN, hC => by
    have hlt : i < C.length := by omega
    unfold sweepFrom
    rw [hq.get hlt, Outcome.bind_ok]
    rw [List.drop_eq_getElem_cons hlt]
    cases hk : keep C[i] with
    | none =>
      refine ⟨q, rfl, ?_⟩
      rw [List.takeWhile_cons_of_neg (by simp [hk])]
      simpa using hq
    | some b =>
      cases b with
      | true =>
        obtain ⟨q1, e1, hq1⟩ := hq.add C[i] (by omega)
        obtain ⟨q2, e2, hq2⟩ := sweep_spec (keep := keep) n (i + 1) q1 (N ++ [C[i]]) (by omega) hq1 (by simp; omega) hC
        simp only
        rw [e1, Outcome.bind_ok]
        refine ⟨q2, e2, ?_⟩
        rw [List.takeWhile_cons_of_pos (by simp [hk]), List.filter_cons_of_pos (by simp [hk])]
        rwa [List.append_assoc] at hq2
      | false =>
        obtain ⟨q2, e2, hq2⟩ := sweep_spec (keep := keep) n (i + 1) q N (by omega) hq (by omega) hC
        refine ⟨q2, e2, ?_⟩
        rw [List.takeWhile_cons_of_pos (by simp [hk]), List.filter_cons_of_neg (by simp [hk])]
        exact hq2

end Verif.Part
