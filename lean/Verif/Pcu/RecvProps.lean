import Verif.Pcu.RecvStreams
import Verif.Pcu.PhaseProps
import Verif.Agi.DistModel
import Mathlib.Data.List.Perm.Basic
import Mathlib.Data.List.Nodup
/-!
# C66: the receiving loop reads exactly the records that were packed for the rank

This file joins the pieces proved about PCU: buffers (C25), ordering (C27), phases (C28), the calls of one
rank (C29), and arrives at `Verif.Agi.exchange`, the communication step used in the models of the graph library.
-/
namespace Verif.Pcu.Recv
open Verif.Pcu.Api

/-! ## specification -/

/-- a loop body that undoes the packing of a (valid) record, whatever bytes follow it, and a packing that takes
at least one byte -/
structure Codec {α : Type} (V : α → Prop) (enc : α → List UInt8) (rd : Reader α) : Prop where
  nonempty : ∀ x, V x → enc x ≠ []
  parse : ∀ x rest, V x → rd.parse (enc x ++ rest) = some (x, rest)

/-- in phase `p` the ranks packed the records `outs` (destination and record, in program order), each with as
many `PCU_Comm_Pack` calls as they liked -/
def Packed {α : Type} (enc : α → List UInt8) (N : Nat) (st : Phase.State UInt8) (p : Nat)
    (outs : List (List (Int × α))) : Prop :=
  ∀ s d, s < N → d < N → (Phase.pieces st s d p).flatten =
    ((outs.getD s []).filter (fun m => decide (m.1 = (d : Int)))).flatMap (fun m => enc m.2)

/-- messages as they arrive at a rank -/
def arrivalsOf (l : List (Phase.Msg UInt8)) : List Arrival := l.map (fun m => ⟨(m.src : Int), m.data⟩)

/-- after `PCU_Comm_Send`, before the first message is read; ordering on -/
def Listening (s : St) : Prop :=
  s.inited = true ∧ s.mode = .receiving ∧ s.order = some Order.init ∧ s.received.walked = true

/-- the same with ordering off -/
def ListeningAny (s : St) : Prop :=
  s.inited = true ∧ s.mode = .receiving ∧ s.order = none ∧ s.received.walked = true ∧
    ∃ msg k, Buffer.Reading s.received msg k

/-! ## helpers -/

theorem flatMap_filter_of {β γ : Type} (p : β → Bool) (g : β → List γ) : ∀ l : List β,
    (∀ x ∈ l, p x = false → g x = []) → (l.filter p).flatMap g = l.flatMap g := by
  intro l
  induction l with
  | nil => intro _; rfl
  | cons x l ih =>
    intro h
    have ih := ih (fun y hy => h y (by simp [hy]))
    cases hp : p x with
    | true => simp [List.filter_cons, hp, ih]
    | false => simp [List.filter_cons, hp, ih, h x (by simp) hp]

theorem eq_of_sorted : ∀ l l' : List Nat, l.Perm l' → l.Pairwise (· < ·) → l'.Pairwise (· < ·) → l = l' := by
  intro l l' hp h h'
  exact List.Perm.eq_of_pairwise (le := fun a b => a < b) (fun a b _ _ h1 h2 => by omega) h h' hp

section
variable {α : Type} {V : α → Prop} {enc : α → List UInt8} {rd : Reader α} {N K n : Nat} {st : Phase.State UInt8} {r p : Nat}
  {outs : List (List (Int × α))}

/-- the records rank `s` sends to rank `r` -/
def recsTo (outs : List (List (Int × α))) (r s : Nat) : List α :=
  ((outs.getD s []).filter (fun m => decide (m.1 = (r : Int)))).map (fun m => m.2)

theorem src_facts (h : Phase.Reach N K n st) (hr : r < N) (he : Phase.Ended st r p) :
    ((Phase.received st r p).map (fun m => m.src)).Nodup ∧
    (∀ s, s ∈ (Phase.received st r p).map (fun m => m.src) ↔ s < N ∧ Phase.pieces st s r p ≠ []) ∧
    ∀ m ∈ Phase.received st r p, m.data = (Phase.pieces st m.src r p).flatten := by
  obtain ⟨hnd, hmem⟩ := Phase.c28_exact h hr he
  have hdata : ∀ m ∈ Phase.received st r p, m.data = (Phase.pieces st m.src r p).flatten := by
    intro m hm
    obtain ⟨h1, h2, -, -, -, h3⟩ := (hmem m).mp hm
    rw [h3, h1, h2]
  refine ⟨?_, ?_, hdata⟩
  · refine List.Nodup.map_on ?_ hnd
    intro a ha b hb hab
    have ha' := (hmem a).mp ha
    have hb' := (hmem b).mp hb
    have hda := hdata a ha
    have hdb := hdata b hb
    rw [hab] at hda
    cases a; cases b
    simp only at ha' hb' hda hdb hab
    simp only [Phase.Msg.mk.injEq]
    exact ⟨hab, ha'.1.trans hb'.1.symm, hda.trans hdb.symm, ha'.2.1.trans hb'.2.1.symm⟩
  · intro s
    simp only [List.mem_map]
    constructor
    · rintro ⟨m, hm, rfl⟩
      obtain ⟨h1, h2, h3, -, h4, -⟩ := (hmem m).mp hm
      rw [h1, h2] at h4
      exact ⟨h3, h4⟩
    · rintro ⟨hs, hp⟩
      exact ⟨⟨s, r, (Phase.pieces st s r p).flatten, p⟩, (hmem _).mpr ⟨rfl, rfl, hs, hr, hp, rfl⟩, rfl⟩

theorem recs_bytes (hpk : Packed enc N st p outs) {s : Nat} (hs : s < N) (hr : r < N) :
    (Phase.pieces st s r p).flatten = (recsTo outs r s).flatMap enc := by
  rw [hpk s r hs hr, recsTo, List.flatMap_map]

theorem recs_valid (hv : ∀ o ∈ outs, ∀ m ∈ o, V m.2) (s : Nat) : ∀ x ∈ recsTo outs r s, V x := by
  intro x hx
  simp only [recsTo, List.mem_map, List.mem_filter] at hx
  obtain ⟨m, ⟨hm, -⟩, rfl⟩ := hx
  by_cases hs : s < outs.length
  · rw [List.getD_eq_getElem?_getD, List.getElem?_eq_getElem hs] at hm
    exact hv _ (List.getElem_mem hs) m hm
  · rw [List.getD_eq_getElem?_getD, List.getElem?_eq_none (by omega)] at hm
    simp at hm

theorem recs_nil (hc : Codec V enc rd) (hv : ∀ o ∈ outs, ∀ m ∈ o, V m.2) (hpk : Packed enc N st p outs) {s : Nat} (hs : s < N) (hr : r < N)
    (h0 : Phase.pieces st s r p = []) : recsTo outs r s = [] := by
  have h1 := recs_bytes hpk hs hr
  rw [h0] at h1
  cases hl : recsTo outs r s with
  | nil => rfl
  | cons x l =>
    rw [hl, List.flatMap_cons] at h1
    have := hc.nonempty x (recs_valid (r := r) hv s x (by rw [hl]; simp))
    simp at h1
    exact absurd h1.1 this

/-- any reordering of the arrivals: the loop's result -/
theorem drained_eq (h : Phase.Reach N K n st) (hr : r < N) (he : Phase.Ended st r p)
    (hc : Codec V enc rd) (hv : ∀ o ∈ outs, ∀ m ∈ o, V m.2) (hpk : Packed enc N st p outs) (del : List Arrival)
    (hdel : del.Perm (arrivalsOf (Phase.received st r p))) :
    (∀ a ∈ del, a.bytes = (recsTo outs r a.sender.toNat).flatMap enc) ∧
    ∃ ss : List Nat, ss = del.map (fun a => a.sender.toNat) ∧ ss.Nodup ∧ (∀ s ∈ ss, s < N) ∧
      (∀ s, s < N → s ∉ ss → recsTo outs r s = []) ∧
      (∀ a ∈ del, a.sender = (a.sender.toNat : Int)) ∧
      del.flatMap (fun a => (recsTo outs r a.sender.toNat).map (fun x => (a.sender, x))) =
        ss.flatMap (fun s => (recsTo outs r s).map (fun x => ((s : Int), x))) := by
  obtain ⟨hnd, hmem, hdata⟩ := src_facts h hr he
  have hof : ∀ a ∈ del, ∃ m ∈ Phase.received st r p, a = ⟨(m.src : Int), m.data⟩ := by
    intro a ha
    have := hdel.mem_iff.mp ha
    simp only [arrivalsOf, List.mem_map] at this
    obtain ⟨m, hm, rfl⟩ := this
    exact ⟨m, hm, rfl⟩
  have hss : (del.map (fun a => a.sender.toNat)).Perm ((Phase.received st r p).map (fun m => m.src)) := by
    have := hdel.map (fun a : Arrival => a.sender.toNat)
    simpa [arrivalsOf, Function.comp_def] using this
  refine ⟨?_, _, rfl, hss.nodup_iff.mpr hnd, ?_, ?_, ?_, ?_⟩
  · intro a ha
    obtain ⟨m, hm, rfl⟩ := hof a ha
    have hlt : m.src < N := ((hmem m.src).mp (List.mem_map.mpr ⟨m, hm, rfl⟩)).1
    simp only [Int.toNat_natCast]
    rw [hdata m hm]; exact recs_bytes hpk hlt hr
  · intro s hs
    exact ((hmem s).mp (hss.mem_iff.mp hs)).1
  · intro s hs hns
    apply recs_nil hc hv hpk hs hr
    by_contra h0
    exact hns (hss.mem_iff.mpr ((hmem s).mpr ⟨hs, h0⟩))
  · intro a ha
    obtain ⟨m, hm, rfl⟩ := hof a ha
    simp
  · rw [List.flatMap_map]
    apply List.flatMap_congr
    intro a ha
    obtain ⟨m, hm, rfl⟩ := hof a ha
    simp

theorem inbox_eq (order : List Nat) :
    (Agi.inbox outs order r).map (fun x => ((x.1 : Int), x.2)) =
      order.flatMap (fun s => (recsTo outs r s).map (fun x => ((s : Int), x))) := by
  unfold Agi.inbox
  rw [List.map_flatMap]
  apply List.flatMap_congr
  intro s _
  simp [recsTo, Function.comp_def]

/-! ## the theorems -/

/-- **C66 (ordering on, the default).**  A job of `N` ranks runs phases; in phase `p` the ranks pack the
records `outs` for each other, under any schedule.  When rank `r`'s loop
`while (PCU_Comm_Receive()) { … }` runs, with a body that unpacks one record, then it ends; the records it has
read are exactly those packed for rank `r` in this phase, each once, with the rank that sent it, grouped by sender in
increasing order and in the order of packing for each sender - what the models of the graph library call
`exchange`.  Nothing depends on the order of arrival.  The library is then ready for the next phase. -/
theorem c66_ordered (h : Phase.Reach N K n st) (hr : r < N) (he : Phase.Ended st r p)
    (hc : Codec V enc rd) (hv : ∀ o ∈ outs, ∀ m ∈ o, V m.2) (hpk : Packed enc N st p outs)
    (w : World) (hw : Listening w.st) (hrest : w.rest = arrivalsOf (Phase.received st r p)) :
    ∃ F : Nat, ∀ f, F ≤ f → ∃ w', drain N rd f w =
        .ok ((Agi.inbox outs (List.range N) r).map (fun x => ((x.1 : Int), x.2)), w') ∧ Between w'.st := by
  have hd : ((arrivalsOf (Phase.received st r p)).map Arrival.sender).Nodup := by
    have := (src_facts h hr he).1
    rw [arrivalsOf, List.map_map]
    have e : (Arrival.sender ∘ fun m : Phase.Msg UInt8 => (⟨(m.src : Int), m.data⟩ : Arrival)) =
        (fun k : Nat => (k : Int)) ∘ (fun m : Phase.Msg UInt8 => m.src) := by funext m; rfl
    rw [e, ← List.map_map]
    exact List.Nodup.map (fun a b hab => by have h0 : (a : Int) = b := hab; omega) this
  obtain ⟨t, del, hprep, -, hperm, hsort⟩ := Order.prepare_spec _ hd
  obtain ⟨hbytes, ss, hss, hnd, hlt, hno, hsen, hres⟩ := drained_eq h hr he hc hv hpk del hperm
  have hin : ss.flatMap (fun s => (recsTo outs r s).map (fun x => ((s : Int), x))) =
      (List.range N).flatMap (fun s => (recsTo outs r s).map (fun x => ((s : Int), x))) := by
    have e1 : ss = (List.range N).filter (fun s => decide (s ∈ ss)) := by
      refine eq_of_sorted _ _ ?_ ?_ ?_
      · rw [List.perm_ext_iff_of_nodup hnd (List.Nodup.filter _ List.nodup_range)]
        intro s
        simp only [List.mem_filter, List.mem_range, decide_eq_true_eq]
        exact ⟨fun hs => ⟨hlt s hs, hs⟩, fun hs => hs.2⟩
      · rw [hss, List.pairwise_map]
        refine List.Pairwise.imp_of_mem ?_ hsort
        intro a b ha hb hab
        have h1 := hsen a ha; have h2 := hsen b hb
        omega
      · exact List.Pairwise.filter _ List.pairwise_lt_range
    conv => lhs; rw [e1]
    apply flatMap_filter_of
    intro s hs hns
    rw [hno s (List.mem_range.mp hs) (by simpa using hns)]; rfl
  refine ⟨0 + (del.map (fun a => (recsTo outs r a.sender.toNat).length)).sum + del.length + 1, ?_⟩
  intro f hf
  have hat : AtOrd w (0, ([] : List α).flatMap enc) del := by
    refine .inr ⟨rfl, hw.1, hw.2.1, hw.2.2.1, hw.2.2.2, t, ?_⟩
    rw [hrest]; exact hprep
  obtain ⟨w', e, hq⟩ := drain_stream (stream_ord N) rd enc V hc.nonempty hc.parse
    (fun a => recsTo outs r a.sender.toNat) f w 0 [] del hat hbytes
    (by simp) (fun a _ => recs_valid hv _) (by simp only [List.length_nil]; omega)
  refine ⟨w', ?_, hq⟩
  rw [e, inbox_eq, ← hin, ← hres]
  rfl

/-- **C66 (ordering off).**  The same; the senders come in the order of arrival of their messages. -/
theorem c66_unordered (h : Phase.Reach N K n st) (hr : r < N) (he : Phase.Ended st r p)
    (hc : Codec V enc rd) (hv : ∀ o ∈ outs, ∀ m ∈ o, V m.2) (hpk : Packed enc N st p outs)
    (w : World) (hw : ListeningAny w.st) (hrest : w.rest = arrivalsOf (Phase.received st r p)) :
    ∃ order : List Nat, order.Perm (List.range N) ∧
      ∃ F : Nat, ∀ f, F ≤ f → ∃ w', drain N rd f w =
        .ok ((Agi.inbox outs order r).map (fun x => ((x.1 : Int), x.2)), w') ∧ BetweenAny w'.st := by
  obtain ⟨hbytes, ss, hss, hnd, hlt, hno, hsen, hres⟩ := drained_eq h hr he hc hv hpk w.rest (by rw [hrest])
  refine ⟨ss ++ (List.range N).filter (fun s => decide (s ∉ ss)), ?_, ?_⟩
  · rw [List.perm_ext_iff_of_nodup ?_ List.nodup_range]
    · intro s
      simp only [List.mem_append, List.mem_filter, List.mem_range, decide_eq_true_eq]
      constructor
      · rintro (hs | hs)
        · exact hlt s hs
        · exact hs.1
      · intro hs
        by_cases hm : s ∈ ss
        · exact .inl hm
        · exact .inr ⟨hs, hm⟩
    · rw [List.nodup_append]
      refine ⟨hnd, List.Nodup.filter _ List.nodup_range, ?_⟩
      intro a ha b hb hab
      simp only [List.mem_filter, decide_eq_true_eq] at hb
      exact hb.2 (hab ▸ ha)
  refine ⟨0 + (w.rest.map (fun a => (recsTo outs r a.sender.toNat).length)).sum + w.rest.length + 1, ?_⟩
  intro f hf
  obtain ⟨hi, hm, ho, hwk, msg, k, hread⟩ := hw
  have hk : k = msg.length := (Buffer.walked_iff _ _ _ hread).mp hwk
  have hat : AtAny w (0, ([] : List α).flatMap enc) w.rest := by
    refine ⟨hi, hm, ho, rfl, fun h => absurd rfl h, msg, k, hread, ?_⟩
    rw [hk]; simp
  obtain ⟨w', e, hq⟩ := drain_stream (stream_any N) rd enc V hc.nonempty hc.parse
    (fun a => recsTo outs r a.sender.toNat) f w 0 [] w.rest hat hbytes
    (by simp) (fun a _ => recs_valid hv _) (by simp only [List.length_nil]; omega)
  refine ⟨w', ?_, hq⟩
  rw [e, inbox_eq, List.flatMap_append]
  have h0 : ((List.range N).filter (fun s => decide (s ∉ ss))).flatMap
      (fun s => (recsTo outs r s).map (fun x => ((s : Int), x))) = [] := by
    rw [List.flatMap_eq_nil_iff]
    intro s hs
    simp only [List.mem_filter, List.mem_range, decide_eq_true_eq] at hs
    rw [hno s hs.1 hs.2]; rfl
  rw [h0, ← hres]
  simp

/-- reaching the state in which the loop starts: from between two phases, through `PCU_Comm_Begin`, any
`PCU_Comm_Pack` calls to ranks of the job, and `PCU_Comm_Send` -/
theorem listening_reached (size : Nat) (s : St) (hs : Between s) (packs : List (Int × List UInt8))
    (hp : ∀ q ∈ packs, 0 ≤ q.1 ∧ q.1 < size) :
    ∃ rs s', run size s (.begin :: packs.map (fun q => .pack q.1 q.2) ++ [.send]) = .ok (rs, s') ∧ Listening s' := by
  obtain ⟨hi, hm, ho, hw⟩ := hs
  have hb : run size s [.begin] = .ok ([.unit], { s with mode := .pack }) := by simp [run, step, hi, hm]
  have hpk := run_packs size packs { s with mode := .pack } hi rfl hp
  have hsn : run size { s with mode := .pack, out := s.out ++ packs } [.send] =
      .ok ([.unit], { s with mode := .receiving, out := s.out ++ packs }) := by simp [run, step, hi]
  exact ⟨_, _, run_append size _ _ _ _ _ _ _ (run_append size _ _ _ _ _ _ _ hb hpk) hsn, hi, rfl, ho, hw⟩

/-- the same with ordering off -/
theorem listeningAny_reached (size : Nat) (s : St) (hs : BetweenAny s) (packs : List (Int × List UInt8))
    (hr : ∃ msg k, Buffer.Reading s.received msg k)
    (hp : ∀ q ∈ packs, 0 ≤ q.1 ∧ q.1 < size) :
    ∃ rs s', run size s (.begin :: packs.map (fun q => .pack q.1 q.2) ++ [.send]) = .ok (rs, s') ∧ ListeningAny s' := by
  obtain ⟨hi, hm, ho, hw⟩ := hs
  have hb : run size s [.begin] = .ok ([.unit], { s with mode := .pack }) := by simp [run, step, hi, hm]
  have hpk := run_packs size packs { s with mode := .pack } hi rfl hp
  have hsn : run size { s with mode := .pack, out := s.out ++ packs } [.send] =
      .ok ([.unit], { s with mode := .receiving, out := s.out ++ packs }) := by simp [run, step, hi]
  exact ⟨_, _, run_append size _ _ _ _ _ _ _ (run_append size _ _ _ _ _ _ _ hb hpk) hsn, hi, rfl, ho, hw, hr⟩

/-! ## `PCU_Comm_Write` and `PCU_Comm_Read` -/

theorem sizeBytes_length (k m : Nat) : (sizeBytes k m).length = k := by
  induction k generalizing m with
  | zero => rfl
  | succ k ih => simp [sizeBytes, ih]

theorem sizeOf_sizeBytes (k m : Nat) (h : m < 256 ^ k) : sizeOfBytes (sizeBytes k m) = m := by
  induction k generalizing m with
  | zero => simp at h; simp [sizeBytes, sizeOfBytes, h]
  | succ k ih =>
    have h1 : m / 256 < 256 ^ k := by
      rw [Nat.div_lt_iff_lt_mul (by omega)]
      rw [Nat.pow_succ] at h; exact h
    simp only [sizeBytes, sizeOfBytes, ih _ h1, UInt8.toNat_ofNat']
    omega

/-- **C66 (Write / Read).**  What `PCU_Comm_Write` packs, `PCU_Comm_Read` takes apart: for messages of fewer than
2^64 bytes, empty ones included, the two fit together, so that the loops `while (PCU_Comm_Read(…))` have the
guarantees above. -/
theorem c66_write_read : Codec (fun data : List UInt8 => data.length < 2 ^ 64) writeBytes readReader where
  nonempty := by
    intro x _ h
    have := congrArg List.length h
    simp [writeBytes, sizeBytes_length] at this
  parse := by
    intro x rest hx
    have h8 := sizeBytes_length 8 x.length
    have e1 : (writeBytes x ++ rest).take 8 = sizeBytes 8 x.length := by
      rw [writeBytes, List.append_assoc, List.take_append_of_le_length (by omega), List.take_of_length_le (by omega)]
    have e2 : (writeBytes x ++ rest).drop 8 = x ++ rest := by
      rw [writeBytes, List.append_assoc, List.drop_append_of_le_length (by omega), List.drop_of_length_le (by omega)]
      rfl
    have e3 : 8 ≤ (writeBytes x ++ rest).length := by
      simp only [writeBytes, List.length_append, h8]; omega
    simp only [readReader, Reader.parse, e1, e2, e3, if_true, sizeOf_sizeBytes 8 x.length (by simpa using hx)]
    simp

end

/-! ## the hypotheses are met -/

/-- a record: one byte that says how many more follow -/
def lenEnc (l : List UInt8) : List UInt8 := UInt8.ofNat l.length :: l

/-- its body: `PCU_COMM_UNPACK(n); PCU_Comm_Unpack(data, n)` -/
def lenReader : Reader (List UInt8) := .take 1 (fun b => .take (sizeOfBytes b) .done)

theorem lenCodec : Codec (fun l : List UInt8 => l.length < 256) lenEnc lenReader where
  nonempty := by intro x _; simp [lenEnc]
  parse := by
    intro x rest hx
    have h1 : UInt8.toNat (UInt8.ofNat x.length) = x.length := by
      rw [UInt8.toNat_ofNat']; omega
    simp [lenReader, Reader.parse, lenEnc, sizeOfBytes, h1]

open Phase in
/-- Two ranks, one phase.  Rank 0 packs two records for rank 1, the first with two `PCU_Comm_Pack` calls, and
nothing else; the whole phase is a reachable execution and meets the hypotheses of the theorems for rank 1,
whose loop has to read both records. -/
example : ∃ (n : Nat) (st : State UInt8) (outs : List (List (Int × List UInt8))), Reach 2 1 n st ∧ Ended st 1 1 ∧
    Packed lenEnc 2 st 1 outs ∧ (∀ o ∈ outs, ∀ m ∈ o, m.2.length < 256) ∧
    Agi.inbox outs (List.range 2) 1 = [(0, [7, 8]), (0, [])] := by
  have hex : ∃ n, ∃ st : State UInt8, Reach 2 1 n st ∧ Ended st 1 1 ∧
      ∀ s d, s < 2 → d < 2 → (pieces st s d 1).flatten = if s = 0 ∧ d = 1 then [2, 7, 8, 0] else [] := by
    refine ⟨_, _, Reach.step (Reach.step (Reach.step (Reach.step (Reach.step (Reach.step (Reach.step (Reach.step
      (Reach.step (Reach.step (Reach.step (Reach.step (Reach.step (Reach.step Reach.init
      (Step.begin 0 ?_ ?_ ?_)) (Step.begin 1 ?_ ?_ ?_)) (Step.started 0 ?_ ?_ ?_))
      (Step.pack 0 1 [2] ?_ ?_ ?_)) (Step.pack 0 1 [7, 8] ?_ ?_ ?_)) (Step.pack 0 1 [0] ?_ ?_ ?_)) (Step.send 0 ?_ ?_))
      (Step.started 1 ?_ ?_ ?_)) (Step.send 1 ?_ ?_))
      (Step.listen 1 ?_ ?_ [] [] ⟨0, 1, [2, 7, 8, 0], 1⟩ ?_ ?_)) (Step.sent 0 ?_ ?_ ?_))
      (Step.sent 1 ?_ ?_ ?_)) (Step.finish 0 ?_ ?_ ?_)) (Step.finish 1 ?_ ?_ ?_), ?_, ?_⟩
    case refine_43 =>
      intro s d hs hd
      have h1 : s = 0 ∨ s = 1 := by omega
      have h2 : d = 0 ∨ d = 1 := by omega
      rcases h1 with rfl | rfl <;> rcases h2 with rfl | rfl <;> simp [pieces, init, upd]
    all_goals first
      | decide
      | rfl
      | (intro q hq; have : q = 0 ∨ q = 1 := by omega
         rcases this with rfl | rfl <;> simp [upd, init, pushPeer])
      | simp [upd, init, pushPeer, outgoing, List.range_succ, Ended, received, BarrierOpen]
  obtain ⟨n, st, h1, h2, h3⟩ := hex
  refine ⟨n, st, [[(1, [7, 8]), (1, [])], []], h1, h2, ?_, by decide, by decide⟩
  intro s d hs hd
  have h4 : s = 0 ∨ s = 1 := by omega
  have h5 : d = 0 ∨ d = 1 := by omega
  rw [h3 s d hs hd]
  rcases h4 with rfl | rfl <;> rcases h5 with rfl | rfl <;> decide

/-- the loop itself on three messages that arrived out of order, one of them empty -/
def threeWorld : World :=
  { st := { fresh with inited := true, mode := .receiving, order := some Order.init }, peer := 0
    rest := [⟨2, [1, 5, 0]⟩, ⟨1, []⟩, ⟨0, [2, 7, 8]⟩] }

example : Listening threeWorld.st := ⟨rfl, rfl, rfl, rfl⟩

example : (match drain 3 lenReader 10 threeWorld with
    | .ok (l, _) => l
    | _ => []) = [(0, [7, 8]), (2, [5]), (2, [])] := by decide +kernel

/-- **A limit of the loop.**  Records of no bytes are lost: rank 1 was sent a message of zero bytes
(`PCU_Comm_Pack(1, NULL, 0)`); `PCU_Comm_Listen` reports it, `PCU_Comm_Receive` does not - the body never runs.
This is why a codec has to take at least one byte. -/
theorem c66_empty_lost :
    (match listen 2 { threeWorld with rest := [⟨0, []⟩] } with
      | .ok (b, _) => b
      | _ => false) = true ∧
    (match drain 2 (.done ()) 10 { threeWorld with rest := [⟨0, []⟩] } with
      | .ok (l, _) => l.length
      | _ => 1) = 0 := by decide +kernel

end Verif.Pcu.Recv
