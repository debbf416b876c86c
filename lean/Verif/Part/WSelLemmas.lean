import Verif.Part.WSelModel
import Verif.Part.SelectLemmas
import Mathlib.Data.Rat.Floor
import Mathlib.Tactic.Positivity
import Mathlib.Tactic.FieldSimp
/-!
# Lemmas on weight diffusion, for one part
-/
namespace Verif.Part
open Verif.Agi

theorem truncQ_spec {x : Rat} (hx : 0 ≤ x) : 0 ≤ truncQ x ∧ ((truncQ x : Int) : Rat) ≤ x := by
  unfold truncQ
  rw [if_pos hx]
  have h : x.floor = ⌊x⌋ := rfl
  rw [h]
  exact ⟨Int.floor_nonneg.mpr hx, Int.floor_le x⟩

theorem toInt32_ok {x : Rat} (hx : 0 ≤ x) (hb : x < 2147483648) :
    toInt32 x = .ok (truncQ x) := by
  obtain ⟨h1, h2⟩ := truncQ_spec hx
  unfold toInt32
  rw [if_pos]
  refine ⟨by omega, ?_⟩
  have h3 : ((truncQ x : Int) : Rat) < ((2147483648 : Int) : Rat) := lt_of_le_of_lt h2 (by exact_mod_cast hb)
  have h4 : truncQ x < 2147483648 := by exact_mod_cast h3
  omega

theorem wAmount_ok {w room : Rat} {n : Nat} (hw : 0 ≤ w) (hroom : 0 < room)
    (hb : w * (1 / 10) / (n : Rat) < 2147483648) : ∃ k : Nat, wAmount w n room = .ok (k : Int) ∧
      (k : Rat) ≤ w * (1 / 10) / (n : Rat) ∧ (k : Rat) ≤ room := by
  have h0 : 0 ≤ w * (1 / 10) / (n : Rat) := by positivity
  obtain ⟨h1, h2⟩ := truncQ_spec h0
  unfold wAmount
  rw [toInt32_ok h0 hb, Outcome.bind_ok]
  obtain ⟨k, hk⟩ := Int.eq_ofNat_of_zero_le h1
  rw [hk] at h2 ⊢
  have h2' : (k : Rat) ≤ w * (1 / 10) / (n : Rat) := by exact_mod_cast h2
  split
  · rename_i hlt
    have hlt' : room < (k : Rat) := by exact_mod_cast hlt
    obtain ⟨h3, h4⟩ := truncQ_spec (le_of_lt hroom)
    rw [toInt32_ok (le_of_lt hroom) (by linarith)]
    obtain ⟨j, hj⟩ := Int.eq_ofNat_of_zero_le h3
    rw [hj] at h4 ⊢
    have h4' : (j : Rat) ≤ room := by exact_mod_cast h4
    exact ⟨j, rfl, by linarith, h4'⟩
  · rename_i hlt
    have hlt' : ¬ room < (k : Rat) := by exact_mod_cast hlt
    exact ⟨k, rfl, h2', not_lt.mp hlt'⟩

/-! ## plans -/

/-- a linear functional of the entries -/
def esum (φ : Handle → Handle → Rat) (p : WPlan) : Rat := ((planEntries p).map (fun e => φ e.1 e.2.1 * e.2.2)).sum

theorem esum_cons (φ : Handle → Handle → Rat) (x : Handle × List (Handle × Wgt)) (p : WPlan) :
    esum φ (x :: p) = (x.2.map (fun y => φ x.1 y.1 * y.2)).sum + esum φ p := by
  unfold esum planEntries
  rw [List.flatMap_cons, List.map_append, List.sum_append, List.map_map]
  rfl

theorem inner_sum (φ : Handle → Rat) (u : Handle) (w : Rat) : ∀ (l : List (Handle × Wgt)),
    ((innerAdd u w l).map (fun y => φ y.1 * y.2)).sum = (l.map (fun y => φ y.1 * y.2)).sum + φ u * w
  | [] => by simp [innerAdd]
  | (u', x) :: l => by
    unfold innerAdd
    split
    · rename_i h
      subst h
      simp only [List.map_cons, List.sum_cons]; ring
    · simp only [List.map_cons, List.sum_cons, inner_sum φ u w l]; ring

theorem esum_insert (φ : Handle → Handle → Rat) (v u : Handle) (w : Rat) : ∀ (p : WPlan),
    esum φ (WPlan.insert v u w p) = esum φ p + φ v u * w
  | [] => by
    unfold WPlan.insert
    rw [esum_cons, inner_sum]
    simp [esum, planEntries]
  | (v', inner) :: p => by
    unfold WPlan.insert
    split
    · rename_i h
      subst h
      rw [esum_cons, esum_cons, inner_sum]; ring
    · rw [esum_cons, esum_cons, esum_insert φ v u w p]; ring

theorem mem_innerAdd {u : Handle} {w : Rat} : ∀ {l : List (Handle × Wgt)} {y : Handle × Wgt}, y ∈ innerAdd u w l →
    y ∈ l ∨ (y.1 = u ∧ (y.2 = w ∨ ∃ x, (u, x) ∈ l ∧ y.2 = x + w))
  | [], y, h => by
    simp only [innerAdd, List.mem_singleton] at h
    subst h
    exact .inr ⟨rfl, .inl (by simp)⟩
  | (u', x) :: l, y, h => by
    unfold innerAdd at h
    split at h
    · rename_i hu
      subst hu
      rcases List.mem_cons.mp h with rfl | h
      · exact .inr ⟨rfl, .inr ⟨x, by simp, rfl⟩⟩
      · exact .inl (by simp [h])
    · rcases List.mem_cons.mp h with rfl | h
      · exact .inl (by simp)
      · rcases mem_innerAdd h with h | ⟨h1, h2 | ⟨z, hz, h2⟩⟩
        · exact .inl (by simp [h])
        · exact .inr ⟨h1, .inl h2⟩
        · exact .inr ⟨h1, .inr ⟨z, by simp [hz], h2⟩⟩

theorem mem_entries {p : WPlan} {e : Handle × Handle × Rat} :
    e ∈ planEntries p ↔ ∃ x ∈ p, x.1 = e.1 ∧ (e.2.1, e.2.2) ∈ x.2 := by
  unfold planEntries
  rw [List.mem_flatMap]
  constructor
  · rintro ⟨x, hx, he⟩
    obtain ⟨y, hy, rfl⟩ := List.mem_map.mp he
    exact ⟨x, hx, rfl, hy⟩
  · rintro ⟨x, hx, h1, h2⟩
    exact ⟨x, hx, List.mem_map.mpr ⟨_, h2, by rw [h1]⟩⟩

theorem mem_insert_entries {v u : Handle} {w : Rat} : ∀ {p : WPlan} {e : Handle × Handle × Rat},
    e ∈ planEntries (WPlan.insert v u w p) →
    e ∈ planEntries p ∨ (e.1 = v ∧ e.2.1 = u ∧ (e.2.2 = w ∨ ∃ x, (v, u, x) ∈ planEntries p ∧ e.2.2 = x + w))
  | [], e, h => by
    rw [mem_entries] at h
    simp only [WPlan.insert, List.mem_singleton] at h
    obtain ⟨x, rfl, h1, h2⟩ := h
    rcases mem_innerAdd h2 with h2 | ⟨h3, h4 | ⟨z, hz, -⟩⟩
    · simp at h2
    · exact .inr ⟨h1.symm, h3, .inl h4⟩
    · simp at hz
  | (v', inner) :: p, e, h => by
    unfold WPlan.insert at h
    split at h
    · rename_i hv
      subst hv
      rw [mem_entries] at h
      obtain ⟨x, hx, h1, h2⟩ := h
      rcases List.mem_cons.mp hx with rfl | hx
      · rcases mem_innerAdd h2 with h2 | ⟨h3, h4 | ⟨z, hz, h4⟩⟩
        · exact .inl (mem_entries.mpr ⟨(v', inner), by simp, h1, h2⟩)
        · exact .inr ⟨h1.symm, h3, .inl h4⟩
        · exact .inr ⟨h1.symm, h3, .inr ⟨z, mem_entries.mpr ⟨(v', inner), by simp, rfl, hz⟩, h4⟩⟩
      · exact .inl (mem_entries.mpr ⟨x, by simp [hx], h1, h2⟩)
    · rw [mem_entries] at h
      obtain ⟨x, hx, h1, h2⟩ := h
      rcases List.mem_cons.mp hx with rfl | hx
      · exact .inl (mem_entries.mpr ⟨_, by simp, h1, h2⟩)
      · rcases mem_insert_entries (mem_entries.mpr ⟨x, hx, h1, h2⟩) with h | ⟨h3, h4, h5 | ⟨z, hz, h5⟩⟩
        · obtain ⟨y, hy, h⟩ := mem_entries.mp h
          exact .inl (mem_entries.mpr ⟨y, by simp [hy], h⟩)
        · exact .inr ⟨h3, h4, .inl h5⟩
        · obtain ⟨y, hy, h⟩ := mem_entries.mp hz
          exact .inr ⟨h3, h4, .inr ⟨z, mem_entries.mpr ⟨y, by simp [hy], h⟩, h5⟩⟩

theorem innerAdd_ne (u : Handle) (w : Rat) (l : List (Handle × Wgt)) : innerAdd u w l ≠ [] := by
  cases l with
  | nil => simp [innerAdd]
  | cons x l => unfold innerAdd; split <;> simp

theorem insert_full {v u : Handle} {w : Rat} : ∀ {p : WPlan}, (∀ x ∈ p, x.2 ≠ []) →
    ∀ x ∈ WPlan.insert v u w p, x.2 ≠ []
  | [], _, x, hx => by
    simp only [WPlan.insert, List.mem_singleton] at hx
    subst hx
    exact innerAdd_ne _ _ _
  | (v', inner) :: p, h, x, hx => by
    unfold WPlan.insert at hx
    split at hx
    · rcases List.mem_cons.mp hx with rfl | hx
      · exact innerAdd_ne _ _ _
      · exact h x (by simp [hx])
    · rcases List.mem_cons.mp hx with rfl | hx
      · exact h _ (by simp)
      · exact insert_full (fun y hy => h y (by simp [hy])) x hx

/-! ## cavities -/

section
variable {g : Graph} {vs known : List Gid} {hnd : Gid → Handle} {EH : List Handle} {pinsOf : Handle → List Gid}
  {own : Gid → Part} {inc : Gid → Nat → List Handle}

theorem weightCavity_eq (hs : SelFacts g vs known hnd EH pinsOf own inc) {e : Handle} (he : e ∈ EH)
    (hv : ∃ v ∈ pinsOf e, v ∈ vs) :
    ∃ (m : Gid) (c : List Handle), weightCavity g e = .ok (some (hnd m), c) ∧ m ∈ pinsOf e ∧ m ∈ vs ∧ c.Nodup ∧
      ∀ h ∈ c, ∃ u ∈ pinsOf e, u ∉ vs ∧ h = hnd u := by
  obtain ⟨⟨it, e1, hy⟩, hb, hk⟩ := hs.pins e he
  unfold weightCavity
  rw [e1, Outcome.bind_ok, iterLoop_yields _ _ _ _ _ hy (by simpa using hb)]
  have H : ∀ (ps : List Gid) (x : Option Handle × List Handle), (∀ v ∈ ps, v ∈ known) → x.2.Nodup →
      ∃ y, loopList (wCavityBody g) (ps.map hnd) x = .ok y ∧ y.2.Nodup ∧
        (∀ h ∈ y.2, h ∈ x.2 ∨ ∃ u ∈ ps, u ∉ vs ∧ h = hnd u) ∧
        ((y.1 = x.1 ∧ ∀ v ∈ ps, v ∉ vs) ∨ ∃ v ∈ ps, v ∈ vs ∧ y.1 = some (hnd v)) := by
    intro ps
    induction ps with
    | nil => intro x _ hx; exact ⟨x, rfl, hx, fun h hh => .inl hh, .inl ⟨rfl, by simp⟩⟩
    | cons p ps ih =>
      intro x hps hx
      have hp := hps p (by simp)
      rw [List.map_cons, loopList]
      by_cases hpv : p ∈ vs
      · have hbody : wCavityBody g x (hnd p) = .ok ((some (hnd p), x.2), false) := by
          unfold wCavityBody
          rw [hs.owner p hp, Outcome.bind_ok, if_pos ((hs.mine p hp).mpr hpv)]
          rfl
        rw [hbody, Outcome.bind_ok]
        obtain ⟨y, e2, h1, h2, h3⟩ := ih (some (hnd p), x.2) (fun v h => hps v (by simp [h])) hx
        refine ⟨y, e2, h1, ?_, ?_⟩
        · intro h hh
          rcases h2 h hh with h' | ⟨u, hu, h'⟩
          · exact .inl h'
          · exact .inr ⟨u, by simp [hu], h'⟩
        · right
          rcases h3 with ⟨h3, -⟩ | ⟨v, hv, h3⟩
          · exact ⟨p, by simp, hpv, h3⟩
          · exact ⟨v, by simp [hv], h3⟩
      · have hbody : wCavityBody g x (hnd p) = .ok ((x.1, insertSet x.2 (hnd p)), false) := by
          unfold wCavityBody
          rw [hs.owner p hp, Outcome.bind_ok, if_neg (fun h => hpv ((hs.mine p hp).mp h))]
          rfl
        rw [hbody, Outcome.bind_ok]
        obtain ⟨y, e2, h1, h2, h3⟩ := ih (x.1, insertSet x.2 (hnd p)) (fun v h => hps v (by simp [h]))
          (nodup_insertSet hx)
        refine ⟨y, e2, h1, ?_, ?_⟩
        · intro h hh
          rcases h2 h hh with h' | ⟨u, hu, h'⟩
          · rcases mem_insertSet.mp h' with h' | rfl
            · exact .inl h'
            · exact .inr ⟨p, by simp, hpv, rfl⟩
          · exact .inr ⟨u, by simp [hu], h'⟩
        · rcases h3 with ⟨h3, h4⟩ | ⟨v, hv, h3⟩
          · left
            refine ⟨h3, ?_⟩
            intro v hv
            rcases List.mem_cons.mp hv with rfl | hv
            · exact hpv
            · exact h4 v hv
          · exact .inr ⟨v, by simp [hv], h3⟩
  obtain ⟨⟨m, c⟩, e2, h1, h2, h3⟩ := H (pinsOf e) (none, []) hk List.nodup_nil
  obtain ⟨v0, hv0, hv0'⟩ := hv
  rcases h3 with ⟨-, h3⟩ | ⟨v, hv, hvv, h3⟩
  · exact absurd hv0' (h3 v0 hv0)
  · dsimp only at h3 h1 h2
    subst h3
    refine ⟨v, c, e2, hv, hvv, h1, ?_⟩
    intro h hh
    rcases h2 h hh with h' | h'
    · simp at h'
    · exact h'

/-! ## the invariant -/

/-- the owner of a handle -/
def ownH (g : Graph) (h : Handle) : Part :=
  match g.owner h with
  | .ok d => d
  | _ => -1

/-- fixed data: `B` are the edges of the queue -/
structure WCtx (ord : HashOrd) (g : Graph) (vs known : List Gid) (hnd : Gid → Handle) (EH : List Handle)
    (pinsOf : Handle → List Gid) (own : Gid → Part) (inc : Gid → Nat → List Handle) (wt : Gid → Rat)
    (B : List Handle) : Prop where
  ordOk : ord.Ok
  sel : SelFacts g vs known hnd EH pinsOf own inc
  vweight : ∀ v ∈ vs, g.weight (hnd v) = .ok (wt v)
  vnn : ∀ v ∈ vs, 0 ≤ wt v
  small : ∀ v ∈ vs, wt v < 2147483648
  edges : ∀ e ∈ B, e ∈ EH ∧ ∃ v ∈ pinsOf e, v ∈ vs

/-- the state: the plan only has natural amounts from vertices of the part, over queued edges, to wanting parts, and the
counters are the sums of the plan -/
structure WInv (g : Graph) (vs : List Gid) (hnd : Gid → Handle) (pinsOf : Handle → List Gid) (own : Gid → Part)
    (wt : Gid → Rat) (targets : Cont Rat) (B : List Handle) (C N : List Handle) (s : WSel) : Prop where
  q : QRep s.q B.length C N
  room : C.length ≤ B.length
  cur : ∀ e ∈ C, e ∈ B
  next : ∀ e ∈ N, e ∈ B
  entry : ∀ x ∈ planEntries s.plan, (∃ k : Nat, x.2.2 = (k : Rat)) ∧ ∃ v ∈ vs, ∃ u, ∃ e ∈ B, x.1 = hnd v ∧
    x.2.1 = hnd u ∧ v ∈ pinsOf e ∧ u ∈ pinsOf e ∧ u ∉ vs ∧ targets.has (own u) = true ∧ 0 < targets.get (own u)
  fromV : ∀ h, esum (fun a _ => if a = h then 1 else 0) s.plan = s.vSending h
  toP : ∀ d, esum (fun _ b => if ownH g b = d then 1 else 0) s.plan = s.sending d
  all : esum (fun _ _ => 1) s.plan = s.planW
  vle : ∀ v ∈ vs, s.vSending (hnd v) ≤ wt v
  ple : ∀ d, 0 ≤ s.sending d ∧ s.sending d ≤ max 0 (targets.get d)
  full : ∀ x ∈ s.plan, x.2 ≠ []

variable {ord : HashOrd} {wt : Gid → Rat} {targets : Cont Rat} {B : List Handle}

theorem vSending_nonneg {C N : List Handle} {s : WSel} (h : WInv g vs hnd pinsOf own wt targets B C N s) (x : Handle) :
    0 ≤ s.vSending x := by
  rw [← h.fromV]
  unfold esum
  apply List.sum_nonneg
  intro y hy
  obtain ⟨e, he, rfl⟩ := List.mem_map.mp hy
  obtain ⟨⟨k, hk⟩, -⟩ := h.entry e he
  rw [hk]
  dsimp only
  split
  · simp
  · simp

theorem wSends_inv (hx : WCtx ord g vs known hnd EH pinsOf own inc wt B) {e : Handle} (he : e ∈ B) {m : Gid}
    (hm : m ∈ vs) (hme : m ∈ pinsOf e) {w : Rat} (hw : 0 ≤ w) {n : Nat} (hb : w * (1 / 10) / (n : Rat) < 2147483648)
    {C N : List Handle} : ∀ (us : List Handle) (s : WSel), (∀ h ∈ us, ∃ u ∈ pinsOf e, u ∉ vs ∧ h = hnd u) →
      WInv g vs hnd pinsOf own wt targets B C N s →
      s.vSending (hnd m) + (us.length : Rat) * (w * (1 / 10) / (n : Rat)) ≤ wt m →
      ∃ s', us.foldlM (wSendTo g targets (hnd m) w n) s = .ok s' ∧ WInv g vs hnd pinsOf own wt targets B C N s'
  | [], s, _, h, _ => ⟨s, rfl, h⟩
  | a :: us, s, hus, h, hle => by
    obtain ⟨u, hu, huv, rfl⟩ := hus a (by simp)
    have hk := (hx.sel.pins e (hx.edges e he).1).2.2 u hu
    have hδ : 0 ≤ w * (1 / 10) / (n : Rat) := by positivity
    have hle' : s.vSending (hnd m) + (w * (1 / 10) / (n : Rat)) + (us.length : Rat) * (w * (1 / 10) / (n : Rat)) ≤ wt m := by
      rw [List.length_cons] at hle
      push_cast at hle
      linarith
    have step : ∃ s', wSendTo g targets (hnd m) w n s (hnd u) = .ok s' ∧ WInv g vs hnd pinsOf own wt targets B C N s' ∧
        s'.vSending (hnd m) ≤ s.vSending (hnd m) + w * (1 / 10) / (n : Rat) := by
      unfold wSendTo
      rw [hx.sel.owner u hk, Outcome.bind_ok]
      split
      · rename_i hc
        obtain ⟨h1, h2⟩ := hc
        obtain ⟨k, e1, hk1, hk2⟩ := wAmount_ok (n := n) hw (sub_pos.mpr h2) hb
        rw [e1, Outcome.bind_ok]
        have hkc : (((k : Nat) : Int) : Rat) = (k : Rat) := by simp
        rw [hkc]
        have hk0 : (0 : Rat) ≤ (k : Rat) := by positivity
        have hown : ownH g (hnd u) = own u := by unfold ownH; rw [hx.sel.owner u hk]
        refine ⟨_, rfl, ⟨h.q, h.room, h.cur, h.next, ?_, ?_, ?_, ?_, ?_, ?_, insert_full h.full⟩, ?_⟩
        · intro x hxx
          rcases mem_insert_entries hxx with hxx | ⟨h3, h4, h5⟩
          · exact h.entry x hxx
          · refine ⟨?_, m, hm, u, e, he, h3, h4, hme, hu, huv, h1, lt_of_le_of_lt (h.ple _).1 h2⟩
            rcases h5 with h5 | ⟨z, hz, h5⟩
            · exact ⟨k, h5⟩
            · obtain ⟨⟨j, hj⟩, -⟩ := h.entry _ hz
              dsimp only at hj
              exact ⟨j + k, by rw [h5, hj]; push_cast; ring⟩
        · intro x
          dsimp only
          rw [esum_insert, h.fromV]
          unfold setV
          by_cases hxm : x = hnd m
          · rw [if_pos hxm, if_pos hxm.symm, hxm]; ring
          · rw [if_neg hxm, if_neg (fun h => hxm h.symm)]; ring
        · intro d
          dsimp only
          rw [esum_insert, h.toP, hown]
          unfold setAt
          by_cases hdo : d = own u
          · rw [if_pos hdo, if_pos hdo.symm, hdo]; ring
          · rw [if_neg hdo, if_neg (fun h => hdo h.symm)]; ring
        · dsimp only
          rw [esum_insert, h.all]; ring
        · intro v hv
          dsimp only
          unfold setV
          split
          · rename_i hvm
            have : v = m := hx.sel.inj hv hm hvm
            subst this
            have : (0 : Rat) ≤ (us.length : Rat) * (w * (1 / 10) / (n : Rat)) := by positivity
            linarith
          · exact h.vle v hv
        · intro d
          dsimp only
          unfold setAt
          split
          · rename_i hd
            subst hd
            refine ⟨add_nonneg (h.ple _).1 hk0, ?_⟩
            have := le_max_right 0 (targets.get (own u))
            linarith
          · exact h.ple d
        · dsimp only
          unfold setV
          rw [if_pos rfl]
          linarith
      · exact ⟨s, rfl, h, by linarith⟩
    obtain ⟨s1, e1, h1, hv1⟩ := step
    obtain ⟨s2, e2, h2⟩ := wSends_inv hx he hm hme hw hb us s1 (fun h hh => hus h (by simp [hh])) h1 (by linarith)
    refine ⟨s2, ?_, h2⟩
    rw [List.foldlM_cons, e1]
    exact e2

theorem wSelectEdge_inv (hx : WCtx ord g vs known hnd EH pinsOf own inc wt B) {C N : List Handle} {s : WSel}
    (h : WInv g vs hnd pinsOf own wt targets B C N s) {e : Handle} (he : e ∈ B) (hN : N.length < B.length) :
    ∃ s', wSelectEdge ord g targets s e = .ok s' ∧ WInv g vs hnd pinsOf own wt targets B C (N ++ [e]) s' := by
  obtain ⟨m, c, e1, hme, hm, hcn, hc⟩ := weightCavity_eq hx.sel (hx.edges e he).1 (hx.edges e he).2
  unfold wSelectEdge
  rw [e1, Outcome.bind_ok]
  dsimp only
  rw [hx.vweight m hm, Outcome.bind_ok]
  have hp := hx.ordOk.verts c
  have hv0 := vSending_nonneg h (hnd m)
  have hvl := h.vle m hm
  have hsm := hx.small m hm
  have hw0 : 0 ≤ wt m - s.vSending (hnd m) := by linarith
  obtain ⟨s1, e2, h1⟩ := wSends_inv (targets := targets) hx he hm hme (w := wt m - s.vSending (hnd m)) hw0
    (n := c.length) (by
      by_cases hz : c.length = 0
      · rw [hz]; norm_num
      · have h1 : (1 : Rat) ≤ (c.length : Rat) := by exact_mod_cast Nat.one_le_iff_ne_zero.mpr hz
        rw [div_lt_iff₀ (by linarith)]
        nlinarith) (ord.verts c) s (fun x hx' => hc x (hp.subset hx')) h (by
      rw [hp.length_eq]
      by_cases hz : c.length = 0
      · rw [hz]; simp; linarith
      · have h1 : (c.length : Rat) ≠ 0 := by exact_mod_cast hz
        rw [mul_div_cancel₀ _ h1]
        linarith)
  rw [e2, Outcome.bind_ok]
  obtain ⟨q, e3, hq⟩ := h1.q.add e hN
  rw [e3, Outcome.bind_ok]
  refine ⟨_, rfl, hq, h1.room, h1.cur, ?_, h1.entry, h1.fromV, h1.toP, h1.all, h1.vle, h1.ple, h1.full⟩
  intro x hx'
  rcases List.mem_append.mp hx' with hx' | hx'
  · exact h1.next x hx'
  · rw [List.mem_singleton.mp hx']; exact he

theorem wSelectFrom_inv (hx : WCtx ord g vs known hnd EH pinsOf own inc wt B) {C : List Handle} :
    ∀ (n i : Nat) (N : List Handle) (s : WSel), WInv g vs hnd pinsOf own wt targets B C N s → N.length ≤ i →
      i + n = C.length → ∃ s' N', wSelectFrom ord g targets n i s = .ok s' ∧
        WInv g vs hnd pinsOf own wt targets B C N' s' ∧ N'.length ≤ C.length
  | 0, i, N, s, h, hN, hi => ⟨s, N, rfl, h, by omega⟩
  | n + 1, i, N, s, h, hN, hi => by
    unfold wSelectFrom
    split
    · exact ⟨s, N, rfl, h, by omega⟩
    · have hic : i < C.length := by omega
      rw [h.q.get hic, Outcome.bind_ok]
      have hroom := h.room
      obtain ⟨s1, e1, h1⟩ := wSelectEdge_inv hx h (h.cur _ (List.getElem_mem hic)) (by omega)
      rw [e1, Outcome.bind_ok]
      exact wSelectFrom_inv hx n (i + 1) _ s1 h1 (by simp; omega) (by omega)

theorem wSelect_inv (hx : WCtx ord g vs known hnd EH pinsOf own inc wt B) {C N : List Handle} {s : WSel}
    (h : WInv g vs hnd pinsOf own wt targets B C N s) (hN : N.length ≤ B.length) :
    ∃ s' N', wSelect ord g targets s = .ok s' ∧ WInv g vs hnd pinsOf own wt targets B N N' s' ∧
      N'.length ≤ B.length := by
  have hq := h.q.start
  obtain ⟨s1, N1, e1, h1, hl⟩ := wSelectFrom_inv hx (C := N) s.q.start.size 0 [] { s with q := s.q.start }
    ⟨hq, hN, h.next, by simp, h.entry, h.fromV, h.toP, h.all, h.vle, h.ple, h.full⟩ (by simp) (by rw [hq.size]; omega)
  exact ⟨s1, N1, e1, h1, by omega⟩

theorem wSelects_inv (hx : WCtx ord g vs known hnd EH pinsOf own inc wt B) : ∀ (n : Nat) (C N : List Handle) (s : WSel),
    WInv g vs hnd pinsOf own wt targets B C N s → N.length ≤ B.length →
    ∃ s' C' N', wSelects ord g targets n s = .ok s' ∧ WInv g vs hnd pinsOf own wt targets B C' N' s'
  | 0, C, N, s, h, _ => ⟨s, C, N, rfl, h⟩
  | n + 1, C, N, s, h, hN => by
    obtain ⟨s1, N1, e1, h1, hN1⟩ := wSelect_inv hx h hN
    unfold wSelects
    rw [e1, Outcome.bind_ok]
    split
    · exact ⟨s1, N, N1, rfl, h1⟩
    · exact wSelects_inv hx n N N1 s1 h1 hN1

end
end Verif.Part
