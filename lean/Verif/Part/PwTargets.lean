import Verif.Part.PwModel
import Verif.Part.TrimLemmas
import Verif.Part.TargetLemmas
/-!
# The targets and the tables of the balancer with the part weight balancer
-/
namespace Verif.Part
open Verif.Agi

/-- the share of the side to `q` -/
def shareTo (s : Cont Int) (q : Int) : Rat := (s.get q : Rat) / (s.total : Rat)

theorem pwEntries_spec {s : Cont Int} {rehash : Bool} (htot : s.total ≠ 0) : ∀ (table : List (Int × Rat)) (T : Cont Rat),
    (rehash = false ∨ ∀ e ∈ table, s.has e.1 = true) → Sound T → (table.map Prod.fst).Nodup →
    ∃ T', table.foldlM (pwEntry s rehash) T = .ok T' ∧ Sound T' ∧
      ∀ q, T'.find q = match table.lookup q with
        | some a => some (a * shareTo s q)
        | none => T.find q
  | [], T, _, hT, _ => ⟨T, rfl, hT, fun q => rfl⟩
  | e :: table, T, hre, hT, hn => by
    rw [List.map_cons, List.nodup_cons] at hn
    rw [List.foldlM_cons]
    have h1 : pwEntry s rehash T e = .ok (T.set e.1 (e.2 * shareTo s e.1)) := by
      unfold pwEntry
      rw [if_neg, if_neg htot]
      · rfl
      · rintro ⟨ha, hb⟩
        rcases hre with h | h
        · rw [h] at hb; cases hb
        · rw [h e (by simp)] at ha; cases ha
    rw [h1, Outcome.bind_ok]
    obtain ⟨T', e1, h2, h3⟩ := pwEntries_spec htot table (T.set e.1 (e.2 * shareTo s e.1))
      (hre.imp id (fun h x hx => h x (by simp [hx]))) (hT.set _ _) hn.2
    refine ⟨T', e1, h2, ?_⟩
    intro q
    rw [h3 q]
    obtain ⟨k, a⟩ := e
    by_cases hq : q = k
    · subst hq
      have : table.lookup q = none := by
        rw [← Option.not_isSome_iff_eq_none, lookup_isSome]
        exact hn.1
      rw [this, List.lookup_cons_self]
      dsimp only
      rw [find_set, if_pos rfl]
    · rw [List.lookup_cons]
      have : (q == k) = false := by simpa using hq
      rw [this]
      cases table.lookup q with
      | some b => rfl
      | none => dsimp only; rw [find_set, if_neg hq]

/-- the targets, exactly -/
theorem pwTargets_spec (isHyper : Bool) {s : Cont Int} {rehash : Bool} (sideTol : Int) (done : List (Cont Rat × Rat))
    {table : List (Int × Rat)} {order : List (Int × Int)} (htot : order ≠ [] → s.total ≠ 0)
    (hre : rehash = false ∨ ∀ e ∈ table, s.has e.1 = true) (hn : (table.map Prod.fst).Nodup) :
    ∃ T, pwTargets isHyper s rehash sideTol done table order = .ok T ∧ Sound T ∧
      ∀ q x, T.find q = some x ↔ (∃ e ∈ order, pwCanSend isHyper s sideTol done e.1 = true) ∧
        ∃ a, (q, a) ∈ table ∧ x = a * shareTo s q := by
  have key : ∀ (order : List (Int × Int)) (T : Cont Rat) (b : Bool), (order ≠ [] → s.total ≠ 0) → Sound T →
      (∀ q x, T.find q = some x ↔ b = true ∧ ∃ a, (q, a) ∈ table ∧ x = a * shareTo s q) →
      ∃ T', order.foldlM (pwTargetStep isHyper s rehash sideTol done table) T = .ok T' ∧ Sound T' ∧
        ∀ q x, T'.find q = some x ↔ (b = true ∨ ∃ e ∈ order, pwCanSend isHyper s sideTol done e.1 = true) ∧
          ∃ a, (q, a) ∈ table ∧ x = a * shareTo s q := by
    intro order
    induction order with
    | nil =>
      intro T b _ hT hb
      exact ⟨T, rfl, hT, fun q x => by rw [hb]; simp⟩
    | cons e order ih =>
      intro T b ht hT hb
      have htot := ht (by simp)
      rw [List.foldlM_cons]
      by_cases hc : pwCanSend isHyper s sideTol done e.1 = true
      · obtain ⟨T1, e1, hT1, h1⟩ := pwEntries_spec (rehash := rehash) htot table T hre hT hn
        have hstep : pwTargetStep isHyper s rehash sideTol done table T e = .ok T1 := by
          unfold pwTargetStep; rw [if_pos hc, e1]
        rw [hstep, Outcome.bind_ok]
        obtain ⟨T', e2, hT', h2⟩ := ih T1 true (fun _ => htot) hT1 (by
          intro q x
          rw [h1 q]
          cases hl : table.lookup q with
          | some a =>
            dsimp only
            have hm := (lookup_iff_mem _ hn q a).mp hl
            constructor
            · intro h; injection h with h; exact ⟨rfl, a, hm, h.symm⟩
            · rintro ⟨-, a', hm', rfl⟩
              have := (lookup_iff_mem _ hn q a').mpr hm'
              rw [hl] at this; injection this with this; rw [this]
          | none =>
            dsimp only
            have hno : ∀ a, (q, a) ∉ table := by
              intro a ha
              have := (lookup_iff_mem _ hn q a).mpr ha
              rw [hl] at this; cases this
            rw [hb]
            constructor
            · rintro ⟨-, a, ha, -⟩; exact absurd ha (hno a)
            · rintro ⟨-, a, ha, -⟩; exact absurd ha (hno a))
        refine ⟨T', e2, hT', fun q x => ?_⟩
        rw [h2]
        constructor
        · rintro ⟨-, h⟩; exact ⟨.inr ⟨e, by simp, hc⟩, h⟩
        · rintro ⟨-, h⟩; exact ⟨.inl rfl, h⟩
      · have hstep : pwTargetStep isHyper s rehash sideTol done table T e = .ok T := by
          unfold pwTargetStep; rw [if_neg hc]
        rw [hstep, Outcome.bind_ok]
        obtain ⟨T', e2, hT', h2⟩ := ih T b (fun _ => htot) hT hb
        refine ⟨T', e2, hT', fun q x => ?_⟩
        rw [h2]
        constructor
        · rintro ⟨h | ⟨y, hy, hcy⟩, h'⟩
          · exact ⟨.inl h, h'⟩
          · exact ⟨.inr ⟨y, by simp [hy], hcy⟩, h'⟩
        · rintro ⟨h | ⟨y, hy, hcy⟩, h'⟩
          · exact ⟨.inl h, h'⟩
          · rcases List.mem_cons.mp hy with rfl | hy
            · exact absurd hcy hc
            · exact ⟨.inr ⟨y, hy, hcy⟩, h'⟩
  obtain ⟨T, e, h1, h2⟩ := key order Cont.new false htot sound_new (by
    intro q x
    rw [find_new]
    simp)
  refine ⟨T, e, h1, fun q x => ?_⟩
  rw [h2]
  simp

/-! ## the tables -/

theorem subEntries_spec : ∀ (ws : List (Int × Rat)) (l : List (Int × Rat)), (ws.map Prod.fst).Nodup → (l.map Prod.fst).Nodup →
    ((ws.foldl subEntry l).map Prod.fst).Nodup ∧ ∀ d, (ws.foldl subEntry l).lookup d = match ws.lookup d with
      | some w => some ((l.lookup d).getD 0 - w)
      | none => l.lookup d
  | [], l, _, hl => ⟨hl, fun d => rfl⟩
  | x :: ws, l, hw, hl => by
    rw [List.map_cons, List.nodup_cons] at hw
    rw [List.foldl_cons]
    obtain ⟨h1, h2⟩ := subEntries_spec ws (subEntry l x) hw.2 (nodup_putA _ _ _ hl)
    refine ⟨h1, fun d => ?_⟩
    rw [h2 d]
    obtain ⟨k, a⟩ := x
    unfold subEntry
    simp only [lookup_putA]
    by_cases hd : d = k
    · subst hd
      have : ws.lookup d = none := by
        rw [← Option.not_isSome_iff_eq_none, lookup_isSome]
        exact hw.1
      rw [this, List.lookup_cons_self]
      simp
    · rw [List.lookup_cons]
      have : (d == k) = false := by simpa using hd
      rw [this]
      simp [hd]

theorem mapM_map_ok {α β γ : Type} {f : α → Outcome β} {g : β → γ} {F : α → Outcome γ} (hF : ∀ a, F a = (do let b ← f a; return g b)) :
    ∀ (l : List α) (r : List β), l.mapM f = .ok r → l.mapM F = .ok (r.map g) := by
  intro l
  induction l with
  | nil => intro r h; rw [List.mapM_nil] at h; cases h; rfl
  | cons a l ih =>
    intro r h
    rw [List.mapM_cons] at h ⊢
    rw [bind_ok_iff] at h
    obtain ⟨b, e1, h⟩ := h
    rw [bind_ok_iff] at h
    obtain ⟨bs, e2, h⟩ := h
    cases h
    rw [hF, e1, Outcome.bind_ok]
    simp only [Outcome.pure_eq, Outcome.bind_ok]
    rw [ih bs e2, Outcome.bind_ok]
    rfl

/-- what is planned for every destination -/
theorem planWeight_offers {g : Graph} {dim : Int} {plan : Plan} {l : List (Part × List Rat)} (h : offers g [dim] plan = .ok l) :
    planWeight g dim plan = .ok (l.map (fun x => (x.1, x.2.headD 0))) := by
  unfold offers at h
  rw [bind_ok_iff] at h
  obtain ⟨⟨st, nbrs⟩, e1, h⟩ := h
  unfold planWeight
  rw [e1, Outcome.bind_ok]
  dsimp only at h ⊢
  have hr : ∀ d, ((List.range [dim].length).mapM (offerDim g [dim] st d)) = (do
      let w ← offerDim g [dim] st d 0
      return [w]) := by
    intro d
    show ([0].mapM (offerDim g [dim] st d)) = _
    rw [List.mapM_cons, List.mapM_nil]
    rfl
  refine mapM_map_ok (f := fun d => do
    let ws ← (List.range [dim].length).mapM (offerDim g [dim] st d)
    return (d, ws)) ?_ nbrs l h
  intro d
  rw [hr]
  cases offerDim g [dim] st d 0 <;> rfl

end Verif.Part
