import Verif.Pcu.RecvModel
import Verif.Pcu.ApiProps
/-! # The receiving loop: helper lemmas -/
namespace Verif.Pcu.Recv
open Verif.Pcu.Api

/-- what a body does with a list of bytes (pure) -/
def Reader.parse {α : Type} : Reader α → List UInt8 → Option (α × List UInt8)
  | .done a, l => some (a, l)
  | .take n k, l => if n ≤ l.length then (k (l.take n)).parse (l.drop n) else none

/-- `P w (s, bytes) todo`: the current message is from `s`, of which `bytes` are unread, and `todo` are the
messages still to come; `I` is the same when a message has been received; `Q` is the state at the end -/
structure Stream (size : Nat) (P I : World → Int × List UInt8 → List Arrival → Prop) (Q : World → Prop) : Prop where
  unpacked : ∀ {w c todo}, P w c todo → unpacked w = .ok c.2.isEmpty
  sender : ∀ {w c todo}, I w c todo → sender w = .ok c.1
  next : ∀ {w c a todo}, P w c (a :: todo) → c.2 = [] →
    ∃ w', listen size w = .ok (true, w') ∧ P w' (a.sender, a.bytes) todo
  last : ∀ {w c}, P w c [] → c.2 = [] → ∃ w', listen size w = .ok (false, w') ∧ Q w'
  take : ∀ {w c todo n}, I w c todo → n ≤ c.2.length →
    ∃ w', unpack size w n = .ok (c.2.take n, w') ∧ I w' (c.1, c.2.drop n) todo
  inside : ∀ {w c todo}, P w c todo → c.2 ≠ [] → I w c todo
  outside : ∀ {w c todo}, I w c todo → P w c todo

section
variable {size : Nat} {P I : World → Int × List UInt8 → List Arrival → Prop} {Q : World → Prop}

theorem receive_cases (S : Stream size P I Q) : ∀ (todo : List Arrival) (f : Nat) (w : World)
    (c : Int × List UInt8), P w c todo → todo.length < f →
    (∃ w', receive size f w = .ok (false, w') ∧ Q w' ∧ c.2 = [] ∧ ∀ a ∈ todo, a.bytes = []) ∨
    (∃ w' c' todo', receive size f w = .ok (true, w') ∧ P w' c' todo' ∧ c'.2 ≠ [] ∧
      ((c' = c ∧ todo' = todo) ∨
        (c.2 = [] ∧ ∃ pre a, todo = pre ++ a :: todo' ∧ c' = (a.sender, a.bytes) ∧ ∀ b ∈ pre, b.bytes = []))) := by
  intro todo
  induction todo with
  | nil =>
    intro f w c hP hf
    obtain ⟨f, rfl⟩ : ∃ k, f = k + 1 := ⟨f - 1, by simp at hf; omega⟩
    by_cases hc : c.2 = []
    · obtain ⟨w', e, hq⟩ := S.last hP hc
      exact .inl ⟨w', by simp [receive, S.unpacked hP, hc, e], hq, hc, by simp⟩
    · have : c.2.isEmpty = false := by simpa using hc
      exact .inr ⟨w, c, [], by simp [receive, S.unpacked hP, this], hP, hc, .inl ⟨rfl, rfl⟩⟩
  | cons a todo ih =>
    intro f w c hP hf
    obtain ⟨f, rfl⟩ : ∃ k, f = k + 1 := ⟨f - 1, by simp at hf; omega⟩
    by_cases hc : c.2 = []
    · obtain ⟨w', e, hP'⟩ := S.next hP hc
      have e2 : receive size (f + 1) w = receive size f w' := by
        simp [receive, S.unpacked hP, hc, e]
      rcases ih f w' _ hP' (by simp at hf; omega) with ⟨w2, e3, hq, hb, hall⟩ | ⟨w2, c2, t2, e3, hP2, hne, hor⟩
      · refine .inl ⟨w2, by rw [e2, e3], hq, hc, ?_⟩
        intro b hb'
        rcases List.mem_cons.mp hb' with rfl | h
        · exact hb
        · exact hall b h
      · refine .inr ⟨w2, c2, t2, by rw [e2, e3], hP2, hne, .inr ⟨hc, ?_⟩⟩
        rcases hor with ⟨rfl, rfl⟩ | ⟨h0, pre, b, rfl, hc2, hpre⟩
        · exact ⟨[], a, rfl, rfl, by simp⟩
        · refine ⟨a :: pre, b, rfl, hc2, ?_⟩
          intro x hx
          rcases List.mem_cons.mp hx with rfl | h
          · exact h0
          · exact hpre x h
    · have : c.2.isEmpty = false := by simpa using hc
      exact .inr ⟨w, c, _, by simp [receive, S.unpacked hP, this], hP, hc, .inl ⟨rfl, rfl⟩⟩

theorem run_stream {α : Type} (S : Stream size P I Q) (rd : Reader α) :
    ∀ (w : World) (c : Int × List UInt8) (todo : List Arrival) (x : α) (rest : List UInt8),
    I w c todo → rd.parse c.2 = some (x, rest) →
    ∃ w', rd.run size w = .ok (x, w') ∧ I w' (c.1, rest) todo := by
  induction rd with
  | done a =>
    intro w c todo x rest hP h
    simp only [Reader.parse, Option.some.injEq, Prod.mk.injEq] at h
    obtain ⟨rfl, rfl⟩ := h
    exact ⟨w, rfl, hP⟩
  | take n k ih =>
    intro w c todo x rest hP h
    simp only [Reader.parse] at h
    split at h
    · rename_i hn
      obtain ⟨w1, e1, h1⟩ := S.take hP hn
      obtain ⟨w2, e2, h2⟩ := ih (c.2.take n) w1 _ todo x rest h1 h
      exact ⟨w2, by simp only [Reader.run, e1, Outcome.bind_ok, e2], h2⟩
    · cases h

/-- the loop reads every record of every message -/
theorem drain_stream {α : Type} (S : Stream size P I Q) (rd : Reader α) (enc : α → List UInt8) (V : α → Prop)
    (hne : ∀ x, V x → enc x ≠ []) (hrd : ∀ x rest, V x → rd.parse (enc x ++ rest) = some (x, rest))
    (R : Arrival → List α) :
    ∀ (f : Nat) (w : World) (s : Int) (cur : List α) (todo : List Arrival),
    P w (s, cur.flatMap enc) todo → (∀ a ∈ todo, a.bytes = (R a).flatMap enc) →
    (∀ x ∈ cur, V x) → (∀ a ∈ todo, ∀ x ∈ R a, V x) →
    cur.length + (todo.map (fun a => (R a).length)).sum + todo.length < f →
    ∃ w', drain size rd f w =
      .ok (cur.map (fun x => (s, x)) ++ todo.flatMap (fun a => (R a).map (fun x => (a.sender, x))), w') ∧ Q w' := by
  have hnil : ∀ l : List α, (∀ x ∈ l, V x) → (l.flatMap enc = [] ↔ l = []) := by
    intro l hl
    cases l with
    | nil => simp
    | cons x l => simp [hne x (hl x (by simp))]
  intro f
  induction f with
  | zero => intro w s cur todo _ _ _ _ h; omega
  | succ f ih =>
    intro w s cur todo hP hb hvc hvt hf
    rcases receive_cases S todo (f + 1) w _ hP (by omega) with ⟨w1, e1, hq, hc, hall⟩ | ⟨w1, c1, t1, e1, hP1, hn1, hor⟩
    · have h0 : cur = [] := (hnil cur hvc).mp hc
      have h1 : todo.flatMap (fun a => (R a).map (fun x => (a.sender, x))) = [] := by
        rw [List.flatMap_eq_nil_iff]
        intro a ha
        have h2 := hall a ha
        rw [hb a ha, hnil _ (hvt a ha)] at h2
        rw [h2]; rfl
      exact ⟨w1, by simp [drain, e1, h0, h1], hq⟩
    · -- the records of the current message
      obtain ⟨l, hl, hbt, hvl, hvt1, hsz, hres⟩ : ∃ l : List α, c1.2 = l.flatMap enc ∧ (∀ a ∈ t1, a.bytes = (R a).flatMap enc) ∧
          (∀ x ∈ l, V x) ∧ (∀ a ∈ t1, ∀ x ∈ R a, V x) ∧
          l.length + (t1.map (fun a => (R a).length)).sum + t1.length ≤
            cur.length + (todo.map (fun a => (R a).length)).sum + todo.length ∧
          cur.map (fun x => (s, x)) ++ todo.flatMap (fun a => (R a).map (fun x => (a.sender, x))) =
            l.map (fun x => (c1.1, x)) ++ t1.flatMap (fun a => (R a).map (fun x => (a.sender, x))) := by
        rcases hor with ⟨rfl, rfl⟩ | ⟨h0, pre, a, rfl, rfl, hpre⟩
        · exact ⟨cur, rfl, hb, hvc, hvt, Nat.le_refl _, rfl⟩
        · refine ⟨R a, hb a (by simp), fun b h => hb b (by simp [h]), hvt a (by simp), fun b h => hvt b (by simp [h]), ?_, ?_⟩
          · simp only [List.map_append, List.map_cons, List.sum_append, List.sum_cons, List.length_append,
              List.length_cons]
            omega
          · have h1 : cur = [] := (hnil cur hvc).mp h0
            have h2 : pre.flatMap (fun a => (R a).map (fun x => (a.sender, x))) = [] := by
              rw [List.flatMap_eq_nil_iff]
              intro b hbm
              have h3 := hpre b hbm
              rw [hb b (by simp [hbm]), hnil _ (hvt b (by simp [hbm]))] at h3
              rw [h3]; rfl
            rw [h1, List.flatMap_append, h2, List.flatMap_cons]
            simp
      obtain ⟨x, l', rfl⟩ : ∃ x l', l = x :: l' := by
        cases l with
        | nil => rw [hl] at hn1; simp at hn1
        | cons x l' => exact ⟨x, l', rfl⟩
      have hI := S.inside hP1 hn1
      have es := S.sender hI
      have hp : rd.parse c1.2 = some (x, l'.flatMap enc) := by
        rw [hl, List.flatMap_cons]; exact hrd x _ (hvl x (by simp))
      obtain ⟨w2, e2, hI2⟩ := run_stream S rd w1 c1 t1 x _ hI hp
      obtain ⟨w3, e3, hq⟩ := ih w2 c1.1 l' t1 (S.outside hI2) hbt
        (fun y hy => hvl y (by simp [hy])) hvt1 (by simp only [List.length_cons] at hsz; omega)
      refine ⟨w3, ?_, hq⟩
      rw [hres]
      simp [drain, e1, es, e2, e3]
end

end Verif.Pcu.Recv
