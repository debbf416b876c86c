import Verif.Agi.MigEdges
/-!
# Lists over the parts `0 … n-1`
-/
namespace Verif.Agi

theorem mapM_range {α β : Type} {n : Nat} {F : Nat → α} {f : α → Outcome β} {G : Nat → β}
    (h : ∀ p, p < n → f (F p) = .ok (G p)) :
    ((List.range n).map F).mapM f = .ok ((List.range n).map G) := by
  rw [List.mapM_map]
  apply mapM_ok
  intro p hp
  exact h p (List.mem_range.mp hp)

theorem zip_range {α β : Type} (n : Nat) (F : Nat → α) (G : Nat → β) :
    ((List.range n).map F).zip ((List.range n).map G) = (List.range n).map (fun p => (F p, G p)) := by
  apply List.ext_getElem
  · simp
  · intro k h1 h2; simp

theorem zipIdx_range {α : Type} (n : Nat) (F : Nat → α) :
    ((List.range n).map F).zipIdx = (List.range n).map (fun p => (F p, p)) := by
  apply List.ext_getElem
  · simp
  · intro k h1 h2; simp

theorem list_range {α : Type} (l : List α) (d : α) : l = (List.range l.length).map (fun p => l.getD p d) := by
  apply List.ext_getElem
  · simp
  · intro k h1 h2
    simp [List.getD_eq_getElem?_getD, List.getElem?_eq_getElem h1]

theorem getD_range {α : Type} {n : Nat} (F : Nat → α) {p : Nat} (h : p < n) (d : α) :
    ((List.range n).map F).getD p d = F p := by
  rw [List.getD_eq_getElem?_getD]; simp [h]

theorem exchange_range {M : Type} {n : Nat} {O : Nat → List (Part × M)} {ord : Nat → List Nat}
    (h : ∀ p, p < n → ∀ m ∈ O p, 0 ≤ m.1 ∧ m.1 < (n : Int)) :
    exchange ((List.range n).map O) ord =
      .ok ((List.range n).map (fun q => inbox ((List.range n).map O) (ord q) q)) := by
  rw [exchange_ok]
  · simp
  · intro o ho m hm
    obtain ⟨p, hp, rfl⟩ := List.mem_map.mp ho
    have := h p (List.mem_range.mp hp) m hm
    simpa using this

theorem mem_inbox_range {M : Type} {n : Nat} {O : Nat → List (Part × M)} {ord : Nat → List Nat}
    (ho : Orders n ord) {q : Nat} (hq : q < n) {x : Nat × M} :
    x ∈ inbox ((List.range n).map O) (ord q) q ↔ x.1 < n ∧ ((q : Int), x.2) ∈ O x.1 := by
  rw [mem_inbox, (ho q hq).mem_iff, List.mem_range]
  constructor
  · rintro ⟨h1, h2⟩; rw [getD_range _ h1] at h2; exact ⟨h1, h2⟩
  · rintro ⟨h1, h2⟩; rw [getD_range _ h1]; exact ⟨h1, h2⟩

/-- the vertices that arrive on part `q` -/
def arrivals (S : Nat → List Gid) (o : Gid → Part) (order : List Nat) (q : Nat) : List Gid :=
  order.flatMap (fun p => (S p).filter (fun v => decide (o v = (q : Int))))

theorem inbox_values {α : Type} {n : Nat} (S : Nat → List Gid) (o : Gid → Part) (F : Gid → α)
    {ord : Nat → List Nat} (ho : Orders n ord) {q : Nat} (hq : q < n) :
    (inbox ((List.range n).map (fun p => (S p).map (fun v => (o v, F v)))) (ord q) q).map Prod.snd =
      (arrivals S o (ord q) q).map F := by
  have hord : ∀ p ∈ ord q, p < n := fun p hp => List.mem_range.mp ((ho q hq).mem_iff.mp hp)
  unfold inbox arrivals
  generalize ord q = l at hord
  induction l with
  | nil => rfl
  | cons a l ih =>
    rw [List.flatMap_cons, List.flatMap_cons, List.map_append, List.map_append, ih (fun p hp => hord p (by simp [hp]))]
    congr 1
    rw [getD_range _ (hord a (by simp)), List.map_map, List.filter_map, List.map_map]
    rfl

theorem mem_arrivals {n : Nat} {S : Nat → List Gid} {o : Gid → Part} {ord : Nat → List Nat}
    (ho : Orders n ord) {q : Nat} (hq : q < n) {v : Gid} :
    v ∈ arrivals S o (ord q) q ↔ o v = (q : Int) ∧ ∃ p, p < n ∧ v ∈ S p := by
  unfold arrivals
  rw [List.mem_flatMap]
  constructor
  · rintro ⟨p, hp, hv⟩
    rw [List.mem_filter, decide_eq_true_iff] at hv
    exact ⟨hv.2, p, List.mem_range.mp ((ho q hq).mem_iff.mp hp), hv.1⟩
  · rintro ⟨h1, p, hp, hv⟩
    refine ⟨p, (ho q hq).mem_iff.mpr (List.mem_range.mpr hp), ?_⟩
    rw [List.mem_filter, decide_eq_true_iff]; exact ⟨hv, h1⟩

theorem arrivals_nodup {n : Nat} {S : Nat → List Gid} {o : Gid → Part} {ord : Nat → List Nat}
    (ho : Orders n ord) {q : Nat} (hq : q < n) (h1 : ∀ p, p < n → (S p).Nodup)
    (h2 : ∀ p p', p < n → p' < n → ∀ v, v ∈ S p → v ∈ S p' → p = p') : (arrivals S o (ord q) q).Nodup := by
  have hnd : (ord q).Nodup := (ho q hq).nodup_iff.mpr List.nodup_range
  have hord : ∀ p ∈ ord q, p < n := fun p hp => List.mem_range.mp ((ho q hq).mem_iff.mp hp)
  unfold arrivals
  generalize ord q = l at hord hnd
  induction l with
  | nil => simp
  | cons a l ih =>
    rw [List.flatMap_cons, List.nodup_append]
    rw [List.nodup_cons] at hnd
    refine ⟨(h1 a (hord a (by simp))).filter _, ih (fun p hp => hord p (by simp [hp])) hnd.2, ?_⟩
    intro v hv w hw he
    subst he
    rw [List.mem_flatMap] at hw
    obtain ⟨p, hp, hw⟩ := hw
    have := h2 a p (hord a (by simp)) (hord p (by simp [hp])) v (List.mem_filter.mp hv).1 (List.mem_filter.mp hw).1
    subst this
    exact hnd.1 hp

theorem choose_part {α : Type} [Inhabited α] {n : Nat} {P : Nat → α → Prop} (h : ∀ p, p < n → ∃ a, P p a) :
    ∃ f : Nat → α, ∀ p, p < n → P p (f p) := by
  classical
  refine ⟨fun p => if hp : p < n then Classical.choose (h p hp) else default, fun p hp => ?_⟩
  simp only [hp, dif_pos]
  exact Classical.choose_spec (h p hp)

end Verif.Agi
