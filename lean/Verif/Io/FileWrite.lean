import Verif.Io.FileRead
import Verif.Agi.MigProps
/-!
# Lemmas: what `saveToFile` writes
-/
namespace Verif.Io
open Verif.Agi

/-- what can be seen of the graph of part `p`: local vertices, ghosts, owners, weights, coordinates, and for every
type the edges with their handles -/
structure Shows (g : Graph) (p : Nat) (verts ghosts : List Gid) (own : Gid → Nat) (wt : Gid → Wgt)
    (co : Option (Gid → Coord)) (ez : List (List (Handle × HEdge))) : Prop where
  v : VRep g verts ghosts
  rank : g.self = (p : Int)
  nt : g.numTypes = ez.length
  wts : g.weights = Mem.ofList (verts.map wt)
  chas : g.coords.isSome = co.isSome
  cval : ∀ c, co = some c → ∀ v ∈ verts, g.coord (vh (verts ++ ghosts) v) = .ok (c v)
  ors : ORep g ghosts (fun v => (own v : Int))
  loc : ∀ v ∈ verts, own v = p
  num : ∀ t (h : t < ez.length), g.numLocalEdges t = .ok ez[t].length
  edges : ∀ t (h : t < ez.length), YieldsFrom (g.edgeBegin t) g.iterEdge (ez[t].map Prod.fst)
  at_ : ∀ t (h : t < ez.length), ∀ x ∈ ez[t], EdgeAt g (verts ++ ghosts) x.1 x.2
  known : ∀ t (h : t < ez.length), ∀ x ∈ ez[t], ∀ v ∈ x.2.pins, v ∈ verts ++ ghosts
  fuelE : ∀ t (h : t < ez.length), ez[t].length < g.bound
  fuelP : ∀ t (h : t < ez.length), ∀ x ∈ ez[t], x.2.pins.length < g.bound
  fuelV : verts.length < g.bound

theorem iterLoop_upd {σ α β : Type} {step : σ → Outcome (Handle × σ)}
    {body : β → Handle → Outcome (β × Bool)} {hd : α → Handle} {F : β → α → β} {xs : List α} {s : σ}
    {fuel : Nat} (hy : Yields step s (xs.map hd)) (hf : xs.length < fuel)
    (hb : ∀ acc, ∀ x ∈ xs, body acc (hd x) = .ok (F acc x, false)) (a : β) :
    iterLoop step body fuel s a = .ok (xs.foldl F a) := by
  rw [iterLoop_yields body _ s fuel a hy (by simpa using hf)]
  clear hy hf
  induction xs generalizing a with
  | nil => simp [loopList]
  | cons x xs ih =>
    rw [List.map_cons, loopList, hb a x (by simp), Outcome.bind_ok]
    simp only [Bool.false_eq_true, if_false]
    exact ih (fun acc y hy => hb acc y (by simp [hy])) _

theorem foldl_append {α : Type} (f : α → List Nat) : ∀ (xs : List α) (a : List Nat),
    xs.foldl (fun acc x => acc ++ f x) a = a ++ xs.flatMap f := by
  intro xs
  induction xs with
  | nil => intro a; simp
  | cons x xs ih => intro a; rw [List.foldl_cons, ih]; simp

/-- the note of the owner of a pin -/
def note (own : Gid → Nat) (p : Nat) (m : List (Gid × Part)) (v : Gid) : List (Gid × Part) :=
  if own v ≠ p then assocPut m (toU32 v : Int) (own v : Int) else m

/-- the owner map after all pins -/
def ownsOf (own : Gid → Nat) (p : Nat) (pins : List Gid) : List (Gid × Part) := pins.foldl (note own p) []

variable {g : Graph} {p : Nat} {verts ghosts : List Gid} {own : Gid → Nat} {wt : Gid → Wgt}
  {co : Option (Gid → Coord)} {ez : List (List (Handle × HEdge))} {c : Codec} {little : Bool}

theorem Shows.owner (h : Shows g p verts ghosts own wt co ez) {v : Gid} (hv : v ∈ verts ++ ghosts) :
    g.owner (vh (verts ++ ghosts) v) = .ok (own v : Int) := by
  rw [owner_eq h.v h.ors hv]
  unfold ownerOf
  split
  · next hm => rw [h.rank, h.loc v hm]
  · rfl

theorem Shows.weight (h : Shows g p verts ghosts own wt co ez) {v : Gid} (hv : v ∈ verts) :
    g.weight (vh (verts ++ ghosts) v) = .ok (wt v) := by
  rw [vh_local hv]
  have hlt := List.idxOf_lt_length_of_mem hv
  rw [weight_local h.v h.wts hlt (by simpa using hlt)]
  simp

theorem Shows.writeVertices (h : Shows g p verts ghosts own wt co ez) :
    writeVertices c little g = .ok ((wU little (verts.length : Nat) ++
      (verts.map (fun v => (v, wt v))).flatMap (fun x => wU little x.1 ++ wD c little [x.2])) ++
      coordBytes c little (co.map (fun f => verts.map f))) := by
  unfold Io.writeVertices
  have h1 := iterLoop_upd (body := writeVertex c little g) (F := fun acc v => acc ++ (wU little v ++ wD c little [wt v]))
    (yields_verts h.v) h.fuelV (by
      intro acc v hv
      unfold writeVertex
      rw [globalID_eq h.v (by simp [hv]), Outcome.bind_ok, h.weight hv, Outcome.bind_ok]; rfl) (wU little g.numLocal)
  rw [h1, Outcome.bind_ok, foldl_append, h.v.nl]
  have h2 : writeCoords c little g = .ok (coordBytes c little (co.map (fun f => verts.map f))) := by
    unfold writeCoords
    rw [h.chas]
    cases hco : co with
    | none => rfl
    | some f =>
      simp only [Option.isSome_some, if_true, Option.map_some, coordBytes]
      rw [iterLoop_upd (body := writeCoord c little g)
        (F := fun acc v => acc ++ wD c little [(f v).1, (f v).2.1, (f v).2.2])
        (yields_verts h.v) h.fuelV (by
          intro acc v hv
          unfold writeCoord
          rw [h.cval f hco v hv, Outcome.bind_ok]; rfl), foldl_append, List.flatMap_map]
  rw [h2, Outcome.bind_ok, List.flatMap_map]
  rfl

theorem Shows.writePins (h : Shows g p verts ghosts own wt co ez) : ∀ (pins : List Gid) (l : List Nat) (it : PinIt)
    (ps : List Nat) (m : List (Gid × Part)), l.length = pins.length → (∀ v ∈ pins, v ∈ verts ++ ghosts) →
    Yields g.iterPin it (pins.map (vh (verts ++ ghosts))) →
    ∃ it', l.foldlM (writePin g) (it, ps, m) = .ok (it', ps ++ pins.map toU32, pins.foldl (note own p) m) := by
  intro pins
  induction pins with
  | nil =>
    intro l it ps m hl _ _
    have : l = [] := List.length_eq_zero_iff.mp hl
    subst this
    exact ⟨it, by simp⟩
  | cons v pins ih =>
    intro l it ps m hl hk hy
    match l, hl with
    | _ :: l, hl =>
      obtain ⟨_, it1, e1, hy1⟩ := hy
      obtain ⟨it', e'⟩ := ih l it1 (ps ++ [toU32 v]) (note own p m v) (by simpa using hl)
        (fun w hw => hk w (by simp [hw])) hy1
      refine ⟨it', ?_⟩
      have hstep : ∀ k, writePin g (it, ps, m) k = .ok (it1, ps ++ [toU32 v], note own p m v) := by
        intro k
        unfold writePin
        simp only
        rw [e1, Outcome.bind_ok]
        simp only
        rw [globalID_eq h.v (hk v (by simp)), Outcome.bind_ok]
        have hn : noteOwner g m (vh (verts ++ ghosts) v) (toU32 v) = .ok (note own p m v) := by
          unfold noteOwner note
          rw [h.owner (hk v (by simp)), Outcome.bind_ok, h.rank]
          by_cases hc : own v = p
          · rw [if_neg (by simp [hc]), if_neg (by simpa using hc)]; rfl
          · rw [if_pos (by omega), if_pos hc]; rfl
        rw [hn, Outcome.bind_ok]; rfl
      rw [List.foldlM_cons, hstep, Outcome.bind_ok, e']
      simp

theorem Shows.writeEdge (h : Shows g p verts ghosts own wt co ez) {t : Nat} (ht : t < ez.length)
    {x : Handle × HEdge} (hx : x ∈ ez[t]) (hd : x.2.pins.length < 2 ^ 32) (s : List Nat × List (Gid × Part)) :
    writeEdge c little g s x.1 =
      .ok ((s.1 ++ hedgeBytes c little x.2, x.2.pins.foldl (note own p) s.2), false) := by
  have hat := h.at_ t ht x hx
  obtain ⟨it, e, hy⟩ := hat.pins
  unfold Io.writeEdge
  rw [hat.id, Outcome.bind_ok, hat.w, Outcome.bind_ok, hat.deg, Outcome.bind_ok, e, Outcome.bind_ok]
  rw [toU32_nat hd]
  obtain ⟨it', e'⟩ := h.writePins x.2.pins (List.range x.2.pins.length) it [] s.2 (by simp) (h.known t ht x hx) hy
  rw [e', Outcome.bind_ok]
  simp only [List.nil_append]
  rfl

theorem Shows.writeEdges (h : Shows g p verts ghosts own wt co ez) {t : Nat} (ht : t < ez.length)
    (hd : ∀ x ∈ ez[t], x.2.pins.length < 2 ^ 32) (s : List Nat × List (Gid × Part)) :
    writeEdges c little g s t = .ok (s.1 ++ typeBytes c little t (ez[t].map Prod.snd),
      ((ez[t].map Prod.snd).flatMap HEdge.pins).foldl (note own p) s.2) := by
  unfold Io.writeEdges
  rw [h.num t ht, Outcome.bind_ok]
  obtain ⟨it, e, hy⟩ := h.edges t ht
  rw [e, Outcome.bind_ok]
  rw [iterLoop_upd (body := Io.writeEdge c little g)
    (F := fun acc (x : Handle × HEdge) => (acc.1 ++ hedgeBytes c little x.2, x.2.pins.foldl (note own p) acc.2))
    hy (h.fuelE t ht) (fun acc x hx => h.writeEdge ht hx (hd x hx) acc)]
  congr 1
  have : ∀ (l : List (Handle × HEdge)) (a : List Nat × List (Gid × Part)),
      l.foldl (fun acc (x : Handle × HEdge) => (acc.1 ++ hedgeBytes c little x.2, x.2.pins.foldl (note own p) acc.2)) a =
      (a.1 ++ (l.map Prod.snd).flatMap (hedgeBytes c little),
        ((l.map Prod.snd).flatMap HEdge.pins).foldl (note own p) a.2) := by
    intro l
    induction l with
    | nil => intro a; simp
    | cons x l ih => intro a; rw [List.foldl_cons, ih]; simp
  rw [this]
  unfold typeBytes
  rw [List.length_map]
  simp [List.append_assoc]

/-- all pins of all edges -/
def pinsOf (types : List (List HEdge)) : List Gid := types.flatMap (fun es => es.flatMap HEdge.pins)

theorem typesBytes_snoc (t : Nat) : ∀ (l : List (List HEdge)) (es : List HEdge),
    typesBytes c little t (l ++ [es]) = typesBytes c little t l ++ typeBytes c little (t + l.length) es := by
  intro l
  induction l generalizing t with
  | nil => intro es; simp [typesBytes]
  | cons a l ih =>
    intro es
    rw [List.cons_append, typesBytes, ih, typesBytes, List.append_assoc, List.length_cons,
      show t + 1 + l.length = t + (l.length + 1) by omega]

theorem Shows.save (h : Shows g p verts ghosts own wt co ez) {ord : List (Gid × Part) → List (Gid × Part)}
    (hord : ∀ l, (ord l).Perm l) (hd : ∀ es ∈ ez, ∀ x ∈ es, x.2.pins.length < 2 ^ 32) :
    saveFile c little ord g = .ok (fileBytes c little g.isHyper (verts.map (fun v => (v, wt v)))
      (co.map (fun f => verts.map f)) (ez.map (fun es => es.map Prod.snd))
      (ord (ownsOf own p (pinsOf (ez.map (fun es => es.map Prod.snd)))))) := by
  unfold saveFile
  rw [h.writeVertices, Outcome.bind_ok]
  have h1 : ∀ k, k ≤ ez.length → (List.range k).foldlM (Io.writeEdges c little g) ([], []) =
      .ok (typesBytes c little 0 ((ez.take k).map (fun es => es.map Prod.snd)),
        ownsOf own p (pinsOf ((ez.take k).map (fun es => es.map Prod.snd)))) := by
    intro k
    induction k with
    | zero => intro _; simp [typesBytes, ownsOf, pinsOf]
    | succ k ih =>
      intro hk
      rw [List.range_succ, List.foldlM_append, ih (by omega)]
      simp only [List.foldlM_cons, List.foldlM_nil]
      rw [Outcome.bind_ok, h.writeEdges (by omega) (fun x hx => hd _ (List.getElem_mem (by omega)) x hx)]
      rw [List.take_add_one, List.getElem?_eq_getElem (by omega), Option.toList_some, List.map_append,
        List.map_singleton, typesBytes_snoc]
      simp only [List.length_map, List.length_take, Nat.zero_add]
      rw [show min k ez.length = k by omega]
      simp only [ownsOf, pinsOf, List.flatMap_append, List.foldl_append, List.flatMap_singleton]
      rfl
  have h2 := h1 ez.length (Nat.le_refl _)
  rw [List.take_length, ← h.nt] at h2
  rw [h2, Outcome.bind_ok]
  unfold fileBytes writeHeader writeGhosts
  simp only [Outcome.pure_eq, (hord _).length_eq, List.length_map, h.nt]

/-! ## the owner map -/

theorem assocPut_spec {m : List (Gid × Part)} (hnd : (m.map Prod.fst).Nodup) (k : Gid) (o : Part) :
    ((assocPut m k o).map Prod.fst).Nodup ∧ ∀ x, x ∈ assocPut m k o ↔ x = (k, o) ∨ x ∈ m ∧ x.1 ≠ k := by
  unfold assocPut
  by_cases hk : m.any (fun x => x.1 == k) = true
  · rw [if_pos hk]
    rw [List.any_eq_true] at hk
    obtain ⟨y, hy, hyk⟩ := hk
    have hyk' : y.1 = k := by simpa using hyk
    constructor
    · rw [List.map_map]
      have : (Prod.fst ∘ fun x : Gid × Part => if x.1 = k then (k, o) else x) = Prod.fst := by
        funext x
        simp only [Function.comp]
        split
        · next h => exact h.symm
        · rfl
      rw [this]; exact hnd
    · intro x
      rw [List.mem_map]
      constructor
      · rintro ⟨z, hz, rfl⟩
        split
        · left; rfl
        · next h => right; exact ⟨hz, h⟩
      · rintro (rfl | ⟨h1, h2⟩)
        · exact ⟨y, hy, by rw [if_pos hyk']⟩
        · exact ⟨x, h1, by rw [if_neg h2]⟩
  · rw [if_neg hk]
    have hk' : ∀ y ∈ m, y.1 ≠ k := by
      intro y hy hc
      apply hk
      rw [List.any_eq_true]
      exact ⟨y, hy, by simpa using hc⟩
    constructor
    · rw [List.map_append, List.map_singleton, List.nodup_append]
      refine ⟨hnd, by simp, ?_⟩
      intro a ha b hb
      obtain ⟨y, hy, rfl⟩ := List.mem_map.mp ha
      simp only [List.mem_singleton] at hb
      subst hb
      exact hk' y hy
    · intro x
      rw [List.mem_append, List.mem_singleton]
      constructor
      · rintro (h | h)
        · right; exact ⟨h, hk' x h⟩
        · left; exact h
      · rintro (h | h)
        · right; exact h
        · left; exact h.1

theorem ownsOf_spec {pins : List Gid} (hu : ∀ v ∈ pins, U32 v) :
    ((ownsOf own p pins).map Prod.fst).Nodup ∧
    ∀ x, x ∈ ownsOf own p pins ↔ x.1 ∈ pins ∧ own x.1 ≠ p ∧ x.2 = (own x.1 : Int) := by
  unfold ownsOf
  suffices H : ∀ (pre l : List Gid) (m : List (Gid × Part)), (∀ v ∈ l, U32 v) → (m.map Prod.fst).Nodup →
      (∀ x, x ∈ m ↔ x.1 ∈ pre ∧ own x.1 ≠ p ∧ x.2 = (own x.1 : Int)) →
      ((l.foldl (note own p) m).map Prod.fst).Nodup ∧
      ∀ x, x ∈ l.foldl (note own p) m ↔ x.1 ∈ pre ++ l ∧ own x.1 ≠ p ∧ x.2 = (own x.1 : Int) by
    have := H [] pins [] hu (by simp) (by simp)
    simpa using this
  intro pre l
  induction l generalizing pre with
  | nil => intro m _ h1 h2; rw [List.append_nil]; exact ⟨h1, h2⟩
  | cons v l ih =>
    intro m hu h1 h2
    rw [List.foldl_cons]
    have hv := toU32_eq (hu v (by simp))
    have hstep : ((note own p m v).map Prod.fst).Nodup ∧
        ∀ x, x ∈ note own p m v ↔ x.1 ∈ pre ++ [v] ∧ own x.1 ≠ p ∧ x.2 = (own x.1 : Int) := by
      unfold note
      by_cases hc : own v = p
      · rw [if_neg (by simpa using hc)]
        refine ⟨h1, fun x => ?_⟩
        rw [h2 x, List.mem_append, List.mem_singleton]
        constructor
        · rintro ⟨a, b⟩; exact ⟨.inl a, b⟩
        · rintro ⟨a | a, b, d⟩
          · exact ⟨a, b, d⟩
          · rw [a] at b; exact absurd hc b
      · rw [if_pos hc, hv]
        obtain ⟨a1, a2⟩ := assocPut_spec h1 v (own v : Int)
        refine ⟨a1, fun x => ?_⟩
        rw [a2 x, h2 x, List.mem_append, List.mem_singleton]
        constructor
        · rintro (rfl | ⟨⟨a, b, d⟩, e⟩)
          · exact ⟨.inr rfl, hc, rfl⟩
          · exact ⟨.inl a, b, d⟩
        · rintro ⟨a, b, d⟩
          by_cases hxv : x.1 = v
          · left
            rw [Prod.ext_iff]; exact ⟨hxv, by rw [d, hxv]⟩
          · right
            exact ⟨⟨a.resolve_right hxv, b, d⟩, hxv⟩
    have := ih (pre ++ [v]) (note own p m v) (fun w hw => hu w (by simp [hw])) hstep.1 hstep.2
    simpa using this

end Verif.Io
