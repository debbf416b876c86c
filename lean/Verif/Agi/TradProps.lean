import Verif.Agi.TradRound
/-!
# C20: the edges of a traditional graph after any sequence of migrations

Which edges survive is decided by where the vertices were and went: `Lost` describes exactly the edges one
migration drops.  Everything else is on the part that owns its source, with its two ends.
-/
namespace Verif.Agi
open Verif.Io (grouped grouped_perm grouped_length)

/-! ## what a user reads back, and what is expected -/

/-- the global ids of the pins of an edge -/
def Graph.pinGids (g : Graph) (e : Handle) : Outcome (List Gid) := do
  let it ← g.pins e
  iterLoop g.iterPin (fun acc v => do
    let gid ← g.globalID v
    return (acc ++ [gid], false)) g.bound it []

/-- iterate over the edges of a type and collect the pins -/
def Graph.arcGids (g : Graph) (t : Nat) : Outcome (List (List Gid)) := do
  let it ← g.edgeBegin t
  iterLoop g.iterEdge (fun acc e => do
    let x ← g.pinGids e
    return (acc ++ [x], false)) g.bound it []

/-- the edges that survive a sequence of migrations: an edge is lost in a round if its source stays and its
destination, which was on the same part, leaves -/
def survivors : (Gid → Nat) → List Round → List (List Gid) → List (List Gid)
  | _, [], T => T
  | own, r :: rs, T => survivors (place own r.ops) rs (T.filter (fun x => decide (¬ Lost own (place own r.ops) x)))

/-- all edges of the start -/
def allArcs (ins : List Input) : List (List Gid) := ins.flatMap (fun i => i.types.flatMap EdgeInput.pins)

/-- a traditional graph with one edge type: every part passes its own vertices and the edges leaving them -/
structure TradStart (ins : List Input) (own : Gid → Nat) : Prop where
  placed : Placed ins own
  trad : ∀ i ∈ ins, i.hyper = false
  one : ∀ i ∈ ins, ∃ e, i.types = [e] ∧ e.ids.length = e.pins.length ∧ (e.wgts = [] ∨ e.wgts.length = e.ids.length)
  arcs : ∀ i ∈ ins, ∀ e ∈ i.types, ∀ x ∈ e.pins, ∃ u ∈ i.verts, ∃ w ∈ allVerts ins, u ≠ w ∧ x = [u, w]

section
variable {ins : List Input} {own : Gid → Nat} {owns : List (GMap Part)} {o1 o2 : Nat → List Nat}
  {co : Option (Gid → Coord)} {gs0 gs : List Graph} {rs : List Round}

theorem TradStart.arcsIn (h : TradStart ins own) : ArcsIn (allVerts ins) (allArcs ins) := by
  intro x hx
  obtain ⟨i, hi, hx⟩ := List.mem_flatMap.mp hx
  obtain ⟨e, he, hx⟩ := List.mem_flatMap.mp hx
  obtain ⟨u, hu, w, hw, hne, rfl⟩ := h.arcs i hi e he x hx
  exact ⟨u, List.mem_flatten.mpr ⟨_, List.mem_map.mpr ⟨i, hi, rfl⟩, hu⟩, w, hw, hne, rfl⟩

/-- the edges of a part among all -/
theorem TradStart.part (h : TradStart ins own) {p : Nat} (hp : p < ins.length) {e : EdgeInput}
    (he : ins[p].types = [e]) : e.pins.Perm ((allArcs ins).filter (fun x => decide (own (src x) = p))) := by
  have hsrc : ∀ q (hq : q < ins.length), ∀ x ∈ ins[q].types.flatMap EdgeInput.pins, own (src x) = q := by
    intro q hq x hx
    obtain ⟨e, he, hx⟩ := List.mem_flatMap.mp hx
    obtain ⟨u, hu, w, -, -, rfl⟩ := h.arcs _ (List.getElem_mem hq) e he x hx
    exact h.placed.verts q hq u hu
  have key : ∀ (l pre : List Input), pre ++ l = ins →
      (l.flatMap (fun i => i.types.flatMap EdgeInput.pins)).filter (fun x => decide (own (src x) = p)) =
        if pre.length ≤ p then e.pins else [] := by
    intro l
    induction l with
    | nil =>
      intro pre hpre
      rw [if_neg]
      · rfl
      · rw [List.append_nil] at hpre; subst hpre; omega
    | cons i l ih =>
      intro pre hpre
      rw [List.flatMap_cons, List.filter_append, ih (pre ++ [i]) (by simpa using hpre)]
      have hlt : pre.length < ins.length := by rw [← hpre]; simp
      have hi : ins[pre.length] = i := by simp [← hpre]
      by_cases hpp : pre.length = p
      · subst hpp
        rw [List.filter_eq_self.mpr, if_neg (by simp), if_pos (Nat.le_refl _)]
        · rw [hi] at he
          rw [he]; simp
        · intro x hx
          rw [← hi] at hx
          simpa using hsrc _ hlt x hx
      · rw [List.filter_eq_nil_iff.mpr]
        · rw [List.nil_append]
          simp only [List.length_append, List.length_cons, List.length_nil]
          split <;> split <;> first | rfl | omega
        · intro x hx
          rw [← hi] at hx
          have := hsrc _ hlt x hx
          simp only [decide_eq_true_eq]; omega
  have := key ins [] rfl
  rw [if_pos (by simp)] at this
  unfold allArcs
  rw [this]

theorem setup_trad (h : TradStart ins own) (hl : owns.length = ins.length)
    (e : setupAll ins co owns o1 o2 = .ok gs0) :
    ∃ (gr : Nat → Graph) (V : Nat → List Gid), gs0 = (List.range ins.length).map gr ∧
      (∀ p, p < ins.length → LRep (startD ins own co) own p (gr p) (V p)) ∧
      ∀ p, p < ins.length → ∃ ghosts ids es wgts, TPart (allArcs ins) own p (gr p) (V p) ghosts ids es wgts := by
  obtain ⟨gr, h1, h2⟩ := setup_any' h.placed hl e
  refine ⟨gr, vertsAt ins, h1, fun p hp => (h2 p hp).1, fun p hp => ?_⟩
  obtain ⟨g1, hb, kc⟩ := (h2 p hp).2
  have hm := List.getElem_mem hp
  obtain ⟨e, he, he1, he2⟩ := h.one _ hm
  have hhy := h.trad _ hm
  have hwf : ins[p].WF := by
    refine ⟨h.placed.nodup _ hm, by rw [he]; simp [maxTypes], ?_⟩
    intro e' he'
    have he3 := he'
    rw [he, List.mem_singleton] at he'
    subst he'
    refine ⟨he1, he2, fun _ x hx => ?_⟩
    obtain ⟨u, -, w, -, -, rfl⟩ := h.arcs _ hm _ he3 x hx
    rfl
  obtain ⟨g2, ghosts, hb2, hr, -⟩ := build_spec' (p : Int) ins.length ((ins.map (fun i : Input => (i.verts.length : Int))).sum) ins[p] hwf
  rw [hb] at hb2
  have := Outcome.ok.inj hb2
  subst this
  have c := kc (hr.core hwf)
  rw [hhy, he] at c
  exact ⟨ghosts, e.ids, e.pins, e.wgts, by rw [vertsAt_eq hp]; exact c, h.part hp he⟩

theorem rounds_trad {D : VD} {n : Nat} (hn : 0 < n) (hnd : D.verts.Nodup) : ∀ (rs : List Round) {own : Gid → Nat}
    {T : List (List Gid)}, ArcsIn D.verts T →
    (∀ v ∈ D.verts, own v < n) → ∀ {gr : Nat → Graph} {V : Nat → List Gid},
    (∀ p, p < n → LRep D own p (gr p) (V p)) →
    (∀ p, p < n → ∃ ghosts ids es wgts, TPart T own p (gr p) (V p) ghosts ids es wgts) →
    RoundsOk D.verts n D.co.isSome own rs →
    ∀ {gs : List Graph}, migrateRounds ((List.range n).map gr) rs = .ok gs →
    ∃ (gr' : Nat → Graph) (V' : Nat → List Gid), gs = (List.range n).map gr' ∧
      (∀ p, p < n → LRep D (placeAll own rs) p (gr' p) (V' p)) ∧
      ∀ p, p < n → ∃ ghosts ids es wgts,
        TPart (survivors own rs T) (placeAll own rs) p (gr' p) (V' p) ghosts ids es wgts := by
  intro rs
  induction rs with
  | nil =>
    intro own T hT hown gr V hl ht _ gs h
    have := Outcome.ok.inj h
    subst this
    exact ⟨gr, V, rfl, hl, ht⟩
  | cons r rs ih =>
    intro own T hT hown gr V hl ht hr gs h
    unfold migrateRounds at h
    rw [List.foldlM_cons] at h
    obtain ⟨gs1, h1, h2⟩ := bind_ok_iff.mp h
    obtain ⟨hr1, hr2⟩ := hr
    have hpl : ∀ p, p < n → ∃ plan, (gr p).planG (r.ops p) = .ok plan ∧ ∃ s, PlanRep (V p) plan s
        (fun v => plannedG v (r.ops p).reverse) := by
      intro p hp
      obtain ⟨plan, s, e, h⟩ := planG_local (hl p hp).nl (hl p hp).nodup (fun v hv => (hl p hp).findGID hv) (r.ops p) (by
        intro v d hv
        obtain ⟨h1, h2, h3⟩ := hr1.ops p hp v d hv
        exact ⟨((hl p hp).mem v).mpr h1, by omega⟩)
      exact ⟨plan, e, s, h⟩
    haveI : Inhabited Plan := ⟨⟨none, []⟩⟩
    obtain ⟨pl, hpl'⟩ := choose_part hpl
    unfold migrateRound at h1
    rw [zipIdx_range, mapM_range (G := pl) (fun p hp => (hpl' p hp).1), Outcome.bind_ok] at h1
    obtain ⟨gr1, V1, rfl, hl1, ht1⟩ := round_trad hn hnd hown (place_lt hown hr1) hT hl ht (by
      intro p hp
      obtain ⟨-, s, h⟩ := hpl' p hp
      refine ⟨s, _, h, fun v hv => ?_⟩
      exact place_planned hr1 hp (((hl p hp).mem v).mp hv).2) hr1.env h1
    exact ih (fun x hx => hT x (List.mem_filter.mp hx).1) (place_lt hown hr1) hl1 ht1 hr2 h2

theorem arcGids_eq {g : Graph} {V ghosts ids : List Gid} {es : List (List Gid)} {wgts : List Wgt}
    (c : CRep g false V ghosts [⟨ids, es, wgts⟩]) (hs : ArcsOn V es) : g.arcGids 0 = .ok (grouped V es) := by
  obtain ⟨it, hit, hy⟩ := edgeBegin_trad c hs
  unfold Graph.arcGids
  rw [hit, Outcome.bind_ok, iterLoop_collect (F := fun k => (grouped V es).getD k []) hy (by simpa using grouped_fuel c hs)]
  · rw [← list_range]
  · intro acc k hk
    have hk' := List.mem_range.mp hk
    obtain ⟨E, hE, hat⟩ := arc_at c hs hk'
    obtain ⟨hkn, hfu⟩ := trad_known c (List.getElem_mem hk')
    obtain ⟨it', hit', hy'⟩ := hat.pins
    have : g.pinGids (g.getEdge k 0) = .ok (grouped V es)[k] := by
      unfold Graph.pinGids
      rw [hit', Outcome.bind_ok, iterLoop_collect (F := fun v => v) hy' (by rw [hE]; exact hfu)]
      · rw [List.map_id', hE]
      · intro acc v hv
        rw [hE] at hv
        rw [show g.globalID (vh (V ++ ghosts) v) = .ok v from globalID_eq c.v (hkn v hv), Outcome.bind_ok]; rfl
    rw [this, Outcome.bind_ok, List.getD_eq_getElem?_getD, List.getElem?_eq_getElem hk', Option.getD_some]; rfl

/-- **C20 (partial).**  A traditional graph with one edge type, any sequence of migrations that returns.  Every
part shows exactly the surviving edges whose source it owns, each as often as it was there at the start, with
its two ends in order.  An edge survives unless in some migration its source stays while its destination leaves
the part they shared.  (Missing from C20: those lost edges; the edges' weights, which C08 shows the construction
already permutes; and that the migration returns, which `c17_one_way_swap_ub` refutes.) -/
theorem c20_edges_partial (h : TradStart ins own) (hl : owns.length = ins.length)
    (hr : RoundsOk (allVerts ins) ins.length co.isSome own rs)
    (e0 : setupAll ins co owns o1 o2 = .ok gs0) (e : migrateRounds gs0 rs = .ok gs) :
    ∀ p (hp : p < gs.length), ∃ L, gs[p].arcGids 0 = .ok L ∧
      L.Perm ((survivors own rs (allArcs ins)).filter (fun x => decide (placeAll own rs (src x) = p))) := by
  obtain ⟨gr0, V0, rfl, hl0, ht0⟩ := setup_trad h hl e0
  rcases Nat.eq_zero_or_pos ins.length with hn | hn
  · obtain ⟨-, gr, V, rfl, -⟩ := run_any h.placed hl hr e0 e
    intro p hp
    simp [hn] at hp
  · obtain ⟨gr, V, rfl, h1, h2⟩ := rounds_trad hn (allVerts_nodup h.placed.nodup h.placed.verts) rs h.arcsIn h.placed.lt hl0 ht0 hr e
    intro p hp
    have hp' : p < ins.length := by simpa using hp
    simp only [List.getElem_map, List.getElem_range]
    obtain ⟨ghosts, ids, es, wgts, ht⟩ := h2 p hp'
    have hT : ArcsIn (allVerts ins) (survivors own rs (allArcs ins)) := by
      have key : ∀ (rs : List Round) (own : Gid → Nat) (T : List (List Gid)), ArcsIn (allVerts ins) T →
          ArcsIn (allVerts ins) (survivors own rs T) := by
        intro rs
        induction rs with
        | nil => intro own T hT; exact hT
        | cons r rs ih => intro own T hT; exact ih _ _ (fun x hx => hT x (List.mem_filter.mp hx).1)
      exact key rs own _ h.arcsIn
    have hon := arcsOn_arcs (h1 p hp') hT ht.perm
    exact ⟨_, arcGids_eq ht.rep hon, (grouped_perm (h1 p hp').nodup hon).trans ht.perm⟩

/-- nothing is lost if in every migration the destinations of the edges go along with their sources, or were on
other parts -/
theorem survivors_all : ∀ (rs : List Round) (own : Gid → Nat) (T : List (List Gid)),
    (∀ (pre : List Round) (r : Round) (post : List Round), rs = pre ++ r :: post → ∀ x ∈ T,
      ¬ Lost (placeAll own pre) (place (placeAll own pre) r.ops) x) → survivors own rs T = T := by
  intro rs
  induction rs with
  | nil => intro own T _; rfl
  | cons r rs ih =>
    intro own T h
    have h0 : ∀ x ∈ T, ¬ Lost own (place own r.ops) x := h [] r rs rfl
    unfold survivors
    rw [List.filter_eq_self.mpr (fun x hx => decide_eq_true (h0 x hx))]
    refine ih _ _ ?_
    intro pre r' post hp x hx
    have := h (r :: pre) r' post (by rw [hp]; rfl) x hx
    exact this

/-- **C20, when no edge is lost**: all edges of the start are there, each on the part of its source. -/
theorem c20_all_edges_partial (h : TradStart ins own) (hl : owns.length = ins.length)
    (hr : RoundsOk (allVerts ins) ins.length co.isSome own rs)
    (hlost : ∀ (pre : List Round) (r : Round) (post : List Round), rs = pre ++ r :: post → ∀ x ∈ allArcs ins,
      ¬ Lost (placeAll own pre) (place (placeAll own pre) r.ops) x)
    (e0 : setupAll ins co owns o1 o2 = .ok gs0) (e : migrateRounds gs0 rs = .ok gs) :
    ∀ p (hp : p < gs.length), ∃ L, gs[p].arcGids 0 = .ok L ∧
      L.Perm ((allArcs ins).filter (fun x => decide (placeAll own rs (src x) = p))) := by
  have := c20_edges_partial h hl hr e0 e
  rw [survivors_all _ _ _ hlost] at this
  exact this

end

/-! ## the hypotheses are met -/

/-- vertices 1, 2, 3 on part 0 with edges 1→2, 2→3, 3→4; vertex 4 on part 1 with the edges 4→1, 4→3 -/
def tradFour : List Input :=
  [{ hyper := false, verts := [1, 2, 3], wgts := [], types := [⟨[0, 1, 2], [[1, 2], [3, 4], [2, 3]], [5, 6, 7]⟩] },
   { hyper := false, verts := [4], wgts := [], types := [⟨[0, 1], [[4, 1], [4, 3]], []⟩] }]

def fourOwn (v : Gid) : Nat := if v = 4 then 1 else 0
def fourOwns : List (GMap Part) := [fun v => if v = 4 then some 1 else some 0, fun v => if v = 4 then some 1 else some 0]

/-- part 0 sends 3 (so 2→3 is lost), then part 1 sends 4 to part 0 and 3 back -/
def fourRounds : List Round :=
  [⟨fun p => if p = 0 then [.insert 3 1] else [], sampleEnv⟩,
   ⟨fun p => if p = 1 then [.insert 4 0, .insert 3 0] else [], sampleEnv⟩]

example : TradStart tradFour fourOwn := by
  refine ⟨⟨by decide, ?_⟩, by decide, ?_, ?_⟩
  · intro p hp
    have h1 : p = 0 ∨ p = 1 := by simp [tradFour] at hp; omega
    rcases h1 with rfl | rfl
    · exact (by decide : ∀ v ∈ ([1, 2, 3] : List Int), fourOwn v = 0)
    · exact (by decide : ∀ v ∈ ([4] : List Int), fourOwn v = 1)
  · intro i hi
    simp only [tradFour, List.mem_cons, List.not_mem_nil, or_false] at hi
    rcases hi with rfl | rfl
    · exact ⟨_, rfl, rfl, .inr rfl⟩
    · exact ⟨_, rfl, rfl, .inl rfl⟩
  · intro i hi e he x hx
    simp only [tradFour, List.mem_cons, List.not_mem_nil, or_false] at hi
    rcases hi with rfl | rfl
    · simp only [List.mem_cons, List.not_mem_nil, or_false] at he
      subst he
      simp only [List.mem_cons, List.not_mem_nil, or_false] at hx
      rcases hx with rfl | rfl | rfl
      · exact ⟨1, by decide, 2, by decide, by decide, rfl⟩
      · exact ⟨3, by decide, 4, by decide, by decide, rfl⟩
      · exact ⟨2, by decide, 3, by decide, by decide, rfl⟩
    · simp only [List.mem_cons, List.not_mem_nil, or_false] at he
      subst he
      simp only [List.mem_cons, List.not_mem_nil, or_false] at hx
      rcases hx with rfl | rfl
      · exact ⟨4, by decide, 1, by decide, by decide, rfl⟩
      · exact ⟨4, by decide, 3, by decide, by decide, rfl⟩

example : RoundsOk (allVerts tradFour) tradFour.length false fourOwn fourRounds := by
  refine ⟨⟨?_, sampleEnv_ok _⟩, ⟨?_, sampleEnv_ok _⟩, trivial⟩
  · intro p hp v d hv
    have h1 : p = 0 ∨ p = 1 := by simp [tradFour] at hp; omega
    rcases h1 with rfl | rfl
    · simp at hv
      obtain ⟨rfl, rfl⟩ := hv
      decide
    · simp at hv
  · intro p hp v d hv
    have h1 : p = 0 ∨ p = 1 := by simp [tradFour] at hp; omega
    rcases h1 with rfl | rfl
    · simp at hv
    · simp at hv
      rcases hv with ⟨rfl, rfl⟩ | ⟨rfl, rfl⟩ <;> decide

/-- the run returns; what the parts show after each migration; what survives -/
example : observe tradFour none fourOwns [] (fun g => g.arcGids 0) = .ok [[[1, 2], [2, 3], [3, 4]], [[4, 1], [4, 3]]] ∧
    observe tradFour none fourOwns (fourRounds.take 1) (fun g => g.arcGids 0) = .ok [[[1, 2]], [[4, 1], [4, 3], [3, 4]]] ∧
    observe tradFour none fourOwns fourRounds (fun g => g.arcGids 0) = .ok [[[1, 2], [4, 3], [4, 1], [3, 4]], []] ∧
    survivors fourOwn fourRounds (allArcs tradFour) = [[1, 2], [3, 4], [4, 1], [4, 3]] := by
  decide +kernel

end Verif.Agi
