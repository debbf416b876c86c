import Verif.Agi.AnyMig
/-!
# Parts without anything take part in a migration alike

A rank that joins a migration with the graph of `createEmptyGraph` (no vertices, no edge types) does what a part does
that was constructed without vertices and edges.
-/
namespace Verif.Agi

/-- a part without vertices and edges, of whatever types -/
structure Blank (nt : Nat) (g : Graph) : Prop where
  nl : g.numLocal = 0
  owners : g.owners = none
  hyp : g.isHyper = false
  edges : ∀ t, t < nt → ∃ it, g.edgeBegin t = .ok it ∧ it.stop ≤ it.loc

/-- the same part, or two parts without anything and with nothing planned -/
def Alike (nt : Nat) (pl : Plan) (g g' : Graph) : Prop :=
  g = g' ∨ (Blank nt g ∧ Blank nt g' ∧ g.self = g'.self ∧ g.peers = g'.peers ∧ pl = ⟨none, []⟩)

section
variable {nt : Nat} {g g' : Graph}

theorem Blank.bound (_ : Blank nt g) : ∃ k, g.bound = k + 1 := ⟨_, by unfold Graph.bound; rw [Nat.add_assoc, Nat.add_assoc, Nat.add_comm]⟩

theorem Blank.keep {α : Type} (h : Blank nt g) (l : List Handle) (f : Handle → Outcome α) : g.keep l f = .ok [] := by
  obtain ⟨k, hk⟩ := h.bound
  unfold Graph.keep
  rw [hk]
  unfold iterLoop Graph.iterVertex
  rw [h.nl]
  rfl

theorem Blank.newPlan (h : Blank nt g) : g.newPlan = .ok ⟨none, []⟩ := by
  unfold Graph.newPlan
  rw [h.nl]
  rfl

theorem Blank.cleanup (h : Blank nt g) : g.cleanup ⟨none, []⟩ = .ok ⟨none, []⟩ := by
  unfold Graph.cleanup
  rw [h.newPlan, Outcome.bind_ok]
  rfl

theorem Blank.keepEdges (h : Blank nt g) (pl : Plan) (gh : GMap Part) {t : Nat} (ht : t < nt) :
    g.keepEdges pl gh t = .ok (EAcc.empty gh) := by
  obtain ⟨k, hk⟩ := h.bound
  obtain ⟨it, hit, hs⟩ := h.edges t ht
  unfold Graph.keepEdges
  rw [hit, Outcome.bind_ok, hk]
  unfold iterLoop Graph.iterEdge
  rw [if_pos hs]
  rfl

theorem Blank.keepAllEdges (h : Blank nt g) (h' : Blank nt g') (pl : Plan) : g.keepAllEdges pl nt = g'.keepAllEdges pl nt := by
  unfold Graph.keepAllEdges
  have key : ∀ (l : List Nat) (s : List EAcc × GMap Part), (∀ t ∈ l, t < nt) →
      l.foldlM (fun (s : List EAcc × GMap Part) t => do
        let a ← g.keepEdges pl s.2 t
        return (s.1 ++ [a], a.ghosts)) s =
      l.foldlM (fun (s : List EAcc × GMap Part) t => do
        let a ← g'.keepEdges pl s.2 t
        return (s.1 ++ [a], a.ghosts)) s := by
    intro l
    induction l with
    | nil => intro s _; rfl
    | cons t l ih =>
      intro s hs
      rw [List.foldlM_cons, List.foldlM_cons, h.keepEdges _ _ (hs t (by simp)), h'.keepEdges _ _ (hs t (by simp)),
        Outcome.bind_ok]
      simp only [Outcome.pure_eq, Outcome.bind_ok]
      exact ih _ (fun t ht => hs t (by simp [ht]))
  exact key _ _ (fun t ht => List.mem_range.mp ht)

theorem Blank.applyOwner (h : Blank nt g) (l : List (Nat × (Gid × Part))) {r : Graph}
    (e : l.foldlM Graph.applyOwner g = .ok r) : l = [] := by
  cases l with
  | nil => rfl
  | cons m l =>
    rw [List.foldlM_cons] at e
    obtain ⟨g1, e1, -⟩ := bind_ok_iff.mp e
    unfold Graph.applyOwner at e1
    rw [h.nl, if_neg (by omega), h.owners] at e1
    simp [deref] at e1

end

section
variable {n : Nat} {gr gr' : Nat → Graph} {pl : Nat → Plan} {env : MigrateEnv}

theorem mapM_same {α β : Type} {f f' : α → Outcome β} {l : List α} (h : ∀ x ∈ l, f x = f' x) : l.mapM f = l.mapM f' := by
  induction l with
  | nil => rfl
  | cons a l ih => rw [List.mapM_cons, List.mapM_cons, h a (by simp), ih (fun x hx => h x (by simp [hx]))]

/-- the edges: everything a blank part sends is nothing, and it receives the same -/
theorem migrateEdges_alike {nt : Nat} {hyper : Bool} {affs : Nat → List Handle} {st : List (List EAcc × GMap Part)} {t : Nat}
    (hal : ∀ p, p < n → gr p = gr' p ∨ (Blank nt (gr p) ∧ Blank nt (gr' p) ∧ (gr p).self = (gr' p).self ∧ affs p = []))
    (hsh : ∀ p t l, (env.shuffle p t l).Perm l) :
    migrateEdges ((List.range n).map gr) ((List.range n).map pl) ((List.range n).map affs) hyper env st t =
      migrateEdges ((List.range n).map gr') ((List.range n).map pl) ((List.range n).map affs) hyper env st t := by
  unfold migrateEdges
  rw [zipIdx_range, zip_range, zip_range, zip_range, zip_range]
  have e1 : ((List.range n).map (fun p => ((gr p, pl p), (affs p, p)))).mapM (fun x : (Graph × Plan) × List Handle × Nat => do
      let es ← (if t < x.1.1.numTypes then x.1.1.affectedEdges x.2.1 else .ok [])
      x.1.1.sendEdges x.1.2 (env.shuffle x.2.2 t es)) =
      ((List.range n).map (fun p => ((gr' p, pl p), (affs p, p)))).mapM (fun x : (Graph × Plan) × List Handle × Nat => do
      let es ← (if t < x.1.1.numTypes then x.1.1.affectedEdges x.2.1 else .ok [])
      x.1.1.sendEdges x.1.2 (env.shuffle x.2.2 t es)) := by
    rw [List.mapM_map, List.mapM_map]
    apply mapM_same
    intro p hp
    have hp' := List.mem_range.mp hp
    rcases hal p hp' with h | ⟨h1, h2, h3, h4⟩
    · simp only [Function.comp, h]
    · have hnil : ∀ g : Graph, (do
          let es ← (if t < g.numTypes then g.affectedEdges [] else .ok [])
          g.sendEdges (pl p) (env.shuffle p t es)) = .ok [] := by
        intro g
        have : (if t < g.numTypes then g.affectedEdges [] else .ok []) = (.ok [] : Outcome (List Handle)) := by
          split <;> rfl
        rw [this, Outcome.bind_ok, List.perm_nil.mp (hsh p t [])]
        rfl
      simp only [Function.comp, h4, hnil]
  rw [e1]
  congr 1
  funext out
  congr 1
  funext inb
  have key : ∀ (st : List (List EAcc × GMap Part)) (inb : List (List (Nat × EMsg))) (l : List Nat), (∀ p ∈ l, p < n) →
      (((l.map gr).zip st).zip inb).mapM (fun x => do
        let a ← rd x.1.2.1 t
        let a := x.2.foldl (recvEdge x.1.1.self hyper) { a with ghosts := x.1.2.2 }
        return (x.1.2.1.set t a, a.ghosts)) =
      (((l.map gr').zip st).zip inb).mapM (fun x => do
        let a ← rd x.1.2.1 t
        let a := x.2.foldl (recvEdge x.1.1.self hyper) { a with ghosts := x.1.2.2 }
        return (x.1.2.1.set t a, a.ghosts)) := by
    intro st inb l
    induction l generalizing st inb with
    | nil => intro _; rfl
    | cons p l ih =>
      intro hl
      cases st with
      | nil => rfl
      | cons s st =>
        cases inb with
        | nil => rfl
        | cons i inb =>
          simp only [List.map_cons, List.zip_cons_cons, List.mapM_cons]
          have hs : (gr p).self = (gr' p).self := by
            rcases hal p (hl p (by simp)) with h | ⟨-, -, h, -⟩
            · rw [h]
            · exact h
          rw [hs]
          simp only at ih ⊢
          rw [ih st inb (fun q hq => hl q (by simp [hq]))]
  exact key _ _ _ (fun p hp => List.mem_range.mp hp)

/-- **what a migration does with parts without anything**: if it returns with one kind, it returns the same with another -/
theorem migrate_alike {nt : Nat}
    (hal : ∀ p, p < n → Alike nt (pl p) (gr p) (gr' p))
    (hnt : ((List.range n).map gr).foldl (fun m g => max m g.numTypes) 0 = nt)
    (hnt' : ((List.range n).map gr').foldl (fun m g => max m g.numTypes) 0 = nt)
    (hco : ((List.range n).map gr).any (fun g => g.coords.isSome) = ((List.range n).map gr').any (fun g => g.coords.isSome))
    (hhy : ∀ p, p < n → (gr p).isHyper = false) (hhy' : ∀ p, p < n → (gr' p).isHyper = false)
    (hsh : ∀ p t l, (env.shuffle p t l).Perm l) {r : List Graph}
    (h : migrate ((List.range n).map gr') ((List.range n).map pl) env = .ok r) :
    migrate ((List.range n).map gr) ((List.range n).map pl) env = .ok r := by
  have same : ∀ (f : Nat → Graph), (∀ p, p < n → (f p).isHyper = false) →
      ((List.range n).map f).any (fun g => g.isHyper) = false ∧
      ((List.range n).map f).map (fun g => ({ g with isHyper := false } : Graph)) = (List.range n).map f := by
    intro f hf
    constructor
    · rw [List.any_eq_false]
      intro g hg
      obtain ⟨p, hp, rfl⟩ := List.mem_map.mp hg
      rw [hf p (List.mem_range.mp hp)]; simp
    · rw [List.map_map]
      apply List.map_congr_left
      intro p hp
      have := hf p (List.mem_range.mp hp)
      simp only [Function.comp]
      generalize f p = g at this
      cases g
      simp only at this
      subst this
      rfl
  unfold migrate at h ⊢
  dsimp only at h ⊢
  rw [(same gr' hhy').1, (same gr' hhy').2, hnt', zip_range] at h
  rw [(same gr hhy).1, (same gr hhy).2, hnt, zip_range]
  -- cleanup
  obtain ⟨pls, e, h⟩ := bind_ok_iff.mp h
  haveI : Nonempty Plan := ⟨⟨none, []⟩⟩
  obtain ⟨pl1, rfl, hpl1⟩ := mapM_range_inv e
  simp only at hpl1
  have hcl : ∀ p, p < n → (gr p).cleanup (pl p) = .ok (pl1 p) ∧ (gr p = gr' p ∨ (Blank nt (gr p) ∧ Blank nt (gr' p) ∧
      (gr p).self = (gr' p).self ∧ (gr p).peers = (gr' p).peers ∧ pl1 p = ⟨none, []⟩)) := by
    intro p hp
    rcases hal p hp with hq | ⟨a, b, c, d, e⟩
    · rw [hq]; exact ⟨hpl1 p hp, .inl rfl⟩
    · have := hpl1 p hp
      rw [e, b.cleanup] at this
      have := Outcome.ok.inj this
      refine ⟨?_, .inr ⟨a, b, c, d, this.symm⟩⟩
      rw [e, a.cleanup, this]
  rw [mapM_range (G := pl1) (fun p hp => (hcl p hp).1), Outcome.bind_ok, zip_range]
  rw [zip_range] at h
  -- owners
  obtain ⟨upd, e, h⟩ := bind_ok_iff.mp h
  obtain ⟨U, rfl, hU⟩ := mapM_range_inv e
  have hup : ∀ p, p < n → (gr p).ownerUpdates (pl1 p) = .ok (U p) := by
    intro p hp
    have := hU p hp
    rcases (hcl p hp).2 with hq | ⟨a, b, c, d, e⟩
    · rw [hq]; exact this
    · simp only at this
      rw [e] at this ⊢
      exact this
  rw [mapM_range (G := U) hup, Outcome.bind_ok]
  obtain ⟨inb, e, h⟩ := bind_ok_iff.mp h
  rw [e, Outcome.bind_ok]
  have := exchange_inv e
  subst this
  clear e
  rw [zip_range] at h ⊢
  obtain ⟨g1, e, h⟩ := bind_ok_iff.mp h
  haveI : Nonempty Graph := ⟨gr 0⟩
  obtain ⟨gr1', rfl, hgr1'⟩ := mapM_range_inv e
  simp only at hgr1'
  have hg1 : ∀ p, p < n → ∃ g, (inbox ((List.range n).map U) (env.upd p) p).foldlM Graph.applyOwner (gr p) = .ok g ∧
      g.coords = (gr p).coords ∧ (gr1' p).coords = (gr' p).coords ∧
      (g = gr1' p ∨ (Blank nt g ∧ Blank nt (gr1' p) ∧ g.self = (gr1' p).self ∧ g.peers = (gr1' p).peers ∧ pl1 p = ⟨none, []⟩)) := by
    intro p hp
    have e := hgr1' p hp
    have hc : (gr1' p).coords = (gr' p).coords :=
      (foldlM_keeps (fun x => Keeps (gr' p) x) (fun s x s' hs he => hs.trans (applyOwner_keeps he)) _ (Keeps.refl _) e).coords
    rcases (hcl p hp).2 with hq | ⟨a, b, c, d, f⟩
    · exact ⟨gr1' p, by rw [hq]; exact e, by rw [hc, hq], hc, .inl rfl⟩
    · have hn := b.applyOwner _ e
      rw [hn] at e ⊢
      have := Outcome.ok.inj e
      exact ⟨gr p, rfl, rfl, hc, .inr ⟨a, this ▸ b, this ▸ c, this ▸ d, f⟩⟩
  haveI : Inhabited Graph := ⟨gr 0⟩
  obtain ⟨gr1, hgr1⟩ := choose_part hg1
  rw [mapM_range (G := gr1) (fun p hp => (hgr1 p hp).1), Outcome.bind_ok, zip_range]
  rw [zip_range] at h
  -- affected
  obtain ⟨af, e, h⟩ := bind_ok_iff.mp h
  obtain ⟨A, rfl, hA⟩ := mapM_range_inv e
  simp only at hA
  have haf : ∀ p, p < n → (gr1 p).affectedVerts (pl1 p) = .ok (A p) ∧ (gr1 p = gr1' p ∨
      (Blank nt (gr1 p) ∧ Blank nt (gr1' p) ∧ (gr1 p).self = (gr1' p).self ∧ (gr1 p).peers = (gr1' p).peers ∧
        pl1 p = ⟨none, []⟩ ∧ A p = [])) := by
    intro p hp
    have e := hA p hp
    rcases (hgr1 p hp).2.2.2 with hq | ⟨a, b, c, d, f⟩
    · rw [hq]; exact ⟨e, .inl rfl⟩
    · rw [f] at e ⊢
      have : A p = [] := (Outcome.ok.inj e).symm
      exact ⟨e, .inr ⟨a, b, c, d, rfl, this⟩⟩
  rw [mapM_range (G := A) (fun p hp => (haf p hp).1), Outcome.bind_ok, zip_range]
  rw [zip_range] at h
  -- kept
  have e1 : ((List.range n).map (fun p => (gr1 p, A p))).mapM (fun x : Graph × List Handle => x.1.keep x.2 x.1.vrec) =
      ((List.range n).map (fun p => (gr1' p, A p))).mapM (fun x : Graph × List Handle => x.1.keep x.2 x.1.vrec) := by
    rw [List.mapM_map, List.mapM_map]
    apply mapM_same
    intro p hp
    simp only [Function.comp]
    rcases (haf p (List.mem_range.mp hp)).2 with hq | ⟨a, b, -⟩
    · rw [hq]
    · rw [a.keep, b.keep]
  rw [e1]
  obtain ⟨kv, e, h⟩ := bind_ok_iff.mp h
  rw [e, Outcome.bind_ok]
  have e2 : ((List.range n).map (fun p => (gr1 p, pl1 p))).mapM (fun x : Graph × Plan => x.1.keepAllEdges x.2 nt) =
      ((List.range n).map (fun p => (gr1' p, pl1 p))).mapM (fun x : Graph × Plan => x.1.keepAllEdges x.2 nt) := by
    rw [List.mapM_map, List.mapM_map]
    apply mapM_same
    intro p hp
    simp only [Function.comp]
    rcases (haf p (List.mem_range.mp hp)).2 with hq | ⟨a, b, -⟩
    · rw [hq]
    · exact a.keepAllEdges b _
  rw [e2]
  obtain ⟨st, e, h⟩ := bind_ok_iff.mp h
  rw [e, Outcome.bind_ok]
  -- sent
  have e3 : ∀ {α : Type} (f : Graph → Handle → Outcome α),
      ((List.range n).map (fun p => (gr1 p, pl1 p))).mapM (fun x : Graph × Plan => x.1.sendEach x.2 (f x.1)) =
      ((List.range n).map (fun p => (gr1' p, pl1 p))).mapM (fun x : Graph × Plan => x.1.sendEach x.2 (f x.1)) := by
    intro α f
    rw [List.mapM_map, List.mapM_map]
    apply mapM_same
    intro p hp
    simp only [Function.comp]
    rcases (haf p (List.mem_range.mp hp)).2 with hq | ⟨a, b, -, -, c, -⟩
    · rw [hq]
    · rw [c]; rfl
  rw [e3 Graph.vrec]
  obtain ⟨out, e, h⟩ := bind_ok_iff.mp h
  rw [e, Outcome.bind_ok]
  obtain ⟨inb2, e, h⟩ := bind_ok_iff.mp h
  rw [e, Outcome.bind_ok]
  -- coordinates
  have hco1 : ((List.range n).map gr1).any (fun g => g.coords.isSome) = ((List.range n).map gr1').any (fun g => g.coords.isSome) := by
    rw [List.any_map, List.any_map] at hco ⊢
    rw [← Bool.coe_iff_coe, List.any_eq_true, List.any_eq_true]
    rw [← Bool.coe_iff_coe, List.any_eq_true, List.any_eq_true] at hco
    simp only [Function.comp] at hco ⊢
    have h1 : (∃ x ∈ List.range n, (gr1 x).coords.isSome = true) ↔ ∃ x ∈ List.range n, (gr x).coords.isSome = true := by
      constructor <;> rintro ⟨p, hp, hx⟩ <;> refine ⟨p, hp, ?_⟩ <;>
        simpa only [(hgr1 p (List.mem_range.mp hp)).2.1] using hx
    have h2 : (∃ x ∈ List.range n, (gr1' x).coords.isSome = true) ↔ ∃ x ∈ List.range n, (gr' x).coords.isSome = true := by
      constructor <;> rintro ⟨p, hp, hx⟩ <;> refine ⟨p, hp, ?_⟩ <;>
        simpa only [(hgr1 p (List.mem_range.mp hp)).2.2.1] using hx
    rw [h1, h2, hco]
  have e4 : ∀ counts ord, migrateCoords ((List.range n).map gr1) ((List.range n).map pl1) ((List.range n).map A) counts ord =
      migrateCoords ((List.range n).map gr1') ((List.range n).map pl1) ((List.range n).map A) counts ord := by
    intro counts ord
    unfold migrateCoords
    rw [hco1]
    split
    · rw [zip_range, zip_range, zip_range, zip_range, e3 Graph.coord]
      have e5 : ((List.range n).map (fun p => (gr1 p, A p))).mapM (fun x : Graph × List Handle => x.1.keep x.2 x.1.coord) =
          ((List.range n).map (fun p => (gr1' p, A p))).mapM (fun x : Graph × List Handle => x.1.keep x.2 x.1.coord) := by
        rw [List.mapM_map, List.mapM_map]
        apply mapM_same
        intro p hp
        simp only [Function.comp]
        rcases (haf p (List.mem_range.mp hp)).2 with hq | ⟨a, b, -⟩
        · rw [hq]
        · rw [a.keep, b.keep]
      rw [e5]
    · rw [List.map_map, List.map_map]; rfl
  rw [e4]
  obtain ⟨cs, e, h⟩ := bind_ok_iff.mp h
  rw [e, Outcome.bind_ok]
  -- edges
  have e5 : ∀ (l : List Nat) st, l.foldlM (migrateEdges ((List.range n).map gr1) ((List.range n).map pl1) ((List.range n).map A) false env) st =
      l.foldlM (migrateEdges ((List.range n).map gr1') ((List.range n).map pl1) ((List.range n).map A) false env) st := by
    intro l
    induction l with
    | nil => intro st; rfl
    | cons t l ih =>
      intro st
      rw [List.foldlM_cons, List.foldlM_cons, migrateEdges_alike (nt := nt) (gr' := gr1') (fun p hp => by
        rcases (haf p hp).2 with hq | ⟨a, b, c, -, -, d⟩
        · exact .inl hq
        · exact .inr ⟨a, b, c, d⟩) hsh]
      congr 1
      funext x
      exact ih x
  rw [e5]
  obtain ⟨st2, e, h⟩ := bind_ok_iff.mp h
  rw [e, Outcome.bind_ok]
  -- rebuild
  have e6 : ∀ (total : Int) (vs : List (List VRec)) (sc : List ((List EAcc × GMap Part) × Option (List Coord))),
      ((((List.range n).map gr1).zip vs).zip sc).mapM (fun x => x.1.1.rebuild false x.1.2 x.2.1.1 x.2.2 total) =
      ((((List.range n).map gr1').zip vs).zip sc).mapM (fun x => x.1.1.rebuild false x.1.2 x.2.1.1 x.2.2 total) := by
    intro total
    have key : ∀ (l : List Nat) (vs : List (List VRec)) (sc : List ((List EAcc × GMap Part) × Option (List Coord))), (∀ p ∈ l, p < n) →
        (((l.map gr1).zip vs).zip sc).mapM (fun x => x.1.1.rebuild false x.1.2 x.2.1.1 x.2.2 total) =
        (((l.map gr1').zip vs).zip sc).mapM (fun x => x.1.1.rebuild false x.1.2 x.2.1.1 x.2.2 total) := by
      intro l
      induction l with
      | nil => intro vs sc _; rfl
      | cons p l ih =>
        intro vs sc hl
        cases vs with
        | nil => rfl
        | cons v vs =>
          cases sc with
          | nil => rfl
          | cons s sc =>
            simp only [List.map_cons, List.zip_cons_cons, List.mapM_cons]
            have hs : ∀ k, vertInit (gr1 p) false k = vertInit (gr1' p) false k := by
              intro k
              rcases (haf p (hl p (by simp))).2 with hq | ⟨-, -, c, d, -⟩
              · rw [hq]
              · unfold vertInit; rw [c, d]
            have hr : ∀ x y z, (gr1 p).rebuild false x y z total = (gr1' p).rebuild false x y z total := by
              intro x y z
              unfold Graph.rebuild constructVertsA
              rw [hs]
            rw [hr]
            rw [ih vs sc (fun q hq => hl q (by simp [hq]))]
    exact fun vs sc => key _ vs sc (fun p hp => List.mem_range.mp hp)
  rw [e6]
  exact h

end
end Verif.Agi
