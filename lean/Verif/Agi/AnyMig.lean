import Verif.Agi.AnyLemmas
/-!
# One migration of an arbitrary graph: the vertices

Whatever the edges of the graph are, *if* `migrate` returns then the vertices are where the plans put them,
with their data.
-/
namespace Verif.Agi

/-- the handle of a local vertex -/
abbrev lh (V : List Gid) (v : Gid) : Handle := getVertex (V.idxOf v)

/-- the vertices of the whole graph, and what every vertex carries -/
structure VD where
  verts : List Gid
  wt : Gid → Wgt
  oo : Gid → Part
  co : Option (Gid → Coord)

/-- the local vertices of a part and their data -/
structure LRep (D : VD) (own : Gid → Nat) (p : Nat) (g : Graph) (V : List Gid) : Prop where
  rank : g.self = (p : Int)
  nl : g.numLocal = V.length
  nodup : V.Nodup
  mem : ∀ v, v ∈ V ↔ v ∈ D.verts ∧ own v = p
  loc : g.localUnmap = Mem.ofList V
  map : ∀ v ∈ V, g.vtxMap v = some (V.idxOf v)
  wts : g.weights = Mem.ofList (V.map D.wt)
  orig : g.originalOwners = some (Mem.ofList (V.map D.oo))
  coords : g.coords = D.co.map (fun c => Mem.ofList (V.map c))
  total : g.globalVerts = (D.verts.length : Int)

theorem LRep.keeps {D : VD} {own : Gid → Nat} {p : Nat} {g g' : Graph} {V : List Gid} (h : LRep D own p g V)
    (k : Keeps g g') : LRep D own p g' V :=
  ⟨k.rank.trans h.rank, k.nl.trans h.nl, h.nodup, h.mem, k.loc.trans h.loc, fun v hv => k.map _ _ (h.map v hv),
    k.wts.trans h.wts, k.orig.trans h.orig, k.coords.trans h.coords, k.total.trans h.total⟩

section
variable {D : VD} {own own' : Gid → Nat} {p : Nat} {g : Graph} {V : List Gid} {plan : Plan} {s : List Gid}

theorem LRep.idx (_ : LRep D own p g V) {v : Gid} (hv : v ∈ V) : V.idxOf v < V.length := List.idxOf_lt_length_of_mem hv

theorem LRep.globalID (h : LRep D own p g V) {v : Gid} (hv : v ∈ V) : g.globalID (lh V v) = .ok v := by
  have hlt := h.idx hv
  unfold Graph.globalID
  rw [vidx_getVertex, Outcome.bind_ok, if_neg (by rw [h.nl]; omega), h.loc, Mem.load_ofList hlt, List.getElem_idxOf]

theorem LRep.findGID (h : LRep D own p g V) {v : Gid} (hv : v ∈ V) : g.findGID v = .ok (lh V v) := by
  unfold Graph.findGID
  rw [h.map v hv]; rfl

theorem LRep.weight (h : LRep D own p g V) {v : Gid} (hv : v ∈ V) : g.weight (lh V v) = .ok (D.wt v) := by
  have hlt := h.idx hv
  unfold Graph.weight
  rw [vidx_getVertex, Outcome.bind_ok, if_neg (by rw [h.nl]; omega), if_neg (by rw [h.nl]; omega), h.wts,
    Mem.load_ofList (by simpa using hlt)]
  simp

theorem LRep.originalOwner (h : LRep D own p g V) {v : Gid} (hv : v ∈ V) :
    g.originalOwner (lh V v) = .ok (D.oo v) := by
  have hlt := h.idx hv
  unfold Graph.originalOwner
  simp only [h.orig]
  rw [vidx_getVertex, Outcome.bind_ok, if_neg (by rw [h.nl]; omega), Mem.load_ofList (by simpa using hlt)]
  simp

theorem LRep.vrec (h : LRep D own p g V) {v : Gid} (hv : v ∈ V) :
    g.vrec (lh V v) = .ok ⟨v, D.wt v, D.oo v⟩ := by
  unfold Graph.vrec
  rw [h.globalID hv, Outcome.bind_ok, h.weight hv, Outcome.bind_ok, h.originalOwner hv, Outcome.bind_ok]
  rfl

theorem LRep.coord (h : LRep D own p g V) {c : Gid → Coord} (hc : D.co = some c) {v : Gid} (hv : v ∈ V) :
    g.coord (lh V v) = .ok (c v) := by
  have hlt := h.idx hv
  unfold Graph.coord
  rw [vidx_getVertex, Outcome.bind_ok, if_neg (by rw [h.nl]; omega), h.coords, hc]
  simp only [Option.map_some, deref, Outcome.ofOption_some, Outcome.bind_ok]
  rw [Mem.load_ofList (by simpa using hlt)]
  simp

theorem lh_inj {V : List Gid} {u w : Gid} (hu : u ∈ V) (h : lh V u = lh V w) : u = w := by
  unfold lh getVertex at h
  have h' : V.idxOf u = V.idxOf w := by omega
  have hlt := List.idxOf_lt_length_of_mem hu
  have h1 := List.getElem_idxOf hlt
  have hlt' : V.idxOf w < V.length := by omega
  have h2 := List.getElem_idxOf hlt'
  rw [← h1, ← h2]
  simp only [h']

theorem LRep.handles (h : LRep D own p g V) : (List.range g.numLocal).map getVertex = V.map (lh V) := by
  apply List.ext_getElem
  · simp [h.nl]
  · intro k h1 h2
    have hk : k < V.length := by simpa using h2
    simp only [List.getElem_map, List.getElem_range]
    unfold lh
    rw [h.nodup.idxOf_getElem]

theorem LRep.yields (h : LRep D own p g V) : Yields g.iterVertex vertexBegin (V.map (lh V)) := by
  have := yields_vertices g
  rw [show (List.range g.numLocal).map (fun l => getVertex l) = V.map (lh V) from h.handles] at this
  exact this

theorem LRep.fuel (h : LRep D own p g V) : V.length < g.bound := by unfold Graph.bound; rw [h.nl]; omega

theorem LRep.affected (h : LRep D own p g V) (hp : PlanTo V plan s own' p) :
    g.affectedVerts plan = .ok (s.map (lh V)) := by
  obtain ⟨f, hp, hf, hs⟩ := hp
  unfold Graph.affectedVerts
  rw [hp.sending]
  have key : ∀ (l pre : List Gid), pre ++ l <+: s → (l.map (lh V)).foldlM (fun acc v => do
      let d ← g.planGet plan v
      return (if d ≠ g.self then setInsert acc v else acc)) (pre.map (lh V)) = .ok ((pre ++ l).map (lh V)) := by
    intro l
    induction l with
    | nil => intro pre _; simp
    | cons a l ih =>
      intro pre hpre
      have hnd : (pre ++ a :: l).Nodup := hp.nodup.sublist hpre.sublist
      have ha : a ∈ s := hpre.subset (by simp)
      have haV := ((hs a).mp ha).1
      rw [List.map_cons, List.foldlM_cons, planGet_eq hp h.nl haV, Outcome.bind_ok, hf a ha]
      have hne : (own' a : Int) ≠ g.self := by rw [h.rank]; have := ((hs a).mp ha).2; omega
      simp only [Option.getD_some]
      rw [if_pos hne]
      have hni : lh V a ∉ pre.map (lh V) := by
        intro hc
        obtain ⟨b, hb, hbe⟩ := List.mem_map.mp hc
        have hbs : b ∈ s := hpre.subset (by simp [hb])
        have := lh_inj ((hs b).mp hbs).1 hbe
        subst this
        exact (List.nodup_append.mp hnd).2.2 b hb b (by simp) rfl
      have hsi : setInsert (pre.map (lh V)) (lh V a) = pre.map (lh V) ++ [lh V a] := by
        unfold setInsert; rw [if_neg hni]
      rw [hsi]
      simp only [Outcome.pure_eq, Outcome.bind_ok]
      have h1 := ih (pre ++ [a]) (by simpa using hpre)
      simp only [List.map_append, List.map_cons, List.map_nil, List.append_assoc, List.singleton_append, Outcome.pure_eq] at h1
      rw [h1]
      simp
  simpa using key s [] (by simp)

theorem LRep.keep {α : Type} (h : LRep D own p g V) (hs : ∀ v ∈ s, v ∈ V) (val : Handle → Outcome α) (F : Gid → α)
    (hF : ∀ v ∈ V, val (lh V v) = .ok (F v)) :
    g.keep (s.map (lh V)) val = .ok ((V.filter (fun v => decide (v ∉ s))).map F) := by
  unfold Graph.keep
  rw [iterLoop_yields _ _ _ g.bound _ h.yields (by simpa using h.fuel)]
  rw [loopList_fold (f := fun acc v => do
    if v ∈ s.map (lh V) then return acc
    else do
      let r ← val v
      return acc ++ [r]) _ (by
      intro b x _
      split
      · rfl
      · cases val x <;> rfl)]
  have key : ∀ (l : List Gid), (∀ v ∈ l, v ∈ V) → ∀ acc, (l.map (lh V)).foldlM (fun acc v => do
      if v ∈ s.map (lh V) then return acc
      else do
        let r ← val v
        return acc ++ [r]) acc = .ok (acc ++ (l.filter (fun v => decide (v ∉ s))).map F) := by
    intro l
    induction l with
    | nil => intro _ acc; simp
    | cons a l ih =>
      intro hl acc
      have ha := hl a (by simp)
      have hiff : lh V a ∈ s.map (lh V) ↔ a ∈ s := by
        constructor
        · intro hc
          obtain ⟨b, hb, hbe⟩ := List.mem_map.mp hc
          have := lh_inj (hs b hb) hbe
          subst this; exact hb
        · intro ha; exact List.mem_map.mpr ⟨a, ha, rfl⟩
      rw [List.map_cons, List.foldlM_cons]
      by_cases has : a ∈ s
      · rw [if_pos (hiff.mpr has)]
        simp only [Outcome.pure_eq, Outcome.bind_ok]
        have := ih (fun v hv => hl v (by simp [hv])) acc
        simp only [Outcome.pure_eq] at this
        rw [this]
        simp [has]
      · rw [if_neg (fun hc => has (hiff.mp hc)), hF a ha]
        simp only [Outcome.pure_eq, Outcome.bind_ok]
        have := ih (fun v hv => hl v (by simp [hv])) (acc ++ [F a])
        simp only [Outcome.pure_eq] at this
        rw [this]
        simp [has]
  simpa using key V (fun v h => h) []

theorem LRep.sendEach {α : Type} (h : LRep D own p g V) (hp : PlanTo V plan s own' p) (val : Handle → Outcome α)
    (F : Gid → α) (hF : ∀ v ∈ V, val (lh V v) = .ok (F v)) :
    g.sendEach plan val = .ok (s.map (fun v => ((own' v : Int), F v))) := by
  obtain ⟨f, hp, hf, hs⟩ := hp
  unfold Graph.sendEach
  rw [hp.sending, List.mapM_map]
  apply mapM_ok
  intro v hv
  have hvV := ((hs v).mp hv).1
  simp only [Function.comp]
  rw [planGet_eq hp h.nl hvV, Outcome.bind_ok, hF v hvV, hf v hv]
  rfl

end

/-- the record of a vertex -/
def VD.record (D : VD) (v : Gid) : VRec := ⟨v, D.wt v, D.oo v⟩

/-- the rebuilt part, up to the original owners -/
structure LPre (D : VD) (p : Nat) (g : Graph) (W : List Gid) (total : Int) : Prop where
  rank : g.self = (p : Int)
  nl : g.numLocal = W.length
  loc : g.localUnmap = Mem.ofList W
  map : ∀ v ∈ W, g.vtxMap v = some (W.idxOf v)
  wts : g.weights = Mem.ofList (W.map D.wt)
  orig : g.originalOwners = none
  coords : g.coords = D.co.map (fun c => Mem.ofList (W.map c))
  total : g.globalVerts = total

theorem rebuild_local {D : VD} {p : Nat} {g g' : Graph} (hr : g.self = (p : Int)) {W : List Gid} (hW : W.Nodup)
    {hyper : Bool} {es : List EAcc} {total : Int}
    (h : g.rebuild hyper (W.map D.record) es (D.co.map (fun c => W.map c)) total = .ok g') : LPre D p g' W total := by
  unfold Graph.rebuild at h
  have h1 : (W.map D.record).map VRec.gid = W := by rw [List.map_map]; exact List.map_id'' (fun v => rfl) W
  have h2 : (W.map D.record).map VRec.w = W.map D.wt := by rw [List.map_map]; rfl
  rw [h1, h2, List.length_map, ptrOf_eq, constructVertsA_eq _ _ _ _ _ (.inr (by simp))] at h
  obtain ⟨g1, e1, hv, hg1⟩ := constructVertsV_spec g hyper W (W.map D.wt) total hW
  rw [e1, Outcome.bind_ok] at h
  obtain ⟨g2, e2, h⟩ := bind_ok_iff.mp h
  have k : Keeps g1 g2 := foldlM_keeps (fun x => Keeps g1 x) (fun s x s' hs he => hs.trans (constructEdgesA_keeps he))
    _ (Keeps.refl g1) e2
  have hmap : ∀ v ∈ W, g2.vtxMap v = some (W.idxOf v) := by
    intro v hvW
    apply k.map
    rw [hv.map, List.append_nil, lookup_of_mem hvW]
  have hw : g2.weights = Mem.ofList (W.map D.wt) := by rw [k.wts, hg1, vertWeights_map]
  have hs : g2.self = (p : Int) := by rw [k.rank, hg1]; exact hr
  have ho : g2.originalOwners = none := by rw [k.orig, hg1]; rfl
  have hc : g2.coords = none := by rw [k.coords, hg1]; rfl
  have ht : g2.globalVerts = total := by rw [k.total, hg1]
  have hl : g2.localUnmap = Mem.ofList W := by rw [k.loc, hv.loc]
  have hn : g2.numLocal = W.length := by rw [k.nl, hv.nl]
  rcases hco : D.co with _ | c
  · rw [hco] at h
    simp only [Option.map_none, Outcome.pure_eq] at h
    have := Outcome.ok.inj h
    subst this
    exact ⟨hs, hn, hl, hmap, hw, ho, by rw [hc, hco]; rfl, ht⟩
  · rw [hco] at h
    simp only [Option.map_some] at h
    unfold Graph.setCoords at h
    rw [storeAll (W.map c) g2.numLocal (by rw [hn]; simp), Outcome.bind_ok] at h
    have := Outcome.ok.inj h
    subst this
    exact ⟨hs, hn, hl, hmap, hw, ho, by rw [hco]; rfl, ht⟩

theorem LPre.keeps {D : VD} {p : Nat} {g g' : Graph} {W : List Gid} {total : Int} (h : LPre D p g W total)
    (k : Keeps g g') : LPre D p g' W total :=
  ⟨k.rank.trans h.rank, k.nl.trans h.nl, k.loc.trans h.loc, fun v hv => k.map _ _ (h.map v hv),
    k.wts.trans h.wts, k.orig.trans h.orig, k.coords.trans h.coords, k.total.trans h.total⟩

section
variable {n : Nat} {D : VD} {own own' : Gid → Nat}

/-- the coordinate phase -/
theorem coords_any (hn : 0 < n) {gr : Nat → Graph} {V S : Nat → List Gid} {pl : Nat → Plan}
    (hl : ∀ p, p < n → LRep D own p (gr p) (V p)) (hpl : ∀ p, p < n → PlanTo (V p) (pl p) (S p) own' p)
    {ordV ordC : Nat → List Nat} (ho : Orders n ordV)
    (hco : D.co.isSome = true → ∀ q, q < n → ordC q = ordV q) {cs : List (Option (List Coord))}
    (h : migrateCoords ((List.range n).map gr) ((List.range n).map pl)
      ((List.range n).map (fun p => (S p).map (lh (V p))))
      ((List.range n).map (fun p => (((V p).filter (fun v => decide (v ∉ S p)) ++
        arrivals S (fun v => (own' v : Int)) (ordV p) p).length))) ordC = .ok cs) :
    cs = (List.range n).map (fun p => D.co.map (fun c => ((V p).filter (fun v => decide (v ∉ S p)) ++
        arrivals S (fun v => (own' v : Int)) (ordV p) p).map c)) := by
  unfold migrateCoords at h
  rcases hc : D.co with _ | c
  · have hany : ((List.range n).map gr).any (fun g => g.coords.isSome) = false := by
      rw [List.any_eq_false]
      intro g hg
      obtain ⟨p, hp, rfl⟩ := List.mem_map.mp hg
      rw [(hl p (List.mem_range.mp hp)).coords, hc]; simp
    rw [hany, if_neg (by simp), List.map_map] at h
    exact (Outcome.ok.inj h).symm
  · have hany : ((List.range n).map gr).any (fun g => g.coords.isSome) = true := by
      rw [List.any_eq_true]
      refine ⟨gr 0, List.mem_map.mpr ⟨_, List.mem_range.mpr hn, rfl⟩, ?_⟩
      rw [(hl _ hn).coords, hc]; rfl
    rw [hany, if_pos rfl, zip_range, zip_range] at h
    rw [mapM_range (G := fun p => ((V p).filter (fun v => decide (v ∉ S p))).map c) (fun p hp =>
      (hl p hp).keep (fun v hv => by obtain ⟨f, -, -, hs⟩ := hpl p hp; exact ((hs v).mp hv).1) _ c
        (fun v hv => (hl p hp).coord hc hv)), Outcome.bind_ok] at h
    rw [mapM_range (G := fun p => (S p).map (fun v => ((own' v : Int), c v))) (fun p hp =>
      (hl p hp).sendEach (hpl p hp) _ c (fun v hv => (hl p hp).coord hc hv)), Outcome.bind_ok] at h
    obtain ⟨inb, hin, h⟩ := bind_ok_iff.mp h
    have := exchange_inv hin
    subst this
    rw [zip_range, List.map_map] at h
    have hcs : (List.range n).map ((fun x : List Coord × List (Nat × Coord) => x.1 ++ x.2.map Prod.snd) ∘ (fun p =>
        (((V p).filter (fun v => decide (v ∉ S p))).map c,
         inbox ((List.range n).map (fun p => (S p).map (fun v => ((own' v : Int), c v)))) (ordC p) p))) =
        (List.range n).map (fun p => ((V p).filter (fun v => decide (v ∉ S p)) ++
          arrivals S (fun v => (own' v : Int)) (ordV p) p).map c) := by
      apply List.map_congr_left
      intro p hp
      have hp' := List.mem_range.mp hp
      simp only [Function.comp]
      rw [hco (by rw [hc]; rfl) p hp', inbox_values S (fun v => (own' v : Int)) c ho hp', List.map_append]
    simp only [hcs] at h
    split at h
    · split at h
      · have := Outcome.ok.inj h
        rw [← this, List.map_map]
        rfl
      · simp at h
    · simp at h

theorem migrateEdges_shape {gr : Nat → Graph} {pl : Nat → Plan} {A : Nat → List Handle} {hyper : Bool}
    {env : MigrateEnv} {st st' : List (List EAcc × GMap Part)} {t : Nat}
    (hs : ∃ S : Nat → List EAcc × GMap Part, st = (List.range n).map S)
    (h : migrateEdges ((List.range n).map gr) ((List.range n).map pl) ((List.range n).map A) hyper env st t = .ok st') :
    ∃ S : Nat → List EAcc × GMap Part, st' = (List.range n).map S := by
  obtain ⟨S, rfl⟩ := hs
  unfold migrateEdges at h
  obtain ⟨out, hout, h⟩ := bind_ok_iff.mp h
  rw [zipIdx_range, zip_range, zip_range] at hout
  obtain ⟨O, rfl, -⟩ := mapM_range_inv hout
  obtain ⟨inb, hin, h⟩ := bind_ok_iff.mp h
  have := exchange_inv hin
  subst this
  rw [zip_range, zip_range] at h
  obtain ⟨S', rfl, -⟩ := mapM_range_inv h
  exact ⟨S', rfl⟩

/-- what happens between the start and the end of a migration that returns: `gr1` are the graphs after the new
owners of ghosts were announced, `pl1` the cleaned plans (`S` the vertices that leave), `W` the vertices
afterwards, `st`/`st2` the edges that stay / the edges a part is rebuilt from, `gr2`..`gr4` the rebuilt graphs -/
structure MigTrace (n : Nat) (D : VD) (own own' : Gid → Nat) (gr : Nat → Graph) (V : Nat → List Gid) (env : MigrateEnv)
    (hyper : Bool) (nt : Nat) (gr1 : Nat → Graph) (pl1 : Nat → Plan) (S W : Nat → List Gid)
    (st st2 : Nat → List EAcc × GMap Part) (gr2 gr3 gr4 : Nat → Graph) : Prop where
  keep1 : ∀ p, p < n → KeepsC { gr p with isHyper := hyper } (gr1 p)
  loc1 : ∀ p, p < n → LRep D own p (gr1 p) (V p)
  plan : ∀ p, p < n → PlanTo (V p) (pl1 p) (S p) own' p
  stay : ∀ p, p < n → (gr1 p).keepAllEdges (pl1 p) nt = .ok (st p)
  edges : (List.range nt).foldlM (migrateEdges ((List.range n).map gr1) ((List.range n).map pl1)
    ((List.range n).map (fun p => (S p).map (lh (V p)))) hyper env) ((List.range n).map st) = .ok ((List.range n).map st2)
  rebuilt : ∀ p, p < n → (gr1 p).rebuild hyper ((W p).map D.record) (st2 p).1 (D.co.map (fun c => (W p).map c))
    (D.verts.length : Int) = .ok (gr2 p)
  nodup : ∀ p, p < n → (W p).Nodup
  ghosts : ∀ p, p < n → KeepsC (gr2 p) (gr3 p)
  last : ∀ p, p < n → gr4 p = { gr3 p with originalOwners := (gr4 p).originalOwners }
  loc4 : ∀ p, p < n → LRep D own' p (gr4 p) (W p)

/-- **One migration that returns.** -/
theorem migrate_inv (hn : 0 < n) (hnd : D.verts.Nodup) (hown : ∀ v ∈ D.verts, own v < n)
    (hown' : ∀ v ∈ D.verts, own' v < n) {gr : Nat → Graph} {V : Nat → List Gid}
    (hl : ∀ p, p < n → LRep D own p (gr p) (V p)) {pl : Nat → Plan}
    (hpl : ∀ p, p < n → ∃ s f, PlanRep (V p) (pl p) s f ∧ ∀ v ∈ V p, (own' v : Int) = (f v).getD p)
    {env : MigrateEnv} (henv : EnvOk n D.co.isSome env) {gs : List Graph}
    (h : migrate ((List.range n).map gr) ((List.range n).map pl) env = .ok gs) :
    ∃ gr1 pl1 S W st st2 gr2 gr3 gr4, gs = (List.range n).map gr4 ∧
      MigTrace n D own own' gr V env (((List.range n).map gr).any (fun g => g.isHyper))
        (((List.range n).map gr).foldl (fun m g => max m g.numTypes) 0) gr1 pl1 S W st st2 gr2 gr3 gr4 := by
  unfold migrate at h
  dsimp only at h
  generalize ((List.range n).map gr).any (fun g => g.isHyper) = hyper at h ⊢
  generalize ((List.range n).map gr).foldl (fun m g => max m g.numTypes) 0 = nt at h ⊢
  rw [List.map_map, zip_range] at h
  -- cleanup
  have hl0 : ∀ p, p < n → LRep D own p { gr p with isHyper := hyper } (V p) := fun p hp =>
    (hl p hp).keeps ⟨rfl, rfl, rfl, rfl, rfl, rfl, rfl, fun _ _ h => h⟩
  have hcl : ∀ p, p < n → ∃ r : Plan × List Gid, ({ gr p with isHyper := hyper } : Graph).cleanup (pl p) = .ok r.1 ∧
      PlanTo (V p) r.1 r.2 own' p := by
    intro p hp
    obtain ⟨s, f, h1, h2⟩ := hpl p hp
    obtain ⟨plan', s', e, h3⟩ := cleanup_to (own' := own') (hl0 p hp).nl (hl0 p hp).nodup (hl0 p hp).rank h1 h2
    exact ⟨(plan', s'), e, h3⟩
  haveI : Inhabited (Plan × List Gid) := ⟨(⟨none, []⟩, [])⟩
  obtain ⟨R, hR⟩ := choose_part hcl
  have hpl' : ∀ p, p < n → PlanTo (V p) (R p).1 (R p).2 own' p := fun p hp => (hR p hp).2
  simp only [Function.comp_def] at h
  rw [mapM_range (f := fun x : Graph × Plan => x.1.cleanup x.2) (G := fun p => (R p).1) (fun p hp => (hR p hp).1),
    Outcome.bind_ok, zip_range] at h
  -- owners
  obtain ⟨upd, hupd, h⟩ := bind_ok_iff.mp h
  obtain ⟨U, rfl, -⟩ := mapM_range_inv hupd
  obtain ⟨inb, hinb, h⟩ := bind_ok_iff.mp h
  have := exchange_inv hinb
  subst this
  rw [zip_range] at h
  obtain ⟨g1, hg1, h⟩ := bind_ok_iff.mp h
  obtain ⟨gr1, rfl, hgr1⟩ := mapM_range_inv hg1
  have hc1 : ∀ p, p < n → KeepsC { gr p with isHyper := hyper } (gr1 p) := by
    intro p hp
    exact foldlM_keeps (fun x => KeepsC ({ gr p with isHyper := hyper } : Graph) x)
      (fun s x s' hs he _ _ _ _ c => applyOwner_keepsC he (hs c)) _ (fun _ _ _ _ c => c) (hgr1 p hp)
  have hl1 : ∀ p, p < n → LRep D own p (gr1 p) (V p) := by
    intro p hp
    have k := foldlM_keeps (fun x => Keeps ({ gr p with isHyper := hyper } : Graph) x)
      (fun s x s' hs he => hs.trans (applyOwner_keeps he)) _ (Keeps.refl _) (hgr1 p hp)
    exact (hl0 p hp).keeps k
  rw [zip_range] at h
  rw [mapM_range (f := fun x : Graph × Plan => x.1.affectedVerts x.2) (F := fun p => (gr1 p, (R p).1))
    (G := fun p => (R p).2.map (lh (V p))) (fun p hp => (hl1 p hp).affected (hpl' p hp)), Outcome.bind_ok,
    zip_range] at h
  have hsV : ∀ p, p < n → ∀ v ∈ (R p).2, v ∈ V p := by
    intro p hp v hv
    obtain ⟨f, -, -, hs⟩ := hpl' p hp
    exact ((hs v).mp hv).1
  rw [mapM_range (G := fun p => ((V p).filter (fun v => decide (v ∉ (R p).2))).map D.record) (fun p hp =>
    (hl1 p hp).keep (hsV p hp) _ D.record (fun v hv => (hl1 p hp).vrec hv)), Outcome.bind_ok] at h
  obtain ⟨st, hst, h⟩ := bind_ok_iff.mp h
  obtain ⟨ST, rfl, hST⟩ := mapM_range_inv hst
  rw [mapM_range (G := fun p => (R p).2.map (fun v => ((own' v : Int), D.record v))) (fun p hp =>
    (hl1 p hp).sendEach (hpl' p hp) _ D.record (fun v hv => (hl1 p hp).vrec hv)), Outcome.bind_ok] at h
  obtain ⟨inb2, hinb2, h⟩ := bind_ok_iff.mp h
  have := exchange_inv hinb2
  subst this
  rw [zip_range] at h
  let W : Nat → List Gid := fun p => ((V p).filter (fun v => decide (v ∉ (R p).2)) ++
    arrivals (fun p => (R p).2) (fun v => (own' v : Int)) (env.verts p) p)
  have hvs : ((List.range n).map (fun p =>
      (((V p).filter (fun v => decide (v ∉ (R p).2))).map D.record,
       inbox ((List.range n).map (fun p => (R p).2.map (fun v => ((own' v : Int), D.record v)))) (env.verts p) p))).map
         (fun x : List VRec × List (Nat × VRec) => x.1 ++ x.2.map Prod.snd) =
      (List.range n).map (fun p => (W p).map D.record) := by
    rw [List.map_map]
    apply List.map_congr_left
    intro p hp
    have hp' := List.mem_range.mp hp
    simp only [Function.comp, W]
    rw [inbox_values (fun p => (R p).2) (fun v => (own' v : Int)) D.record henv.verts hp', List.map_append]
  simp only [hvs] at h
  have hlen : ((List.range n).map (fun p => (W p).map D.record)).map List.length =
      (List.range n).map (fun p => (W p).length) := by
    rw [List.map_map]; apply List.map_congr_left; intro p _; simp
  rw [hlen] at h
  obtain ⟨cs, hcs, h⟩ := bind_ok_iff.mp h
  have hcs' := coords_any (S := fun p => (R p).2) (pl := fun p => (R p).1) hn hl1 hpl'
    henv.verts henv.coords hcs
  subst hcs'
  obtain ⟨st2, hst2, h⟩ := bind_ok_iff.mp h
  obtain ⟨ST2, rfl⟩ := foldlM_keeps (fun st => ∃ S : Nat → List EAcc × GMap Part, st = (List.range n).map S)
    (fun s x s' hs he => migrateEdges_shape hs he) _ ⟨ST, rfl⟩ hst2
  -- the vertices of the parts
  have hSm : ∀ p, p < n → ∀ v, v ∈ (R p).2 ↔ (v ∈ D.verts ∧ own v = p) ∧ own' v ≠ p := by
    intro p hp v
    obtain ⟨f, -, -, hs⟩ := hpl' p hp
    rw [hs, (hl1 p hp).mem]
  have hW : ∀ p, p < n → (W p).Nodup ∧ ∀ v, v ∈ W p ↔ v ∈ D.verts ∧ own' v = p := by
    intro p hp
    have harr := fun v => @mem_arrivals n (fun p => (R p).2) (fun v => (own' v : Int)) env.verts henv.verts p hp v
    constructor
    · rw [List.nodup_append]
      refine ⟨(hl1 p hp).nodup.filter _, arrivals_nodup henv.verts hp (fun q hq => by
        obtain ⟨f, h1, -, -⟩ := hpl' q hq; exact h1.nodup) ?_, ?_⟩
      · intro q q' hq hq' v h1 h2
        have a := ((hSm q hq v).mp h1).1.2
        have b := ((hSm q' hq' v).mp h2).1.2
        omega
      · intro v hv w hw he
        subst he
        rw [List.mem_filter, decide_eq_true_iff] at hv
        obtain ⟨h1, q, hq, h2⟩ := (harr v).mp hw
        have a := ((hSm q hq v).mp h2)
        have b := ((hl1 p hp).mem v).mp hv.1
        omega
    · intro v
      rw [List.mem_append, List.mem_filter, decide_eq_true_iff, harr, (hl1 p hp).mem]
      constructor
      · rintro (⟨⟨h1, h2⟩, h3⟩ | ⟨h1, q, hq, h2⟩)
        · refine ⟨h1, ?_⟩
          by_contra hc
          exact h3 ((hSm p hp v).mpr ⟨⟨h1, h2⟩, hc⟩)
        · refine ⟨((hSm q hq v).mp h2).1.1, by omega⟩
      · rintro ⟨h1, h2⟩
        by_cases hc : own v = p
        · left; refine ⟨⟨h1, hc⟩, ?_⟩
          intro hs; exact ((hSm p hp v).mp hs).2 h2
        · right
          refine ⟨by omega, own v, hown v h1, (hSm _ (hown v h1) v).mpr ⟨⟨h1, rfl⟩, by omega⟩⟩
  have htot : ((List.range n).map (fun p => (W p).map D.record)).map (fun v => (v.length : Int)) =
      (List.range n).map (fun p => ((W p).length : Int)) := by
    rw [List.map_map]; apply List.map_congr_left; intro p _; simp
  rw [htot, new_total (G := ⟨D.verts, [], D.wt, D.oo, D.co⟩) hnd hown' hW, zip_range, zip_range, zip_range] at h
  obtain ⟨g2, hg2, h⟩ := bind_ok_iff.mp h
  obtain ⟨gr2, rfl, hgr2⟩ := mapM_range_inv hg2
  have hp2 : ∀ p, p < n → LPre D p (gr2 p) (W p) (D.verts.length : Int) := fun p hp =>
    rebuild_local (hl1 p hp).rank (hW p hp).1 (hgr2 p hp)
  obtain ⟨g3, hg3, h⟩ := bind_ok_iff.mp h
  rw [List.map_map] at hg3
  obtain ⟨gr3, rfl, hk3⟩ := constructGhosts_rel ghostRel_both hg3
  have hp3 := fun p hp => (hp2 p hp).keeps (hk3 p hp).1
  rw [zip_range] at h
  obtain ⟨gr4, rfl, hgr4⟩ := mapM_range_inv h
  have hlast : ∀ p, p < n → gr4 p = { gr3 p with originalOwners := (gr4 p).originalOwners } ∧
      LRep D own' p (gr4 p) (W p) := by
    intro p hp
    have q := hp3 p hp
    have e := hgr4 p hp
    simp only at e
    have hoo : ((W p).map D.record).map VRec.oo = (W p).map D.oo := by rw [List.map_map]; rfl
    rw [hoo, setOO_spec q.orig (by rw [q.nl]; simp)] at e
    have := Outcome.ok.inj e
    rw [← this]
    exact ⟨rfl, q.rank, q.nl, (hW p hp).1, (hW p hp).2, q.loc, q.map, q.wts, rfl, q.coords, q.total⟩
  exact ⟨gr1, fun p => (R p).1, fun p => (R p).2, W, ST, ST2, gr2, gr3, gr4, rfl, hc1, hl1, hpl', hST, hst2, hgr2,
    fun p hp => (hW p hp).1, fun p hp => (hk3 p hp).2, fun p hp => (hlast p hp).1, fun p hp => (hlast p hp).2⟩

/-- where the vertices are afterwards -/
theorem migrate_any (hn : 0 < n) (hnd : D.verts.Nodup) (hown : ∀ v ∈ D.verts, own v < n)
    (hown' : ∀ v ∈ D.verts, own' v < n) {gr : Nat → Graph} {V : Nat → List Gid}
    (hl : ∀ p, p < n → LRep D own p (gr p) (V p)) {pl : Nat → Plan}
    (hpl : ∀ p, p < n → ∃ s f, PlanRep (V p) (pl p) s f ∧ ∀ v ∈ V p, (own' v : Int) = (f v).getD p)
    {env : MigrateEnv} (henv : EnvOk n D.co.isSome env) {gs : List Graph}
    (h : migrate ((List.range n).map gr) ((List.range n).map pl) env = .ok gs) :
    ∃ (gr' : Nat → Graph) (V' : Nat → List Gid), gs = (List.range n).map gr' ∧
      ∀ p, p < n → LRep D own' p (gr' p) (V' p) := by
  obtain ⟨_, _, _, W, _, _, _, _, gr4, h1, h2⟩ := migrate_inv hn hnd hown hown' hl hpl henv h
  exact ⟨gr4, W, h1, h2.loc4⟩

end
end Verif.Agi
