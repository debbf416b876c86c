import Verif.Agi.AnyMig
import Verif.Agi.MigWitness
/-!
# C17, C18 and C21 for every kind of graph

Traditional graphs and hypergraphs, any number of edge types, whatever the edges are: a sequence of
migrations *that returns* leaves every vertex on the part that was planned for it, with its data, and
`getPartition` tells where.  (That it returns is proved for hypergraphs with one edge type,
`c17_vertices_partial`; `c17_no_edge_type_ub` is a case where it does not.)
-/
namespace Verif.Agi

/-- every part passes its own vertices, each once -/
structure Placed (ins : List Input) (own : Gid → Nat) : Prop where
  nodup : ∀ i ∈ ins, i.verts.Nodup
  verts : ∀ p (h : p < ins.length), ∀ v ∈ ins[p].verts, own v = p

/-- the vertices of the start and their data -/
def startD (ins : List Input) (own : Gid → Nat) (co : Option (Gid → Coord)) : VD :=
  ⟨allVerts ins, weightOf ins own, fun v => (own v : Int), co⟩

section
variable {ins : List Input} {own : Gid → Nat} {owns : List (GMap Part)} {o1 o2 : Nat → List Nat}
  {co : Option (Gid → Coord)} {gs0 gs : List Graph} {rs : List Round}

theorem Placed.mem (h : Placed ins own) {q : Nat} (hq : q < ins.length) (v : Gid) :
    v ∈ ins[q].verts ↔ v ∈ allVerts ins ∧ own v = q := by
  rw [allVerts_own h.verts]
  constructor
  · intro hv
    have := h.verts q hq v hv
    subst this
    exact ⟨⟨hq, hv⟩, rfl⟩
  · rintro ⟨⟨h1, h2⟩, rfl⟩; exact h2

theorem Placed.lt (h : Placed ins own) : ∀ v ∈ allVerts ins, own v < ins.length :=
  fun v hv => ((allVerts_own h.verts).mp hv).1

theorem build_local {me : Nat} {n : Nat} {total : Int} {i : Input} (hnd : i.verts.Nodup) {g : Graph}
    (h : build (me : Int) n total i = .ok g) : g.self = (me : Int) ∧ g.numLocal = i.verts.length ∧
      g.localUnmap = Mem.ofList i.verts ∧ (∀ v ∈ i.verts, g.vtxMap v = some (i.verts.idxOf v)) ∧
      g.weights = Mem.ofList (vertWeights i.verts i.wgts) ∧ g.originalOwners = none ∧ g.coords = none ∧
      g.globalVerts = total := by
  unfold build at h
  obtain ⟨g1, e1, hv, hg1⟩ := constructVertsV_spec (emptyGraph (me : Int) n) i.hyper i.verts i.wgts total hnd
  rw [e1, Outcome.bind_ok] at h
  have k : Keeps g1 g := foldlM_keeps (fun x => Keeps g1 x) (fun s x s' hs he => hs.trans (constructEdgesV_keeps he))
    _ (Keeps.refl g1) h
  refine ⟨by rw [k.rank, hg1]; rfl, by rw [k.nl, hv.nl], by rw [k.loc, hv.loc], ?_, by rw [k.wts, hg1],
    by rw [k.orig, hg1]; rfl, by rw [k.coords, hg1]; rfl, by rw [k.total, hg1]⟩
  intro v hvm
  apply k.map
  rw [hv.map, List.append_nil, lookup_of_mem hvm]

/-- the vertices a part passes -/
def vertsAt (ins : List Input) (p : Nat) : List Gid := (ins.getD p ⟨true, [], [], []⟩).verts

theorem vertsAt_eq {p : Nat} (hp : p < ins.length) : vertsAt ins p = ins[p].verts := by
  unfold vertsAt
  rw [List.getD_eq_getElem?_getD, List.getElem?_eq_getElem hp, Option.getD_some]

theorem setup_any' (h : Placed ins own) (hl : owns.length = ins.length)
    (e : setupAll ins co owns o1 o2 = .ok gs0) :
    ∃ (gr : Nat → Graph), gs0 = (List.range ins.length).map gr ∧
      ∀ p (hp : p < ins.length), LRep (startD ins own co) own p (gr p) (vertsAt ins p) ∧
        ∃ g1, build (p : Int) ins.length ((ins.map (fun i : Input => (i.verts.length : Int))).sum) ins[p] = .ok g1 ∧
          KeepsC g1 (gr p) := by
  unfold setupAll at e
  obtain ⟨g1, h1, e⟩ := bind_ok_iff.mp e
  unfold buildAll at h1
  have hr1 : (List.range ins.length).mapM (fun p => do
      let i : Input ← rd ins p
      build (p : Int) ins.length ((ins.map (fun i : Input => (i.verts.length : Int))).sum) i) =
      ((List.range ins.length).map (fun p => p)).mapM (fun p => do
      let i : Input ← rd ins p
      build (p : Int) ins.length ((ins.map (fun i : Input => (i.verts.length : Int))).sum) i) := by rw [List.map_id']
  rw [hr1] at h1
  obtain ⟨G1, rfl, hG1⟩ := mapM_range_inv h1
  have hins := list_range ins ⟨true, [], [], []⟩
  rw [show ((List.range ins.length).map G1).zip ins = (List.range ins.length).map
    (fun p => (G1 p, ins.getD p ⟨true, [], [], []⟩)) by
      conv_lhs => rw [hins]
      rw [List.length_map, List.length_range]
      exact zip_range _ _ _] at e
  obtain ⟨g2, h2, e⟩ := bind_ok_iff.mp e
  obtain ⟨G2, rfl, hG2⟩ := mapM_range_inv h2
  obtain ⟨O, rfl⟩ : ∃ O : Nat → GMap Part, owns = (List.range ins.length).map O := by
    have := list_range owns GMap.empty
    rw [hl] at this
    exact ⟨_, this⟩
  obtain ⟨g3, h3, e⟩ := bind_ok_iff.mp e
  obtain ⟨G3, rfl, hG3⟩ := constructGhosts_rel ghostRel_both h3
  have := Outcome.ok.inj e
  subst this
  rw [List.map_map]
  refine ⟨_, rfl, ?_⟩
  intro p hp
  rw [vertsAt_eq hp]
  have hgd : ins.getD p ⟨true, [], [], []⟩ = ins[p] := by
    rw [List.getD_eq_getElem?_getD, List.getElem?_eq_getElem hp, Option.getD_some]
  have a := hG1 p hp
  simp only [rd_ok hp, Outcome.bind_ok] at a
  have hnd := h.nodup _ (List.getElem_mem hp)
  obtain ⟨b1, b2, b3, b4, b5, b6, b7, b8⟩ := build_local hnd a
  have b := hG2 p hp
  simp only [hgd] at b
  have htot : ((ins.map (fun i => (i.verts.length : Int))).sum) = ((allVerts ins).length : Int) := by
    unfold allVerts
    rw [List.length_flatten, List.map_map]
    have : ∀ l : List Input, (l.map (fun i => (i.verts.length : Int))).sum = ((l.map (List.length ∘ Input.verts)).sum : Nat) := by
      intro l
      induction l with
      | nil => rfl
      | cons a l ih => rw [List.map_cons, List.sum_cons, ih, List.map_cons, List.sum_cons]; simp
    exact this ins
  have k := (hG3 p hp).1
  have hco : (G2 p).coords = co.map (fun c => Mem.ofList (ins[p].verts.map c)) ∧
      Keeps { G1 p with coords := (G2 p).coords } (G2 p) := by
    unfold Graph.giveCoords at b
    rcases co with _ | c
    · have := Outcome.ok.inj b
      rw [← this]
      exact ⟨b7, Keeps.refl _⟩
    · simp only at b
      unfold Graph.setCoords at b
      rw [storeAll _ _ (by rw [b2]; simp), Outcome.bind_ok] at b
      have := Outcome.ok.inj b
      rw [← this]
      exact ⟨rfl, Keeps.refl _⟩
  have k' := hco.2.trans k
  have hoo : (G3 p).originalOwners = none := by rw [k'.orig]; exact b6
  simp only [Function.comp, hgd]
  have hset : (G3 p).setOriginalOwners = { G3 p with originalOwners := some (Mem.ofList (List.replicate (G3 p).numLocal (G3 p).self)) } := by
    unfold Graph.setOriginalOwners
    simp only [hoo]
  have hself : (G3 p).self = (p : Int) := by rw [k'.rank]; exact b1
  have hnl : (G3 p).numLocal = ins[p].verts.length := by rw [k'.nl]; exact b2
  rw [hset]
  have kc : KeepsC (G1 p) { G3 p with originalOwners := some (Mem.ofList (List.replicate (G3 p).numLocal (G3 p).self)) } := by
    intro hy vs ghs tys c
    have c2 : CRep (G2 p) hy vs ghs tys := by
      unfold Graph.giveCoords at b
      rcases co with _ | c'
      · have := Outcome.ok.inj b
        rw [← this]; exact c
      · simp only at b
        unfold Graph.setCoords at b
        obtain ⟨m, -, b⟩ := bind_ok_iff.mp b
        have := Outcome.ok.inj b
        rw [← this]
        exact keepsC_with (G1 p) (G1 p).owners (G1 p).ghostWeights (G1 p).originalOwners (some m) c
    exact keepsC_with (G3 p) (G3 p).owners (G3 p).ghostWeights _ (G3 p).coords ((hG3 p hp).2 c2)
  refine ⟨?_, G1 p, a, kc⟩
  refine ⟨hself, hnl, hnd, fun v => h.mem hp v, k'.loc.trans b3, fun v hv => k'.map _ _ (b4 v hv), ?_, ?_, ?_, ?_⟩
  · simp only [startD]
    rw [k'.wts, ← weightOf_verts h.verts h.nodup hp]; exact b5
  · simp only
    rw [hself, hnl]
    congr 2
    rw [← List.map_const']
    apply List.map_congr_left
    intro v hv
    simp only [startD]
    rw [h.verts p hp v hv]
  · simp only [startD]
    rw [k.coords]; exact hco.1
  · simp only [startD]
    rw [k'.total]; simp only [b8, htot]

theorem setup_any (h : Placed ins own) (hl : owns.length = ins.length)
    (e : setupAll ins co owns o1 o2 = .ok gs0) :
    ∃ (gr : Nat → Graph) (V : Nat → List Gid), gs0 = (List.range ins.length).map gr ∧
      ∀ p, p < ins.length → LRep (startD ins own co) own p (gr p) (V p) := by
  obtain ⟨gr, h1, h2⟩ := setup_any' h hl e
  exact ⟨gr, vertsAt ins, h1, fun p hp => (h2 p hp).1⟩

theorem round_any {D : VD} {n : Nat} (hn : 0 < n) {own : Gid → Nat} (hnd : D.verts.Nodup)
    (hown : ∀ v ∈ D.verts, own v < n) {gr : Nat → Graph} {V : Nat → List Gid}
    (hl : ∀ p, p < n → LRep D own p (gr p) (V p)) {r : Round} (hr : RoundOk D.verts n D.co.isSome own r)
    {gs : List Graph} (h : migrateRound ((List.range n).map gr) r = .ok gs) :
    ∃ (gr' : Nat → Graph) (V' : Nat → List Gid), gs = (List.range n).map gr' ∧
      ∀ p, p < n → LRep D (place own r.ops) p (gr' p) (V' p) := by
  have hpl : ∀ p, p < n → ∃ plan, (gr p).planG (r.ops p) = .ok plan ∧ ∃ s, PlanRep (V p) plan s
      (fun v => plannedG v (r.ops p).reverse) := by
    intro p hp
    obtain ⟨plan, s, e, h⟩ := planG_local (hl p hp).nl (hl p hp).nodup (fun v hv => (hl p hp).findGID hv) (r.ops p) (by
      intro v d hv
      obtain ⟨h1, h2, h3⟩ := hr.ops p hp v d hv
      exact ⟨((hl p hp).mem v).mpr h1, by omega⟩)
    exact ⟨plan, e, s, h⟩
  haveI : Inhabited Plan := ⟨⟨none, []⟩⟩
  obtain ⟨pl, hpl'⟩ := choose_part hpl
  unfold migrateRound at h
  rw [zipIdx_range, mapM_range (G := pl) (fun p hp => (hpl' p hp).1), Outcome.bind_ok] at h
  exact migrate_any hn hnd hown (place_lt hown hr) hl (by
    intro p hp
    obtain ⟨-, s, h⟩ := hpl' p hp
    refine ⟨s, _, h, fun v hv => ?_⟩
    exact place_planned hr hp (((hl p hp).mem v).mp hv).2) hr.env h

theorem rounds_any {D : VD} {n : Nat} (hn : 0 < n) (hnd : D.verts.Nodup) : ∀ (rs : List Round) {own : Gid → Nat},
    (∀ v ∈ D.verts, own v < n) → ∀ {gr : Nat → Graph} {V : Nat → List Gid},
    (∀ p, p < n → LRep D own p (gr p) (V p)) → RoundsOk D.verts n D.co.isSome own rs →
    ∀ {gs : List Graph}, migrateRounds ((List.range n).map gr) rs = .ok gs →
    (∀ v ∈ D.verts, placeAll own rs v < n) ∧
    ∃ (gr' : Nat → Graph) (V' : Nat → List Gid), gs = (List.range n).map gr' ∧
      ∀ p, p < n → LRep D (placeAll own rs) p (gr' p) (V' p) := by
  intro rs
  induction rs with
  | nil =>
    intro own hown gr V hl _ gs h
    have := Outcome.ok.inj h
    subst this
    exact ⟨hown, gr, V, rfl, hl⟩
  | cons r rs ih =>
    intro own hown gr V hl hr gs h
    unfold migrateRounds at h
    rw [List.foldlM_cons] at h
    obtain ⟨gs1, h1, h2⟩ := bind_ok_iff.mp h
    obtain ⟨gr1, V1, rfl, hl1⟩ := round_any hn hnd hown hl hr.1 h1
    exact ih (place_lt hown hr.1) hl1 hr.2 h2

theorem run_any (h : Placed ins own) (hl : owns.length = ins.length)
    (hr : RoundsOk (allVerts ins) ins.length co.isSome own rs)
    (e0 : setupAll ins co owns o1 o2 = .ok gs0) (e : migrateRounds gs0 rs = .ok gs) :
    (∀ v ∈ allVerts ins, placeAll own rs v < ins.length) ∧
    ∃ (gr : Nat → Graph) (V : Nat → List Gid), gs = (List.range ins.length).map gr ∧
      ∀ p, p < ins.length → LRep (startD ins own co) (placeAll own rs) p (gr p) (V p) := by
  obtain ⟨gr0, V0, rfl, h0⟩ := setup_any h hl e0
  rcases Nat.eq_zero_or_pos ins.length with hn | hn
  · have hi : ins = [] := List.eq_nil_of_length_eq_zero hn
    subst hi
    have he : ∀ (rs : List Round) (gs : List Graph), migrateRounds [] rs = .ok gs → gs = [] := by
      intro rs
      induction rs with
      | nil => intro gs h; exact (Outcome.ok.inj h).symm
      | cons r rs ih =>
        intro gs h
        unfold migrateRounds at h
        rw [List.foldlM_cons] at h
        obtain ⟨gs1, h1, h2⟩ := bind_ok_iff.mp h
        have : gs1 = [] := by
          unfold migrateRound at h1
          simp only [List.zipIdx_nil, List.mapM_nil, Outcome.pure_eq, Outcome.bind_ok] at h1
          unfold migrate at h1
          simp [exchange, constructGhosts, countTypes, setGhostWeights, migrateCoords] at h1
          exact h1
        subst this
        exact ih gs h2
    have := he rs gs e
    subst this
    exact ⟨by simp [allVerts], gr0, V0, rfl, by simp⟩
  · exact rounds_any hn (allVerts_nodup h.nodup h.verts) rs h.lt h0 hr e

/-! ## the properties -/

theorem LRep.gids {D : VD} {own : Gid → Nat} {p : Nat} {g : Graph} {V : List Gid} (h : LRep D own p g V) :
    g.localGids = .ok V := by
  unfold Graph.localGids
  rw [iterLoop_collect (F := fun v => v) h.yields h.fuel]
  · simp
  · intro acc v hv
    rw [h.globalID hv, Outcome.bind_ok]; rfl

/-- **C17, any graph.**  For traditional graphs and hypergraphs with any edge types: a sequence of migrations
that returns leaves every part with exactly the vertices that were planned for it or that it had and nobody
sent away, each once; together the parts have the vertices of the start, each on one part; and every part
reports the global vertex count of the start. -/
theorem c17_any_partial (h : Placed ins own) (hl : owns.length = ins.length)
    (hr : RoundsOk (allVerts ins) ins.length co.isSome own rs)
    (e0 : setupAll ins co owns o1 o2 = .ok gs0) (e : migrateRounds gs0 rs = .ok gs) :
    gs.length = ins.length ∧
    (∀ p (hp : p < gs.length), gs[p].globalVerts = ((allVerts ins).length : Int) ∧
      ∃ vs, gs[p].localGids = .ok vs ∧ vs.Nodup ∧ ∀ v, v ∈ vs ↔ v ∈ allVerts ins ∧ placeAll own rs v = p) ∧
    ∃ vss, gs.mapM Graph.localGids = .ok vss ∧ vss.flatten.Perm (allVerts ins) := by
  obtain ⟨hlt, gr, V, rfl, hd⟩ := run_any h hl hr e0 e
  refine ⟨by simp, ?_, (List.range ins.length).map V, mapM_range (fun p hp => (hd p hp).gids), ?_⟩
  · intro p hp
    have hp' : p < ins.length := by simpa using hp
    simp only [List.getElem_map, List.getElem_range]
    exact ⟨(hd p hp').total, _, (hd p hp').gids, (hd p hp').nodup, (hd p hp').mem⟩
  · refine (List.perm_ext_iff_of_nodup ?_ (allVerts_nodup h.nodup h.verts)).mpr (fun v => ?_)
    · rw [List.nodup_flatten]
      constructor
      · intro l hl
        obtain ⟨p, hp, rfl⟩ := List.mem_map.mp hl
        exact (hd p (List.mem_range.mp hp)).nodup
      · rw [List.pairwise_iff_getElem]
        intro a b ha hb hab v h1 h2
        simp only [List.length_map, List.length_range] at ha hb
        simp only [List.getElem_map, List.getElem_range] at h1 h2
        have x := ((hd a ha).mem v).mp h1
        have y := ((hd b hb).mem v).mp h2
        omega
    · rw [List.mem_flatten]
      constructor
      · rintro ⟨l, hl, hv⟩
        obtain ⟨p, hp, rfl⟩ := List.mem_map.mp hl
        exact (((hd p (List.mem_range.mp hp)).mem v).mp hv).1
      · intro hv
        have hp := hlt v hv
        exact ⟨_, List.mem_map.mpr ⟨_, List.mem_range.mpr hp, rfl⟩, ((hd _ hp).mem v).mpr ⟨hv, rfl⟩⟩

/-- **C18, any graph.**  After a sequence of migrations that returns, every vertex has, on the part where it
now lives, the weight it was given at the start, the part it started on as original owner, and its
coordinates. -/
theorem c18_any_partial (h : Placed ins own) (hl : owns.length = ins.length)
    (hr : RoundsOk (allVerts ins) ins.length co.isSome own rs)
    (e0 : setupAll ins co owns o1 o2 = .ok gs0) (e : migrateRounds gs0 rs = .ok gs) :
    ∀ v ∈ allVerts ins, ∃ g, gs[placeAll own rs v]? = some g ∧
      g.weightG v = .ok (weightOf ins own v) ∧ g.origG v = .ok (own v : Int) ∧
      ∀ c, co = some c → g.coordG v = .ok (c v) := by
  obtain ⟨hlt, gr, V, rfl, hd⟩ := run_any h hl hr e0 e
  intro v hv
  have hp := hlt v hv
  have hd' := hd _ hp
  have hv' := (hd'.mem v).mpr ⟨hv, rfl⟩
  refine ⟨gr (placeAll own rs v), by simp [hp], ?_, ?_, ?_⟩
  · unfold Graph.weightG
    rw [hd'.findGID hv', Outcome.bind_ok]; exact hd'.weight hv'
  · unfold Graph.origG
    rw [hd'.findGID hv', Outcome.bind_ok]; exact hd'.originalOwner hv'
  · intro c hc
    unfold Graph.coordG
    rw [hd'.findGID hv', Outcome.bind_ok]; exact hd'.coord hc hv'

/-- **C21, any graph.**  After a sequence of migrations that returns, `getPartition` succeeds and gives part
`q` a map whose keys are exactly the vertices that started on `q`, and whose values are the parts where they
live now. -/
theorem c21_any_partial (h : Placed ins own) (hl : owns.length = ins.length)
    (hr : RoundsOk (allVerts ins) ins.length co.isSome own rs)
    (e0 : setupAll ins co owns o1 o2 = .ok gs0) (e : migrateRounds gs0 rs = .ok gs)
    {ord : Nat → List Nat} (ho : Orders ins.length ord) :
    ∃ maps, getPartition gs ord = .ok maps ∧ maps.length = ins.length ∧
      ∀ q (hq : q < maps.length) (hq' : q < ins.length) v,
        (v ∈ ins[q].verts → maps[q] v = some (placeAll own rs v)) ∧ (v ∉ ins[q].verts → maps[q] v = none) := by
  obtain ⟨hlt, gr, V, rfl, hd⟩ := run_any h hl hr e0 e
  have hms : ∀ p, p < ins.length → (gr p).partitionMsgs = .ok ((V p).map (fun v => ((own v : Int), v))) := by
    intro p hp
    have hd' := hd p hp
    unfold Graph.partitionMsgs
    apply iterLoop_collect hd'.yields hd'.fuel
    intro acc v hv
    rw [hd'.globalID hv, Outcome.bind_ok, hd'.originalOwner hv, Outcome.bind_ok]; rfl
  refine ⟨(List.range ins.length).map (fun q => (inbox ((List.range ins.length).map (fun p =>
    (V p).map (fun v => ((own v : Int), v)))) (ord q) q).foldl
      (fun m (x : Nat × Gid) => m.insertNew x.2 x.1) GMap.empty), ?_, by simp, ?_⟩
  · unfold getPartition
    rw [mapM_range hms, Outcome.bind_ok, exchange_range (by
      intro p hp m hm
      obtain ⟨v, hv, rfl⟩ := List.mem_map.mp hm
      have := h.lt v (((hd p hp).mem v).mp hv).1
      simp only
      omega), Outcome.bind_ok, List.map_map]
    rfl
  · intro q hq hq' v
    simp only [List.getElem_map, List.getElem_range]
    have hin : ∀ x, x ∈ inbox ((List.range ins.length).map (fun p =>
        (V p).map (fun v => ((own v : Int), v)))) (ord q) q ↔
        x.1 < ins.length ∧ (x.2 ∈ allVerts ins ∧ placeAll own rs x.2 = x.1) ∧ own x.2 = q := by
      intro x
      rw [mem_inbox_range ho hq']
      constructor
      · rintro ⟨h1, h2⟩
        obtain ⟨w, hw, he⟩ := List.mem_map.mp h2
        simp only [Prod.mk.injEq] at he
        obtain ⟨he1, rfl⟩ := he
        exact ⟨h1, ((hd _ h1).mem _).mp hw, by omega⟩
      · rintro ⟨h1, h2, h3⟩
        refine ⟨h1, List.mem_map.mpr ⟨x.2, ((hd _ h1).mem _).mpr h2, ?_⟩⟩
        simp only [Prod.mk.injEq, and_true]
        omega
    have hf := foldl_insertNew (placeAll own rs) (inbox ((List.range ins.length).map (fun p =>
        (V p).map (fun v => ((own v : Int), v)))) (ord q) q) GMap.empty
        (by intro x hx; exact ((hin x).mp hx).2.1.2.symm) (by intro k a hk; simp [GMap.empty] at hk) v
    rw [hf]
    constructor
    · intro hv
      have hv' := (h.mem hq' v).mp hv
      rw [if_pos]
      right
      exact List.mem_map.mpr ⟨(placeAll own rs v, v), (hin _).mpr ⟨hlt v hv'.1, ⟨hv'.1, rfl⟩, hv'.2⟩, rfl⟩
    · intro hv
      rw [if_neg]
      rintro (h1 | h1)
      · simp [GMap.empty] at h1
      · obtain ⟨x, hx, rfl⟩ := List.mem_map.mp h1
        obtain ⟨-, h2, h3⟩ := (hin x).mp hx
        exact hv ((h.mem hq' _).mpr ⟨h2.1, h3⟩)

/-! ## the hypotheses are met -/

/-- a traditional graph on two parts, moved twice: the runs return -/
def tradRounds : List Round :=
  [⟨fun p => if p = 0 then [.insert 2 1] else [], sampleEnv⟩,
   ⟨fun p => if p = 1 then [.insert 2 0] else if p = 0 then [.insert 1 1] else [], sampleEnv⟩]

def twoOwn (v : Gid) : Nat := if v = 3 then 1 else 0

example : Placed tradPair twoOwn ∧ Placed twoTypes twoOwn := by
  refine ⟨⟨by decide, ?_⟩, ⟨by decide, ?_⟩⟩ <;>
  · intro p hp
    have h1 : p = 0 ∨ p = 1 := by simp [tradPair, twoTypes] at hp; omega
    rcases h1 with rfl | rfl
    · exact (by decide : ∀ v ∈ ([1, 2] : List Int), twoOwn v = 0)
    · exact (by decide : ∀ v ∈ ([3] : List Int), twoOwn v = 1)

example : RoundsOk (allVerts tradPair) tradPair.length true twoOwn tradRounds := by
  refine ⟨⟨?_, sampleEnv_ok _⟩, ⟨?_, sampleEnv_ok _⟩, trivial⟩
  · intro p hp v d hv
    have h1 : p = 0 ∨ p = 1 := by simp [tradPair] at hp; omega
    rcases h1 with rfl | rfl
    · simp at hv
      obtain ⟨rfl, rfl⟩ := hv
      decide
    · simp at hv
  · intro p hp v d hv
    have h1 : p = 0 ∨ p = 1 := by simp [tradPair] at hp; omega
    rcases h1 with rfl | rfl
    · simp at hv
      obtain ⟨rfl, rfl⟩ := hv
      decide
    · simp at hv
      obtain ⟨rfl, rfl⟩ := hv
      decide

/-- both runs return, with coordinates; where everything ends up -/
example : observe tradPair (some (fun v => (v, 0, 0))) twoTypesOwns tradRounds Graph.localGids =
      .ok [[2], [3, 1]] ∧
    observe twoTypes (some (fun v => (v, 0, 0))) twoTypesOwns tradRounds Graph.localGids = .ok [[2], [3, 1]] := by
  decide +kernel

/-- part 0 sends vertex 1 to part 1 while part 1 sends vertex 3 to part 0 -/
def swapOneThree : List Round :=
  [⟨fun p => if p = 1 then [.insert 3 0] else if p = 0 then [.insert 1 1] else [], sampleEnv⟩]

/-- **"the run returns" cannot be dropped for traditional graphs** (agi/agiMigrate.cpp:27-55: only the parts an
outgoing edge of a moved vertex leads to are told its new owner).  The only edge between vertices 3 and 1 is
3→1, so part 1 never learns that 1 moves; the edge arrives on part 0 with the owner of 1 recorded as part 0
itself, and part 0 then asks itself for the weight of a vertex it does not own: undefined behaviour. -/
theorem c17_one_way_swap_ub : observe tradPair none twoTypesOwns swapOneThree Graph.localGids = .ub := by
  decide +kernel

end
end Verif.Agi
