import Verif.Mesh.MeshType
import Verif.Io.BinLemmas
import Verif.Agi.GhostCount
/-!
# The whole construction of a mesh graph
-/
namespace Verif.Mesh
open Verif.Agi

/-! ## ghost tags of any graphs that know their vertices -/

theorem ghostReq_eq {g : Graph} {V G : List Gid} {own : Gid → Nat} (hv : VRep g V G) (ho : ORep g G (fun v => (own v : Int))) :
    g.ghostRequests = .ok (G.map (fun v => ((own v : Int), v))) := by
  unfold Graph.ghostRequests
  have hy := yields_ghosts g
  have hlist : (List.range g.numGhost).map (fun k => getVertex (g.numLocal + k)) =
      G.map (fun v => getVertex ((V ++ G).idxOf v)) := by
    apply List.ext_getElem
    · simp [hv.ng]
    · intro k h1 h2
      simp only [List.length_map] at h2
      simp only [List.getElem_map, List.getElem_range]
      congr 1
      have hg : G[k] = (V ++ G)[V.length + k]'(by simp [h2]) := by simp
      rw [hg, hv.nodup.idxOf_getElem, hv.nl]
  rw [iterLoop_yields _ _ _ g.bound [] hy (by
    rw [List.length_map, List.length_range]; unfold Graph.bound; omega)]
  rw [hlist, loopList_fold (f := fun acc v => do
    let gid ← g.globalID v
    let o ← g.owner v
    return (acc ++ [(o, gid)]))]
  · have key : ∀ (l acc : List _) (_ : ∀ v ∈ l, v ∈ G),
        (l.map (fun v => getVertex ((V ++ G).idxOf v))).foldlM (fun acc v => do
          let gid ← g.globalID v
          let o ← g.owner v
          return (acc ++ [(o, gid)])) acc = .ok (acc ++ l.map (fun v => ((own v : Int), v))) := by
      intro l
      induction l with
      | nil => intro acc _; simp
      | cons v l ih =>
        intro acc hl
        have hvm : v ∈ V ++ G := by simp [hl v (by simp)]
        have hnv : v ∉ V := fun h => (List.nodup_append.mp hv.nodup).2.2 v h v (hl v (by simp)) rfl
        rw [List.map_cons, List.foldlM_cons]
        rw [globalID_eq hv hvm, Outcome.bind_ok, owner_eq hv ho hvm, Outcome.bind_ok]
        have := ih (acc ++ [((own v : Int), v)]) (fun v hv => hl v (by simp [hv]))
        simp only [ownerOf, hnv, if_false, Outcome.pure_eq, Outcome.bind_ok] at this ⊢
        rw [this]
        simp
    simpa using key G [] (fun v hv => hv)
  · intro b x _
    cases g.globalID x <;> cases g.owner x <;> rfl

theorem ghostTag_range {α : Type} {n : Nat} {gr : Nat → Graph} {V G : Nat → List Gid} {own : Gid → Nat}
    (hv : ∀ p, p < n → VRep (gr p) (V p) (G p)) (ho : ∀ p, p < n → ORep (gr p) (G p) (fun v => (own v : Int)))
    (hgo : ∀ p, p < n → ∀ v ∈ G p, own v < n ∧ v ∈ V (own v))
    (cb : Graph → Handle → Outcome α) (val : Gid → α)
    (hcb : ∀ q, q < n → ∀ v ∈ V q, cb (gr q) (getVertex ((V q ++ G q).idxOf v)) = .ok (val v))
    {o1 o2 : Nat → List Nat} (ho1 : Orders n o1) (ho2 : Orders n o2) :
    createGhostTag ((List.range n).map gr) cb o1 o2 = .ok ((List.range n).map (fun p => Mem.ofList ((G p).map val))) := by
  unfold createGhostTag
  rw [mapM_range (G := fun p => (G p).map (fun v => ((own v : Int), v))) (fun p hp => ghostReq_eq (hv p hp) (ho p hp)), Outcome.bind_ok]
  rw [exchange_range (by
    intro p hp m hm
    obtain ⟨v, hv', rfl⟩ := List.mem_map.mp hm
    have := (hgo p hp v hv').1
    simp only
    omega), Outcome.bind_ok, zip_range]
  set I1 := fun q => inbox ((List.range n).map (fun p => (G p).map (fun v => ((own v : Int), v)))) (o1 q) q with hI1
  have hmem1 : ∀ q, q < n → ∀ m : Nat × Gid, m ∈ I1 q ↔ m.1 < n ∧ m.2 ∈ G m.1 ∧ own m.2 = q := by
    intro q hq m
    simp only [hI1]
    rw [mem_inbox_range ho1 hq, List.mem_map]
    constructor
    · rintro ⟨h1, v, h2, h3⟩
      rw [Prod.mk.injEq] at h3
      rw [← h3.2]
      exact ⟨h1, h2, by have := h3.1; omega⟩
    · rintro ⟨h1, h2, h3⟩
      exact ⟨h1, m.2, h2, by rw [h3]⟩
  rw [mapM_range (G := fun q => (I1 q).map (fun m => ((m.1 : Int), (m.2, val m.2)))) (by
    intro q hq
    unfold Graph.ghostReplies
    apply mapM_ok
    intro m hm
    obtain ⟨h1, h2, h3⟩ := (hmem1 q hq m).mp hm
    have hvq := (hgo m.1 h1 m.2 h2).2
    rw [h3] at hvq
    rw [lookup0_eq (hv q hq) (List.mem_append_left _ hvq), hcb q hq m.2 hvq]
    rfl), Outcome.bind_ok]
  rw [exchange_range (by
    intro q hq m hm
    obtain ⟨x, hx, rfl⟩ := List.mem_map.mp hm
    have := ((hmem1 q hq x).mp hx).1
    simp only
    omega), Outcome.bind_ok, zip_range]
  apply mapM_range
  intro p hp
  simp only
  have hmem2 : ∀ m : Nat × (Gid × α), m ∈ inbox ((List.range n).map (fun q => (I1 q).map (fun m => ((m.1 : Int), (m.2, val m.2))))) (o2 p) p ↔
      m.1 < n ∧ m.2.1 ∈ G p ∧ own m.2.1 = m.1 ∧ m.2.2 = val m.2.1 := by
    intro m
    rw [mem_inbox_range ho2 hp, List.mem_map]
    constructor
    · rintro ⟨h1, x, h2, h3⟩
      rw [Prod.mk.injEq] at h3
      obtain ⟨h4, h5, h6⟩ := (hmem1 m.1 h1 x).mp h2
      have hxp : x.1 = p := by have := h3.1; omega
      rw [← h3.2]
      exact ⟨h1, by rw [← hxp]; exact h5, h6, rfl⟩
    · rintro ⟨h1, h2, h3, h4⟩
      refine ⟨h1, (p, m.2.1), ?_, ?_⟩
      · rw [hmem1 m.1 h1]
        exact ⟨hp, h2, h3⟩
      · rw [Prod.mk.injEq]
        exact ⟨rfl, by rw [← h4]⟩
  obtain ⟨tag, et, htl, hta⟩ := ghostStore_fold (hv p hp) val _ (fun m hm => by
    obtain ⟨-, h2, -, h4⟩ := (hmem2 m).mp hm
    exact ⟨h2, h4⟩)
  rw [et]
  congr 1
  apply ofList_of_get
  · simpa using htl
  · intro j hj
    have hj' : j < (G p).length := by simpa using hj
    rw [List.getElem_map]
    apply hta j hj'
    have hvj : (G p)[j] ∈ G p := List.getElem_mem hj'
    exact ⟨(own (G p)[j], ((G p)[j], val (G p)[j])), (hmem2 _).mpr ⟨(hgo p hp _ hvj).1, hvj, rfl, rfl⟩, rfl⟩

/-! ## ghost arrays -/

theorem copyTo_eq {α : Type} (l : List α) : copyTo l.length l = .ok (Mem.ofList l) := by
  unfold copyTo
  obtain ⟨m, e, h1, h2⟩ := range_inv (fun (m : Mem α) i => do
    let x ← rd l i
    m.store i x)
    (fun k (m : Mem α) => m.length = l.length ∧ ∀ i, i < k → ∀ h : i < l.length, m[i]? = some (some l[i])) 0 l.length
    (by
      intro k m hk ⟨h1, h2⟩
      refine ⟨m.set k (some l[k]), ?_, by simpa using h1, ?_⟩
      · rw [Nat.zero_add, rd_ok hk, Outcome.bind_ok, Mem.store_ok _ (by omega)]
      · intro i hi hl
        rw [List.getElem?_set]
        by_cases hki : k = i
        · subst hki
          rw [if_pos rfl, if_pos (by omega)]
        · rw [if_neg hki]; exact h2 i (by omega) hl)
    (Mem.alloc l.length) ⟨by simp [Mem.alloc], by intro i hi; omega⟩
  rw [e]
  congr 1
  exact ofList_of_get h1 (fun i hi => h2 i hi hi)

theorem setGhosts_eq {s : MGraph} (hg : s.g.numGhost = s.ghosts.length) (ho : s.owns.length = s.ghosts.length)
    (hu : s.g.ghostUnmap = none) (how : s.g.owners = none) :
    setGhosts s = .ok { s.g with ghostUnmap := if s.ghosts = [] then none else some (Mem.ofList s.ghosts), owners := if s.ghosts = [] then none else some (Mem.ofList s.owns) } := by
  unfold setGhosts
  by_cases he : s.ghosts = []
  · rw [if_neg (by rw [hg, he]; simp), if_pos he, if_pos he]
    rcases s with ⟨⟨⟩, _, _⟩
    simp only at hu how ⊢
    subst hu how
    rfl
  · have : 0 < s.ghosts.length := List.length_pos_iff.mpr he
    rw [if_pos (by omega), if_neg he, if_neg he]
    have e2 := copyTo_eq s.owns
    rw [ho] at e2
    rw [hg, copyTo_eq, Outcome.bind_ok, e2, Outcome.bind_ok]
    rfl

/-! ## the finished graph -/

/-- the graph of part `p` -/
structure MRep (dof : Bool) (ms : List MeshPart) (own : Gid → Nat) (tot : Nat → Int) (ord : Nat → Nat → List Nat) (gv : Int)
    (T p : Nat) (g : Graph) (gh : List Gid) : Prop where
  v : VRep g (part ms p).verts gh
  o : ORep g gh (fun v => (own v : Int))
  self : g.self = (p : Int)
  hyper : g.isHyper = true
  gv : g.globalVerts = gv
  numTypes : g.numTypes = T
  weights : g.weights = Mem.ofList ((part ms p).verts.map (fun _ => 1))
  coords : g.coords = some (Mem.ofList ((ownedL (part ms p).elms).map Elm.centroid))
  types : ∀ t, t < T → g.types[t]? = some (some (meshType dof ms t (tot t) (ord t) p ((part ms p).verts ++ gh)))
  ghosts : ∀ v, v ∈ gh ↔ v ∉ (part ms p).verts ∧ ∃ t, t < T ∧ ∃ x ∈ (part ms p).entsOf t, v ∈ pinsAt ms t (ord t) p x.gid
  gw : 1 < ms.length → g.ghostWeights = some (Mem.ofList (gh.map (fun _ => 1)))

theorem mem_pinsAt {ms : List MeshPart} {t : Nat} {ord : Nat → List Nat} (ho : Orders ms.length ord) {p : Nat}
    (hp : p < ms.length) {x v : Gid} : v ∈ pinsAt ms t ord p x ↔ ∃ q, q < ms.length ∧ v ∈ pinsFrom (part ms q) t x := by
  unfold pinsAt
  rw [List.mem_append, List.mem_flatMap]
  constructor
  · rintro (h | ⟨q, hq, h⟩)
    · exact ⟨p, hp, h⟩
    · have hq' : q < ms.length := List.mem_range.mp ((ho p hp).mem_iff.mp hq)
      by_cases hqp : q = p
      · rw [if_pos hqp] at h; simp at h
      · rw [if_neg hqp] at h; exact ⟨q, hq', h⟩
  · rintro ⟨q, hq, h⟩
    by_cases hqp : q = p
    · rw [← hqp]; exact Or.inl h
    · exact Or.inr ⟨q, (ho p hp).mem_iff.mpr (List.mem_range.mpr hq), by rw [if_neg hqp]; exact h⟩

/-- after the edge types: the ghosts and their weights -/
theorem finish_spec {dof : Bool} {ms : List MeshPart} {T : Nat} {own : Gid → Nat} (h : MeshOk ms T own) {tot : Nat → Int}
    {ord : Nat → Nat → List Nat} {gv : Int} (hord : ∀ t, t < T → Orders ms.length (ord t)) {o1 o2 : Nat → List Nat}
    (ho1 : Orders ms.length o1) (ho2 : Orders ms.length o2) {S : Nat → MGraph}
    (hS : ∀ p, p < ms.length → St dof ms own tot ord gv T p (S p)) :
    ∃ F : Nat → Graph, (do
        let gs ← ((List.range ms.length).map S).mapM setGhosts
        setGhostWeights gs o1 o2) = .ok ((List.range ms.length).map F) ∧
      ∀ p, p < ms.length → ∃ gh, MRep dof ms own tot ord gv T p (F p) gh := by
  let F0 : Nat → Graph := fun p => { (S p).g with ghostUnmap := if (S p).ghosts = [] then none else some (Mem.ofList (S p).ghosts), owners := if (S p).ghosts = [] then none else some (Mem.ofList (S p).owns) }
  have e1 : ((List.range ms.length).map S).mapM setGhosts = .ok ((List.range ms.length).map F0) := by
    apply mapM_range
    intro p hp
    have hs := hS p hp
    exact setGhosts_eq (by rw [hs.base]) (by rw [hs.owns, List.length_map]) (by rw [hs.base]; rfl) (by rw [hs.base]; rfl)
  rw [e1, Outcome.bind_ok]
  have hV : ∀ p, p < ms.length → VRep (F0 p) (part ms p).verts (S p).ghosts := by
    intro p hp
    have hs := hS p hp
    refine ⟨?_, ?_, hs.nodup, ?_, ?_, ?_⟩
    · simp only [F0]; rw [hs.base]; rfl
    · simp only [F0]; rw [hs.base]
    · simp only [F0]; rw [hs.base]
    · simp only [F0]; rw [hs.base]; rfl
    · simp only [F0]
      by_cases he : (S p).ghosts = []
      · exact Or.inl ⟨he, by rw [if_pos he]⟩
      · exact Or.inr (by rw [if_neg he])
  have hO : ∀ p, p < ms.length → ORep (F0 p) (S p).ghosts (fun v => (own v : Int)) := by
    intro p hp
    have hs := hS p hp
    unfold ORep
    simp only [F0]
    by_cases he : (S p).ghosts = []
    · exact Or.inl ⟨he, by rw [if_pos he]⟩
    · exact Or.inr (by rw [if_neg he, hs.owns])
  have hW : ∀ p, p < ms.length → (F0 p).weights = Mem.ofList ((part ms p).verts.map (fun _ => 1)) := by
    intro p hp
    simp only [F0]; rw [(hS p hp).base]; rfl
  have hrep : ∀ (gw : Nat → Option (Mem Wgt)), (∀ p, p < ms.length → 1 < ms.length → gw p = some (Mem.ofList ((S p).ghosts.map (fun _ => 1)))) →
      ∀ p, p < ms.length → ∃ gh, MRep dof ms own tot ord gv T p { F0 p with ghostWeights := gw p } gh := by
    intro gw hgw p hp
    have hs := hS p hp
    have hv := hV p hp
    refine ⟨(S p).ghosts, ⟨hv.nl, hv.ng, hv.nodup, hv.map, hv.loc, hv.gho⟩, hO p hp, ?_, ?_, ?_, ?_, hW p hp, ?_, ?_, hs.ghosts, hgw p hp⟩
    · simp only [F0]; rw [hs.base]; rfl
    · simp only [F0]; rw [hs.base]; rfl
    · simp only [F0]; rw [hs.base]; rfl
    · simp only [F0]; rw [hs.base]
    · simp only [F0]; rw [hs.base]; rfl
    · intro t ht; exact hs.types t ht
  unfold setGhostWeights
  rw [List.length_map, List.length_range]
  by_cases h1 : 1 < ms.length
  · rw [if_pos h1]
    rw [ghostTag_range hV hO (fun p hp v hv => by
      obtain ⟨-, t, ht, x, hx, hvx⟩ := ((hS p hp).ghosts v).mp hv
      obtain ⟨q, hq, hq'⟩ := (mem_pinsAt (hord t ht) hp).mp hvx
      obtain ⟨h2, h3⟩ := pinsFrom_own h hq ht hq'
      rw [h3]
      exact ⟨hq, h2⟩) (fun g h => g.weight h) (fun _ => 1) (fun q hq v hv => by
      have hi : ((part ms q).verts ++ (S q).ghosts).idxOf v < (part ms q).verts.length := idxOf_lt_iff.mpr hv
      rw [weight_local (hV q hq) (hW q hq) hi (by simpa using hi)]
      simp) ho1 ho2, Outcome.bind_ok]
    refine ⟨fun p => { F0 p with ghostWeights := some (Mem.ofList ((S p).ghosts.map (fun _ => 1))) }, ?_, ?_⟩
    · rw [zip_range, List.map_map]
      rfl
    · exact hrep (fun p => some (Mem.ofList ((S p).ghosts.map (fun _ => 1)))) (fun _ _ _ => rfl)
  · rw [if_neg h1]
    refine ⟨F0, rfl, ?_⟩
    exact hrep (fun p => (F0 p).ghostWeights) (fun _ _ h => absurd h h1)

/-- the start -/
theorem start_spec (dof : Bool) {ms : List MeshPart} {T : Nat} {own : Gid → Nat} (h : MeshOk ms T own) (tot : Nat → Int)
    (ord : Nat → Nat → List Nat) {gv : Int} (hgv : gv ≠ 0) :
    ∃ S : Nat → MGraph, (ms.zipIdx).mapM (fun x => setupPrimary x.2 ms.length gv x.1) = .ok ((List.range ms.length).map S) ∧
      ∀ p, p < ms.length → St dof ms own tot ord gv 0 p (S p) := by
  have hms : ms = (List.range ms.length).map (part ms) := list_range ms ⟨[], []⟩
  refine ⟨fun p => ⟨primGraph p ms.length gv (part ms p), [], []⟩, ?_, ?_⟩
  · have : ms.zipIdx = (List.range ms.length).map (fun p => (part ms p, p)) := by
      conv => lhs; rw [hms]
      rw [zipIdx_range]
    rw [this]
    apply mapM_range
    intro p hp
    exact setupPrimary_eq p ms.length gv hgv (part ms p) (verts_nodup h hp)
  · intro p hp
    refine ⟨?_, ?_, by intro t ht; omega, by simpa using verts_nodup h hp, rfl, ?_⟩
    · simp only [primGraph, List.append_nil]
      rfl
    · rfl
    · intro v
      simp

/-- the number of vertices is not zero -/
theorem total_pos {ms : List MeshPart} {T : Nat} {own : Gid → Nat} (h : MeshOk ms T own) :
    (ms.map (fun m => (m.numOwned : Int))).sum ≠ 0 := by
  obtain ⟨m, hm, hv⟩ := h.some_vertex
  have key : ∀ l : List MeshPart, 0 ≤ (l.map (fun m => (m.numOwned : Int))).sum ∧
      (m ∈ l → 0 < (l.map (fun m => (m.numOwned : Int))).sum) := by
    intro l
    induction l with
    | nil => simp
    | cons a l ih =>
      rw [List.map_cons, List.sum_cons]
      refine ⟨by omega, fun hml => ?_⟩
      rcases List.mem_cons.mp hml with he | h'
      · rw [← he]
        have : 0 < m.numOwned := by
          have h1 : m.numOwned = m.verts.length := by simp [MeshPart.numOwned, MeshPart.verts]
          rw [h1]
          exact List.length_pos_iff.mpr hv
        omega
      · have := ih.2 h'; omega
  have := (key ms).2 hm
  omega

theorem buildMesh_spec {ms : List MeshPart} {T : Nat} {own : Gid → Nat} (h : MeshOk ms T own) {env : MeshEnv}
    (henv : env.Ok ms.length T) :
    ∃ F : Nat → Graph, buildMesh ms T env = .ok ((List.range ms.length).map F) ∧
      ∀ p, p < ms.length → ∃ gh, MRep false ms own (fun t => (ms.map (fun m => (m.ownedEnts t : Int))).sum) env.pins
        ((ms.map (fun m => (m.numOwned : Int))).sum) T p (F p) gh := by
  unfold buildMesh
  obtain ⟨S, e, hS⟩ := start_spec false h (fun t => (ms.map (fun m => (m.ownedEnts t : Int))).sum) env.pins (total_pos h)
  simp only
  rw [e, Outcome.bind_ok]
  obtain ⟨st, e2, S2, hst, hS2⟩ := Io.rangeM_inv (fun st t =>
      addType false ms t ((ms.map (fun m => (m.ownedEnts t : Int))).sum) (env.counts t) (env.pins t) st)
    (fun t st => ∃ S : Nat → MGraph, st = (List.range ms.length).map S ∧ ∀ p, p < ms.length →
      St false ms own (fun t => (ms.map (fun m => (m.ownedEnts t : Int))).sum) env.pins
        ((ms.map (fun m => (m.numOwned : Int))).sum) t p (S p)) T
    (by
      rintro t st ht ⟨S, rfl, hS⟩
      obtain ⟨S', e, hS'⟩ := addType_spec h ht (henv.counts t ht) (henv.pins t ht) hS
      exact ⟨_, e, S', rfl, hS'⟩)
    ((List.range ms.length).map S) ⟨S, rfl, hS⟩
  rw [e2, Outcome.bind_ok, hst]
  exact finish_spec h henv.pins henv.ask henv.answer hS2

end Verif.Mesh
