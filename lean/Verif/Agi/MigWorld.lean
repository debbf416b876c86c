import Verif.Agi.MigRebuild
/-!
# One migration of a distributed hypergraph with one edge type: all parts together
-/
namespace Verif.Agi

/-- an execution environment for one migration: every buffer is delivered once per phase, in any order;
with coordinates, the coordinate phase delivers in the order of the vertex phase; the edge sets are
traversed in any order -/
structure EnvOk (n : Nat) (hasCoords : Bool) (env : MigrateEnv) : Prop where
  upd : Orders n env.upd
  verts : Orders n env.verts
  coords : hasCoords = true → ∀ q, q < n → env.coords q = env.verts q
  edges : ∀ t, Orders n (env.edges t)
  tag1 : Orders n env.tag1
  tag2 : Orders n env.tag2
  shuffle : ∀ p t l, (env.shuffle p t l).Perm l

theorem foldl_max {α : Type} (f : α → Nat) : ∀ (l : List α) (m : Nat),
    m ≤ l.foldl (fun m g => max m (f g)) m ∧ (∀ g ∈ l, f g ≤ l.foldl (fun m g => max m (f g)) m) ∧
    ∀ k, m ≤ k → (∀ g ∈ l, f g ≤ k) → l.foldl (fun m g => max m (f g)) m ≤ k := by
  intro l
  induction l with
  | nil => intro m; simp
  | cons a l ih =>
    intro m
    obtain ⟨h1, h2, h3⟩ := ih (max m (f a))
    rw [List.foldl_cons]
    refine ⟨by omega, ?_, ?_⟩
    · intro g hg
      rcases List.mem_cons.mp hg with rfl | hg
      · omega
      · exact h2 g hg
    · intro k hk hl
      exact h3 k (by have := hl a (by simp); omega) (fun g hg => hl g (by simp [hg]))

section
variable {n : Nat} {G : GG} {own own' : Gid → Nat}

/-- the hypergraph is distributed as the new inputs -/
theorem new_hdist (hG : G.WF n own') {W : Nat → List Gid} {es : Nat → List HEdge}
    (hW : ∀ p, p < n → (W p).Nodup ∧ ∀ v, v ∈ W p ↔ v ∈ G.verts ∧ own' v = p)
    (hes : ∀ p, p < n → (es p).Perm (G.on own' p)) :
    HDist [G.edges] ((List.range n).map (fun p => newInput G (W p) (es p))) own' := by
  refine ⟨?_, ?_, ?_, ?_, ?_, ?_, ?_⟩
  · intro i hi
    obtain ⟨p, hp, rfl⟩ := List.mem_map.mp hi
    exact newInput_wf (hW p (List.mem_range.mp hp)).1
  · intro i hi
    obtain ⟨p, hp, rfl⟩ := List.mem_map.mp hi
    rfl
  · intro p hp v hv
    simp only [List.length_map, List.length_range] at hp
    simp only [List.getElem_map, List.getElem_range] at hv
    exact (((hW p hp).2 v).mp hv).2
  · intro e he E hE v hv
    simp only [List.mem_cons, List.not_mem_nil, or_false] at he
    subst he
    have hvV := hG.pins E hE v hv
    have hlt := hG.own v hvV
    refine ⟨by simpa using hlt, ?_⟩
    simp only [List.getElem_map, List.getElem_range]
    exact ((hW _ hlt).2 v).mpr ⟨hvV, rfl⟩
  · intro e he E hE
    simp only [List.mem_cons, List.not_mem_nil, or_false] at he
    subst he
    exact hG.ne E hE
  · intro p hp
    simp [newInput]
  · intro p hp t ht ht'
    simp only [List.length_cons, List.length_nil] at ht'
    have h0 : t = 0 := by omega
    subst h0
    simp only [List.length_map, List.length_range] at hp
    simp only [List.getElem_map, List.getElem_range, newInput, List.getElem_cons_zero, ofHEdges_edges]
    exact hes p hp

theorem new_total {W : Nat → List Gid} (hV : G.verts.Nodup) (hown : ∀ v ∈ G.verts, own' v < n)
    (hW : ∀ p, p < n → (W p).Nodup ∧ ∀ v, v ∈ W p ↔ v ∈ G.verts ∧ own' v = p) :
    ((List.range n).map (fun p => ((W p).length : Int))).sum = (G.verts.length : Int) := by
  have := sum_partition n (fun p v => decide (own' v = p)) (fun _ => (1 : Int)) G.verts (by
    intro v hv
    exact ⟨own' v, hown v hv, fun p hp => by rw [decide_eq_true_iff]; exact eq_comm⟩)
  rw [show ((G.verts.map (fun _ => (1 : Int))).sum = (G.verts.length : Int)) by simp] at this
  rw [← this]
  congr 1
  apply List.map_congr_left
  intro p hp
  have hp' := List.mem_range.mp hp
  have hperm : (W p).Perm (G.verts.filter (fun v => decide (own' v = p))) := by
    refine (List.perm_ext_iff_of_nodup (hW p hp').1 (hV.filter _)).mpr (fun v => ?_)
    rw [(hW p hp').2, List.mem_filter, decide_eq_true_iff]
  rw [hperm.length_eq]; simp

theorem setOO_spec {g : Graph} (h : g.originalOwners = none) {l : List Part} (hl : g.numLocal = l.length) :
    g.setOriginalOwnersV l = .ok { g with originalOwners := some (Mem.ofList l) } := by
  unfold Graph.setOriginalOwnersV
  simp only [h]
  rw [storeAll l g.numLocal hl.symm]; rfl

theorem PartRep.of_orig {g : Graph} {me n : Nat} {i : Input} {own : Gid → Nat} {ghosts : List Gid}
    (h : PartRep g me n i own ghosts) (m : Option (Mem Part)) :
    PartRep { g with originalOwners := m } me n i own ghosts :=
  ⟨⟨⟨h.core.v.nl, h.core.v.ng, h.core.v.nodup, h.core.v.map, h.core.v.loc, h.core.v.gho⟩,
    h.core.hyp, h.core.numTypes, h.core.typ, h.core.pins, h.core.wf⟩, h.rank, h.peers, h.owners,
    h.weights, h.ghosts_eq⟩

/-- what a part stores after a migration, and the counts it reports -/
structure PartDone (G : GG) (own : Gid → Nat) (n p : Nat) (g : Graph) (i : Input) (ghosts : List Gid) : Prop where
  inv : PartInv G own n p g i ghosts
  one : i.types.length = 1
  hyper : i.hyper = true
  total : g.globalVerts = (G.verts.length : Int)
  edges : g.numGlobalEdges 0 = .ok (G.edges.length : Int)
  pins : g.numGlobalPins 0 = .ok (((G.edges.map (fun e => e.pins.length)).sum : Nat) : Int)
  ghostW : 1 < n → g.ghostWeights = some (Mem.ofList (ghosts.map G.wt))
  origSet : g.originalOwners.isSome = true

/-- from the collected vertices and edges to the new graphs -/
theorem phase_final (hG : G.WF n own') {W : Nat → List Gid} {es : Nat → List HEdge} {gm : Nat → GMap Part}
    {gr : Nat → Graph} (hself : ∀ p, p < n → (gr p).self = (p : Int)) (hpeers : ∀ p, p < n → (gr p).peers = n)
    (hW : ∀ p, p < n → (W p).Nodup ∧ ∀ v, v ∈ W p ↔ v ∈ G.verts ∧ own' v = p)
    (hes : ∀ p, p < n → GOk p (fun v => (own' v : Int)) (es p) (gm p) ∧ (es p).Perm (G.on own' p))
    {o1 o2 : Nat → List Nat} (ho1 : Orders n o1) (ho2 : Orders n o2) :
    ∃ (g1 g2 g3 : Nat → Graph) (GH : Nat → List Gid),
      ((List.range n).map (fun p => ((gr p, (W p).map (newRec G)),
          (([EAcc.ofEdges (es p) (gm p)], gm p), G.co.map (fun c => (W p).map c))))).mapM
        (fun x => x.1.1.rebuild true x.1.2 x.2.1.1 x.2.2
          (((List.range n).map (fun p => (W p).map (newRec G))).map (fun v => (v.length : Int))).sum) =
        .ok ((List.range n).map g1) ∧
      constructGhosts ((List.range n).map g1) ((List.range n).map gm) o1 o2 = .ok ((List.range n).map g2) ∧
      ((List.range n).map (fun p => (g2 p, (W p).map (newRec G)))).mapM
        (fun x => x.1.setOriginalOwnersV (x.2.map VRec.oo)) = .ok ((List.range n).map g3) ∧
      ∀ p, p < n → PartDone G own' n p (g3 p) (newInput G (W p) (es p)) (GH p) := by
  have htot : (((List.range n).map (fun p => (W p).map (newRec G))).map (fun v => (v.length : Int))).sum =
      (G.verts.length : Int) := by
    rw [List.map_map, ← new_total hG.nodup hG.own hW]
    congr 1
    apply List.map_congr_left
    intro p _
    simp
  rw [htot]
  have h1 : ∀ p, p < n → ∃ g', (∃ ghosts, GRep g' (p : Int) n (G.verts.length : Int) (newInput G (W p) (es p)) ghosts) ∧
      (gr p).rebuild true ((W p).map (newRec G)) [EAcc.ofEdges (es p) (gm p)] (G.co.map (fun c => (W p).map c))
        (G.verts.length : Int) = .ok g' ∧ g'.coords = G.co.map (fun c => Mem.ofList ((W p).map c)) := by
    intro p hp
    obtain ⟨g', gh, a, b, c⟩ := rebuild_spec (hself p hp) (hpeers p hp) G (hW p hp).1 (es p) (gm p) G.co
      (G.verts.length : Int)
    exact ⟨g', ⟨gh, b⟩, a, c⟩
  obtain ⟨g1, hg1⟩ := choose_part h1
  set ins := (List.range n).map (fun p => newInput G (W p) (es p)) with hins
  have hil : ins.length = n := by simp [hins]
  have hsum : (ins.map (fun i => (i.verts.length : Int))).sum = (G.verts.length : Int) := by
    rw [hins, List.map_map, ← new_total hG.nodup hG.own hW]; rfl
  have hbuilt : Built ((List.range n).map g1) ins := by
    refine ⟨by simp [hil], fun p h h' => ?_⟩
    have hp : p < n := by simpa using h
    obtain ⟨gh, hgr⟩ := (hg1 p hp).1
    refine ⟨gh, ?_⟩
    rw [hsum, hil]
    simp only [List.getElem_map, List.getElem_range, hins]
    exact hgr
  have hhd : HDist [G.edges] ins own' := new_hdist hG hW (fun p hp => (hes p hp).2)
  have hown : OwnMaps ins own' ((List.range n).map gm) := by
    refine ⟨by simp [hil], fun p h h' v hv hnv => ?_⟩
    have hp : p < n := by simpa using h'
    simp only [List.getElem_map, List.getElem_range, hins] at hv hnv ⊢
    unfold newInput at hv hnv
    rw [allPins_one, edges_getElem_pins (hyper := true) ⟨by simp, .inr (by simp), by simp⟩, ofHEdges_edges] at hv
    obtain ⟨E, hE, hvE⟩ := hv
    refine (hes p hp).1 E hE v hvE ?_
    intro hc
    apply hnv
    have hEG := (GG.mem_on.mp ((hes p hp).2.mem_iff.mp hE)).1
    exact ((hW p hp).2 v).mpr ⟨hG.pins E hEG v hvE, by simp only at hc; omega⟩
  obtain ⟨gs2, e2, hw2, hr2⟩ := constructGhosts_spec (o1 := o1) (o2 := o2) hbuilt hhd.dist (hdist_uniform hhd) hown
    (by rw [hil]; exact ho1) (by rw [hil]; exact ho2)
  have hl2 : gs2.length = n := by rw [hw2.1, hil]
  have hgs2 : gs2 = (List.range n).map (fun p => gs2.getD p default) := by
    have := list_range gs2 default
    rw [hl2] at this; exact this
  have hget : ∀ p (h : p < gs2.length), gs2.getD p default = gs2[p] := by
    intro p h; rw [List.getD_eq_getElem?_getD, List.getElem?_eq_getElem h]; rfl
  have h3 : ∀ p, p < n → ∃ gh, PartDone G own' n p
      { gs2.getD p default with originalOwners := some (Mem.ofList ((W p).map G.oo)) } (newInput G (W p) (es p)) gh ∧
      (gs2.getD p default).originalOwners = none ∧ (gs2.getD p default).numLocal = (W p).length := by
    intro p hp
    have hp2 : p < gs2.length := by omega
    have hpi : p < ins.length := by omega
    obtain ⟨r1, r2, r3, r4, r5⟩ := hr2 p hp2 (by simpa using hp) hpi
    have hinp : ins[p] = newInput G (W p) (es p) := by simp [hins]
    have hex : ∃ gh, PartRep gs2[p] p n (newInput G (W p) (es p)) own' gh ∧
        (1 < n → gs2[p].ghostWeights = some (Mem.ofList (gh.map G.wt))) := by
      by_cases hn : 1 < n
      · obtain ⟨gh, a, b⟩ := r5 (by omega)
        rw [hinp, hil] at a
        refine ⟨gh, a, fun _ => ?_⟩
        rw [b]
        congr 2
        apply List.map_congr_left
        intro v hv
        have hvp := ((a.mem_ghosts v).mp hv).1
        unfold newInput at hvp
        rw [allPins_one, edges_getElem_pins (hyper := true) ⟨by simp, .inr (by simp), by simp⟩, ofHEdges_edges] at hvp
        obtain ⟨E, hE, hvE⟩ := hvp
        have hEG := (GG.mem_on.mp ((hes p hp).2.mem_iff.mp hE)).1
        have hvV := hG.pins E hEG v hvE
        have hq := hG.own v hvV
        have hvW := ((hW _ hq).2 v).mpr ⟨hvV, rfl⟩
        unfold weightOf
        have hi : ins[own' v]? = some (newInput G (W (own' v)) (es (own' v))) := by
          rw [List.getElem?_eq_getElem (by omega)]; simp [hins]
        simp only [hi]
        unfold newInput
        simp only
        rw [vertWeights_map, List.getD_eq_getElem?_getD, List.getElem?_map,
          List.getElem?_eq_getElem (List.idxOf_lt_length_of_mem hvW), List.getElem_idxOf]
        rfl
      · obtain ⟨gh, a⟩ := hw2.2 p hp2 hpi
        rw [hinp, hil] at a
        exact ⟨gh, a, fun h => absurd h hn⟩
    obtain ⟨gh, hrep, hgw⟩ := hex
    rw [hget p hp2]
    obtain ⟨gh1, hgr1⟩ := (hg1 p hp).1
    have hoo : gs2[p].originalOwners = none := by
      rw [r4]; simp only [List.getElem_map, List.getElem_range]; exact hgr1.orig
    have hco : gs2[p].coords = G.co.map (fun c => Mem.ofList ((W p).map c)) := by
      rw [r3]; simp only [List.getElem_map, List.getElem_range]; exact (hg1 p hp).2.2
    refine ⟨gh, ⟨⟨hrep.of_orig _, ?_, ?_, ?_, .inr rfl, ?_, ?_⟩, rfl, rfl, ?_, ?_, ?_, ?_, rfl⟩, hoo, hrep.core.v.nl⟩
    · exact (hW p hp).2
    · exact vertWeights_map _ _
    · left
      refine ⟨rfl, _, rfl, ?_⟩
      rw [ofHEdges_edges]; exact (hes p hp).2
    · intro hc; simp only [hco, hc]; rfl
    · intro c hc; right; simp only [hco, hc]; rfl
    · simp only
      rw [r2]; simp only [List.getElem_map, List.getElem_range]; exact hgr1.total
    · have := (r1 0 (by simp)).1
      rw [hdist_edgeTotal hhd (by simp)] at this
      exact this
    · have := (r1 0 (by simp)).2
      rw [if_pos rfl, hdist_pinTotal hhd (by simp)] at this
      exact this
    · exact hgw
  have hne : ∃ GH : Nat → List Gid, ∀ p, p < n → PartDone G own' n p
      { gs2.getD p default with originalOwners := some (Mem.ofList ((W p).map G.oo)) } (newInput G (W p) (es p)) (GH p) ∧
      (gs2.getD p default).originalOwners = none ∧ (gs2.getD p default).numLocal = (W p).length := choose_part h3
  obtain ⟨GH, hGH⟩ := hne
  refine ⟨g1, fun p => gs2.getD p default,
    fun p => { gs2.getD p default with originalOwners := some (Mem.ofList ((W p).map G.oo)) }, GH, ?_, ?_, ?_,
    fun p hp => (hGH p hp).1⟩
  · exact mapM_range (fun p hp => (hg1 p hp).2.1)
  · rw [e2]; congr 1
  · apply mapM_range
    intro p hp
    obtain ⟨-, a, b⟩ := hGH p hp
    have : ((W p).map (newRec G)).map VRec.oo = (W p).map G.oo := by rw [List.map_map]; rfl
    simp only
    rw [this]
    exact setOO_spec a (by rw [b, List.length_map])

end
end Verif.Agi
