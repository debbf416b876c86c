import Verif.Agi.MigWitness
/-!
# Property C21, continued: `resetOwnership`
-/
namespace Verif.Agi

theorem reset_done {G : GG} {own : Gid → Nat} {n p : Nat} {g : Graph} {i : Input} {gh : List Gid}
    (h : PartDone G own n p g i gh) :
    PartDone { G with oo := fun v => (own v : Int) } own n p g.resetOwnership i gh := by
  have hr := h.inv.rep
  have hc := hr.core
  have e : g.resetOwnership = ({ g with originalOwners := some (Mem.ofList (List.replicate g.numLocal g.self)) } : Graph) := rfl
  have hrep : PartRep g.resetOwnership p n i own gh := by
    rw [e]
    exact ⟨⟨⟨hc.v.nl, hc.v.ng, hc.v.nodup, hc.v.map, hc.v.loc, hc.v.gho⟩, hc.hyp, hc.numTypes, hc.typ, hc.pins, hc.wf⟩,
      hr.rank, hr.peers, hr.owners, hr.weights, hr.ghosts_eq⟩
  refine ⟨⟨hrep, h.inv.verts, h.inv.wts, ?_, ?_, ?_, ?_⟩, h.one, h.hyper, ?_, ?_, ?_, ?_, ?_⟩
  · exact h.inv.shape
  · right
    rw [e]
    simp only
    congr 2
    rw [hc.v.nl, hr.rank]
    apply List.ext_getElem
    · simp
    · intro k h1 h2
      simp only [List.length_replicate] at h1
      simp only [List.getElem_replicate, List.getElem_map]
      have := ((h.inv.verts i.verts[k]).mp (List.getElem_mem h1)).2
      rw [this]
  · intro hco; rw [e]; exact h.inv.cnone hco
  · intro c hco; rw [e]; exact h.inv.csome c hco
  · rw [e]; exact h.total
  · rw [e]; exact h.edges
  · rw [e]; exact h.pins
  · intro hn; rw [e]; exact h.ghostW hn
  · rfl

theorem getPartition_done {G : GG} {cur orig : Gid → Nat} {n : Nat} {gr : Nat → Graph} {I : Nat → Input}
    {GH : Nat → List Gid} (hG : G.WF n cur) (hd : ∀ p, p < n → PartDone G cur n p (gr p) (I p) (GH p))
    (hoo : ∀ v, G.oo v = (orig v : Int)) (hog : ∀ v ∈ G.verts, orig v < n) {ord : Nat → List Nat} (ho : Orders n ord) :
    ∃ maps, getPartition ((List.range n).map gr) ord = .ok maps ∧ maps.length = n ∧
      ∀ q (hq : q < maps.length) v,
        (v ∈ G.verts ∧ orig v = q → maps[q] v = some (cur v)) ∧ (¬ (v ∈ G.verts ∧ orig v = q) → maps[q] v = none) := by
  refine ⟨(List.range n).map (fun q => (inbox ((List.range n).map (fun p =>
    (I p).verts.map (fun v => (G.oo v, v)))) (ord q) q).foldl
      (fun m (x : Nat × Gid) => m.insertNew x.2 x.1) GMap.empty), ?_, by simp, ?_⟩
  · unfold getPartition
    rw [mapM_range (fun p hp => (hd p hp).msgs), Outcome.bind_ok, exchange_range (by
      intro p hp m hm
      obtain ⟨v, hv, rfl⟩ := List.mem_map.mp hm
      have := hog v (((hd p hp).inv.verts v).mp hv).1
      simp only [hoo]
      omega), Outcome.bind_ok, List.map_map]
    rfl
  · intro q hq v
    have hq' : q < n := by simpa using hq
    simp only [List.getElem_map, List.getElem_range]
    have hin : ∀ x, x ∈ inbox ((List.range n).map (fun p =>
        (I p).verts.map (fun v => (G.oo v, v)))) (ord q) q ↔
        x.1 < n ∧ (x.2 ∈ G.verts ∧ cur x.2 = x.1) ∧ orig x.2 = q := by
      intro x
      rw [mem_inbox_range ho hq']
      constructor
      · rintro ⟨h1, h2⟩
        obtain ⟨w, hw, he⟩ := List.mem_map.mp h2
        simp only [hoo, Prod.mk.injEq] at he
        obtain ⟨he1, rfl⟩ := he
        exact ⟨h1, ((hd _ h1).inv.verts _).mp hw, by omega⟩
      · rintro ⟨h1, h2, h3⟩
        refine ⟨h1, List.mem_map.mpr ⟨x.2, ((hd _ h1).inv.verts _).mpr h2, ?_⟩⟩
        simp only [hoo, Prod.mk.injEq, and_true]
        omega
    have hf := foldl_insertNew cur (inbox ((List.range n).map (fun p =>
        (I p).verts.map (fun v => (G.oo v, v)))) (ord q) q) GMap.empty
        (by intro x hx; exact ((hin x).mp hx).2.1.2.symm) (by intro k a hk; simp [GMap.empty] at hk) v
    rw [hf]
    constructor
    · intro hv'
      rw [if_pos]
      right
      exact List.mem_map.mpr ⟨(cur v, v), (hin _).mpr ⟨hG.own v hv'.1, ⟨hv'.1, rfl⟩, hv'.2⟩, rfl⟩
    · intro hv
      rw [if_neg]
      rintro (h1 | h1)
      · simp [GMap.empty] at h1
      · obtain ⟨x, hx, rfl⟩ := List.mem_map.mp h1
        obtain ⟨-, h2, h3⟩ := (hin x).mp hx
        exact hv ⟨h2.1, h3⟩

/-- **C21 (one edge type)**, with a reset: after any migrations `rs1`, `resetOwnership` on all parts, and any further
migrations `rs2`, `getPartition` gives part `q` a map whose keys are exactly the vertices that lived on `q` at the
time of the reset, and whose values are the parts where they live now; and the vertices report that part as their
original owner. -/
theorem c21_reset_partial {es : List HEdge} {ins : List Input} {own : Gid → Nat} {owns : List (GMap Part)}
    {o1 o2 : Nat → List Nat} (h : Start es ins own owns o1 o2) (co : Option (Gid → Coord)) (rs1 rs2 : List Round)
    (hr1 : RoundsOk (allVerts ins) ins.length co.isSome own rs1)
    (hr2 : RoundsOk (allVerts ins) ins.length co.isSome (placeAll own rs1) rs2)
    {ord : Nat → List Nat} (ho : Orders ins.length ord) :
    ∃ gs0 gs1 gs2 maps, setupAll ins co owns o1 o2 = .ok gs0 ∧ migrateRounds gs0 rs1 = .ok gs1 ∧
      migrateRounds (gs1.map Graph.resetOwnership) rs2 = .ok gs2 ∧
      getPartition gs2 ord = .ok maps ∧ maps.length = ins.length ∧
      (∀ q (hq : q < maps.length) v,
        (v ∈ allVerts ins ∧ placeAll own rs1 v = q → maps[q] v = some (placeAll (placeAll own rs1) rs2 v)) ∧
        (¬ (v ∈ allVerts ins ∧ placeAll own rs1 v = q) → maps[q] v = none)) ∧
      ∀ v ∈ allVerts ins, ∃ g, gs2[placeAll (placeAll own rs1) rs2 v]? = some g ∧
        g.origG v = .ok ((placeAll own rs1 v : Nat) : Int) := by
  obtain ⟨hG, gs0, gs, e0, e, gr, I, GH, rfl, hd⟩ := run_spec h co rs1 hr1
  have hG' : ({ startG es ins own co with oo := fun v => (placeAll own rs1 v : Int) } : GG).WF ins.length (placeAll own rs1) :=
    ⟨hG.some_vertex, hG.nodup, hG.ids, hG.ne, hG.pins, hG.own⟩
  obtain ⟨hG2, gr', I', GH', e2, hd2⟩ := migrateRounds_spec rs2 hG' (fun p hp => reset_done (hd p hp)) hr2
  obtain ⟨maps, e3, h3, h4⟩ := getPartition_done (orig := placeAll own rs1) hG2 hd2 (fun v => rfl) (fun v hv => hG.own v hv) ho
  refine ⟨gs0, _, _, maps, e0, e, ?_, e3, h3, h4, ?_⟩
  · rw [List.map_map]; exact e2
  · intro v hv
    have hp := hG2.own v hv
    have hv' := ((hd2 _ hp).inv.verts v).mpr ⟨hv, rfl⟩
    refine ⟨gr' (placeAll (placeAll own rs1) rs2 v), by simp [hp], ?_⟩
    unfold Graph.origG
    rw [findGID_eq (hd2 _ hp).inv.rep.core.v (by simp [hv']), Outcome.bind_ok]
    exact (hd2 _ hp).orig hv'


/-- the sample rounds bring vertices 1 and 2 to part 1 and 3 to part 0; without the reset `getPartition` tells part 1
where 2 and 3 went, after the reset it tells each part about its present vertices -/
example : (do
    let gs ← setupAll sampleWorld none [fun v => some (sampleOwn v : Int), fun v => some (sampleOwn v : Int)] twoOrder twoOrder
    let gs ← migrateRounds gs sampleRounds
    let a ← getPartition gs twoOrder
    let b ← getPartition (gs.map Graph.resetOwnership) twoOrder
    return (a.map (fun m => [m 1, m 2, m 3]), b.map (fun m => [m 1, m 2, m 3])) : Outcome _) =
    .ok ([[some 1, none, none], [none, some 1, some 0]], [[none, none, some 0], [some 1, some 1, none]]) := by
  decide +kernel

end Verif.Agi
