import Verif.Agi.GhostProps
/-!
# C12 for the array version of `constructGhosts`
-/
namespace Verif.Agi

/-- the (gid, part) arrays passed to the array version list every ghost with its owner; other entries may
only name local vertices (they are skipped) -/
def OwnArrays (ins : List Input) (own : Gid → Nat) (owns : List (List (Gid × Part))) : Prop :=
  owns.length = ins.length ∧ ∀ p (h : p < ins.length) (h' : p < owns.length),
    (∀ x ∈ owns[p], x.1 ∈ ins[p].verts ∨ (x.1 ∈ ins[p].allPins ∧ x.2 = (own x.1 : Int))) ∧
    (∀ v ∈ ins[p].allPins, v ∉ ins[p].verts → ∃ x ∈ owns[p], x.1 = v)

theorem fillOwnersA_spec {g : Graph} {verts ghosts : List Gid} (h : VRep g verts ghosts) (own : Gid → Part)
    (l : List (Gid × Part)) (h1 : ∀ x ∈ l, x.1 ∈ verts ∨ (x.1 ∈ ghosts ∧ x.2 = own x.1))
    (h2 : ∀ v ∈ ghosts, ∃ x ∈ l, x.1 = v) :
    ∃ g', g.fillOwnersA l = .ok g' ∧ ORep g' ghosts own ∧ g' = { g with owners := g'.owners } := by
  unfold Graph.fillOwnersA
  obtain ⟨g', e, hg, ho⟩ := foldlM_inv (fun g (p : Gid × Part) => g.setGhostOwner p.1 p.2)
    (fun pre g' => g' = { g with owners := g'.owners } ∧
      ((ghosts = [] ∧ g'.owners = none) ∨ ∃ m : Mem Part, g'.owners = some m ∧ m.length = ghosts.length ∧
        ∀ j (hj : j < ghosts.length), (∃ x ∈ pre, x.1 = ghosts[j]) → m[j]? = some (some (own ghosts[j])))) l
    (by
      intro pre x s hpre ⟨hs, ho⟩
      have hx := h1 x (hpre.subset (by simp))
      have hnl : s.numLocal = verts.length := by rw [hs]; exact h.nl
      have hmap : s.vtxMap = lookup (verts ++ ghosts) := by rw [hs]; exact h.map
      have hkn : x.1 ∈ verts ++ ghosts := by rw [List.mem_append]; tauto
      unfold Graph.setGhostOwner
      rw [hmap, lookup_of_mem hkn]
      simp only
      rw [hnl]
      by_cases hloc : x.1 ∈ verts
      · rw [if_pos (idxOf_lt_iff.mpr hloc)]
        refine ⟨s, rfl, hs, ?_⟩
        rcases ho with ho | ⟨m, hm, hml, hma⟩
        · exact .inl ho
        · refine .inr ⟨m, hm, hml, fun j hj hex => hma j hj ?_⟩
          obtain ⟨y, hy, e⟩ := hex
          rcases List.mem_append.mp hy with hy | hy
          · exact ⟨y, hy, e⟩
          · rw [List.mem_singleton] at hy; subst hy
            exfalso
            exact (List.nodup_append.mp h.nodup).2.2 _ hloc _ (by rw [e]; exact List.getElem_mem hj) rfl
      · rw [if_neg (fun hc => hloc (idxOf_lt_iff.mp hc))]
        have hgm : x.1 ∈ ghosts ∧ x.2 = own x.1 := by tauto
        rw [List.idxOf_append_of_notMem hloc, Nat.add_sub_cancel_left]
        have hlt := List.idxOf_lt_length_of_mem hgm.1
        rcases ho with ⟨ho, -⟩ | ⟨m, hm, hml, hma⟩
        · rw [ho] at hgm; simp at hgm
        · rw [hm]
          simp only [deref, Outcome.ofOption_some, Outcome.bind_ok]
          rw [Mem.store_ok _ (by omega), Outcome.bind_ok]
          refine ⟨_, rfl, by rw [← hnl, ← hmap, hs], .inr ⟨_, rfl, by simpa using hml, ?_⟩⟩
          intro j hj hex
          rw [List.getElem?_set]
          by_cases he : ghosts.idxOf x.1 = j
          · subst he
            rw [if_pos rfl, if_pos (by omega), List.getElem_idxOf, hgm.2]
          · rw [if_neg he]
            apply hma j hj
            obtain ⟨y, hy, e⟩ := hex
            rcases List.mem_append.mp hy with hy | hy
            · exact ⟨y, hy, e⟩
            · rw [List.mem_singleton] at hy; subst hy
              exfalso; apply he
              rw [e]; exact (List.nodup_append.mp h.nodup).2.1.idxOf_getElem _ _)
    { g with owners := if 0 < g.numGhost then some (Mem.alloc g.numGhost) else none }
    ⟨rfl, by
      rw [h.ng]
      by_cases hz : 0 < ghosts.length
      · right
        rw [if_pos hz]
        exact ⟨_, rfl, by simp, by simp⟩
      · left
        rw [if_neg hz]
        exact ⟨List.length_eq_zero_iff.mp (by omega), rfl⟩⟩
  refine ⟨g', e, ?_, hg⟩
  rcases ho with ho | ⟨m, hm, hml, hma⟩
  · exact .inl ho
  · right
    rw [hm]
    congr 1
    apply ofList_of_get
    · simpa using hml
    · intro j hj
      have hj' : j < ghosts.length := by simpa using hj
      rw [List.getElem_map]
      obtain ⟨x, hx, e⟩ := h2 ghosts[j] (List.getElem_mem hj')
      exact hma j hj' ⟨x, hx, e⟩

theorem fillOwnersArrays_spec {gs : List Graph} {ins : List Input} {own : Gid → Nat}
    {owns : List (List (Gid × Part))}
    (hb : Built gs ins) (hwf : ∀ i ∈ ins, i.WF) (ho : OwnArrays ins own owns) :
    ∃ gs', (gs.zip owns).mapM (fun p => p.1.fillOwnersA p.2) = .ok gs' ∧ World gs' ins own ∧
      ∀ p (h : p < gs'.length) (h' : p < gs.length), gs'[p] = { gs[p] with owners := gs'[p].owners } := by
  obtain ⟨hl, hr⟩ := hb
  obtain ⟨hol, hov⟩ := ho
  have hz : (gs.zip owns).length = gs.length := by simp; omega
  obtain ⟨gs', e, hl', hr'⟩ := mapM_idx (f := fun p : Graph × List (Gid × Part) => p.1.fillOwnersA p.2)
    (fun p g => (∀ (h' : p < ins.length), ∃ ghosts, PartRep g p ins.length ins[p] own ghosts) ∧
      ∀ (h' : p < gs.length), g = { gs[p] with owners := g.owners })
    (gs.zip owns)
    (by
      intro k hk
      rw [hz] at hk
      simp only [List.getElem_zip]
      obtain ⟨ghosts, hg⟩ := hr k hk (by omega)
      have hmem : ∀ v, v ∈ ghosts ↔ v ∈ ins[k].allPins ∧ v ∉ ins[k].verts := by
        intro v
        have h1 : v ∈ ins[k].verts ++ ghosts ↔ v ∈ ins[k].verts ∨ v ∈ ins[k].allPins := by
          rw [hg.ghosts_eq, mem_extend]
        rw [List.mem_append] at h1
        have h3 : v ∈ ghosts → v ∉ ins[k].verts := fun hgm hv =>
          (List.nodup_append.mp hg.vrep.nodup).2.2 v hv v hgm rfl
        tauto
      obtain ⟨o1, o2⟩ := hov k (by omega) (by omega)
      obtain ⟨g', e, ho, hg'⟩ := fillOwnersA_spec hg.vrep (fun v => (own v : Int)) (owns[k]'(by omega))
        (by
          intro x hx
          by_cases hloc : x.1 ∈ ins[k].verts
          · exact .inl hloc
          · right
            rcases o1 x hx with h | h
            · exact absurd h hloc
            · exact ⟨(hmem _).mpr ⟨h.1, hloc⟩, h.2⟩)
        (fun v hv => o2 v ((hmem v).mp hv).1 ((hmem v).mp hv).2)
      refine ⟨g', e, fun h' => ⟨ghosts, ?_⟩, fun _ => hg'⟩
      refine ⟨(hg.core (hwf _ (List.getElem_mem h'))).of_eq hg', ?_, ?_, ho, ?_, hg.ghosts_eq⟩
      · rw [hg']; exact hg.rank
      · rw [hg']; exact hg.peers
      · rw [hg']; exact hg.weights)
  exact ⟨gs', e, ⟨by omega, fun p h h' => (hr' p h).1 h'⟩, fun p h h' => (hr' p h).2 h'⟩

/-- **C12**, array version: owners and global counts are the same as with the map version.  (This version
does not create the ghost weights.) -/
theorem c12_ghosts_array (H : List (List HEdge)) (ins : List Input) (own : Gid → Nat) (h : HDist H ins own)
    (owns : List (List (Gid × Part))) (ho : OwnArrays ins own owns) :
    ∃ gs gs', buildAll ins = .ok gs ∧ constructGhostsA gs owns = .ok gs' ∧
      gs'.length = ins.length ∧ ∀ p (hp : p < ins.length) (hg : p < gs'.length),
      (∀ v, v ∈ ins[p].verts ∨ v ∈ ins[p].allPins → ∃ hv, gs'[p].findGID v = .ok hv ∧
        gs'[p].owner hv = .ok (own v : Int)) ∧
      (∀ t (ht : t < H.length), gs'[p].numGlobalEdges t = .ok (H[t].length : Int) ∧
        gs'[p].numGlobalPins t = .ok (((H[t].map (fun e => e.pins.length)).sum : Nat) : Int)) ∧
      gs'[p].globalVerts = (ins.map (fun i => (i.verts.length : Int))).sum := by
  obtain ⟨gs, e, hb⟩ := buildAll_spec ins h.wf
  obtain ⟨g1, e1, w1, r1⟩ := fillOwnersArrays_spec hb h.wf ho
  obtain ⟨g2, e2, w2, l2, r2⟩ := countTypes_spec w1 (hdist_uniform h) h.verts
  have hl1 := w1.1
  have hl0 := hb.1
  refine ⟨gs, g2, e, by unfold constructGhostsA; rw [e1, Outcome.bind_ok, e2], by omega, fun p hp hg => ?_⟩
  obtain ⟨b1, b2⟩ := r2 p (by omega) (by omega)
  have c1 := r1 p (by omega) (by omega)
  obtain ⟨ghosts, hrep⟩ := w2.2 p hg hp
  refine ⟨?_, ?_, ?_⟩
  · intro v hv
    have hmem : v ∈ ins[p].verts ++ ghosts := by rw [hrep.ghosts_eq, mem_extend]; exact hv
    refine ⟨_, findGID_eq hrep.core.v hmem, ?_⟩
    rw [owner_eq hrep.core.v hrep.owners hmem]
    unfold ownerOf
    split
    · rename_i hm; rw [hrep.rank, h.verts p hp v hm]
    · rfl
  · intro t ht
    obtain ⟨a, b⟩ := b1 t ht
    rw [a, b, if_pos rfl, hdist_edgeTotal h ht, hdist_pinTotal h ht]
    exact ⟨rfl, rfl⟩
  · rw [b2, c1]
    obtain ⟨gh, hgr⟩ := hb.2 p (by omega) hp
    exact hgr.total

example : OwnArrays sampleWorld sampleOwn [[(2, 1)], [(2, 7), (1, 0)]] := by
  refine ⟨rfl, ?_⟩
  intro p hp h'
  have h1 : p = 0 ∨ p = 1 := by simp [sampleWorld] at hp; omega
  rcases h1 with rfl | rfl
  · decide +revert
  · decide +revert

end Verif.Agi
