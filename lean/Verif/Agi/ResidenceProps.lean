import Verif.Agi.Residence
/-!
# Property C10: residence and cut status
-/
namespace Verif.Agi

theorem decide_mem_map {own : Gid → Part} {pins : List Gid} (p : Part) :
    decide (p ∈ pins.map own) = decide (∃ v ∈ pins, own v = p) := by
  congr 1; simp [List.mem_map]

/-- what C10 says about one edge handle `h` whose pins have the gids `pins`, `own` being the owner of a
vertex: the residence is the (sorted) set of owners, `isResidentOn` is membership, and `isCut` tells
whether two pins have different owners (owners being ranks, so not -1) -/
def ResidenceIs (g : Graph) (h : Handle) (pins : List Gid) (own : Gid → Part) : Prop :=
  (∃ res, g.getResidence h [] = .ok res ∧ res.Pairwise (· < ·) ∧ ∀ p, p ∈ res ↔ ∃ v ∈ pins, own v = p) ∧
  (∀ p, g.isResidentOn h p = .ok (decide (∃ v ∈ pins, own v = p))) ∧
  ((∀ v ∈ pins, own v ≠ -1) → g.isCut h = .ok (decide (∃ a ∈ pins, ∃ b ∈ pins, own a ≠ own b)))

theorem residence_of_rounds {g : Graph} {h : Handle} {it : PinIt} {os : List Part} {d : Int}
    {pins : List Gid} {own : Gid → Part}
    (hp : g.pins h = .ok it) (hd : g.degreeE h = .ok d) (hl : d.toNat = os.length)
    (hr : Rounds g it os) (hos : ∀ p, p ∈ os ↔ ∃ v ∈ pins, own v = p) :
    (∃ res, g.getResidence h [] = .ok res ∧ res.Pairwise (· < ·) ∧ ∀ p, p ∈ res ↔ ∃ v ∈ pins, own v = p) ∧
    (∀ p, g.isResidentOn h p = .ok (decide (∃ v ∈ pins, own v = p))) := by
  obtain ⟨h1, h2⟩ := Peers.foldl_insert os [] List.Pairwise.nil
  refine ⟨⟨_, getResidence_eq hp hd hl hr [], h1, fun p => ?_⟩, fun p => ?_⟩
  · rw [h2]; simp [hos]
  · rw [isResidentOn_eq hp hd hl hr p]; congr 1; simp [hos]

theorem residenceIs_hyper {g : Graph} {verts ghosts : List Gid} {types : List EdgeInput} {own : Gid → Part}
    (hc : CRep g true verts ghosts types) (ho : ORep g ghosts own) {t : Nat} (ht : t < types.length)
    {k : Nat} (hk : k < types[t].pins.length) :
    ResidenceIs g (g.getEdge k t) types[t].pins[k] (ownerOf g.self verts own) := by
  obtain ⟨it, hp, hy⟩ := yields_pins_hyper hc ht hk
  have hmem : ∀ v ∈ types[t].pins[k], v ∈ verts ++ ghosts := fun v hv =>
    hc.pins t ht v (List.mem_flatten.mpr ⟨_, List.getElem_mem hk, hv⟩)
  -- the owner of a handle
  let ownH : Handle → Part := fun h => ownerOf g.self verts own ((verts ++ ghosts).getD (h - 1) 0)
  have hownH : ∀ v ∈ types[t].pins[k], ownH (getVertex ((verts ++ ghosts).idxOf v)) =
      ownerOf g.self verts own v := by
    intro v hv
    have hlt := List.idxOf_lt_length_of_mem (hmem v hv)
    simp only [ownH, getVertex, Nat.add_sub_cancel]
    rw [List.getD_eq_getElem?_getD, List.getElem?_eq_getElem hlt, List.getElem_idxOf]; rfl
  have hown : ∀ h ∈ types[t].pins[k].map (fun v => getVertex ((verts ++ ghosts).idxOf v)),
      g.owner h = .ok (ownH h) := by
    intro h hh
    obtain ⟨v, hv, rfl⟩ := List.mem_map.mp hh
    rw [owner_eq hc.v ho (hmem v hv), hownH v hv]
  have hrd := rounds_of_yields ownH _ it hy hown
  have hos : (types[t].pins[k].map (fun v => getVertex ((verts ++ ghosts).idxOf v))).map ownH =
      types[t].pins[k].map (ownerOf g.self verts own) := by
    rw [List.map_map]
    exact List.map_congr_left (fun v hv => hownH v hv)
  rw [hos] at hrd
  obtain ⟨r1, r2⟩ := residence_of_rounds (pins := types[t].pins[k]) (own := ownerOf g.self verts own)
    hp (degreeE_hyper hc ht hk) (by simp) hrd (fun p => List.mem_map)
  refine ⟨r1, r2, fun hne => ?_⟩
  obtain ⟨e, he, hr, -⟩ := hc.typ t ht
  have hb := bound_ge he
  have hlen : types[t].pins[k].length ≤ types[t].pins.flatten.length := by
    rw [List.length_flatten]
    exact le_sum_of_mem (List.mem_map.mpr ⟨_, List.getElem_mem hk, rfl⟩)
  obtain ⟨b, e1, e2⟩ := isCut_eq ownH ⟨it, hp, hy⟩ (by rw [List.length_map]; have := hr.numP; omega) hown
    (by
      intro h hh
      obtain ⟨v, hv, rfl⟩ := List.mem_map.mp hh
      rw [hownH v hv]; exact hne v hv)
  rw [e1]
  congr 1
  rw [Bool.eq_iff_iff, decide_eq_true_iff, e2]
  constructor
  · rintro ⟨a, ha, c, hc', hac⟩
    obtain ⟨v, hv, rfl⟩ := List.mem_map.mp ha
    obtain ⟨w, hw, rfl⟩ := List.mem_map.mp hc'
    rw [hownH v hv, hownH w hw] at hac
    exact ⟨v, hv, w, hw, hac⟩
  · rintro ⟨v, hv, w, hw, hac⟩
    refine ⟨_, List.mem_map.mpr ⟨v, hv, rfl⟩, _, List.mem_map.mpr ⟨w, hw, rfl⟩, ?_⟩
    rw [hownH v hv, hownH w hw]; exact hac

/-- **C10**, hypergraphs: after construction and with the ghost owners `owns` set, for every hyperedge the
residence is exactly the set of parts owning one of its pins (a local vertex is owned by this part, a ghost
by the supplied part), `isResidentOn` is membership in it, and `isCut` holds iff two pins have different
owners. -/
theorem c10_residence_hyper (me : Part) (peers : Nat) (total : Int) (i : Input) (hwf : i.WF)
    (hh : i.hyper = true) (owns : GMap Part) :
    ∃ g g', build me peers total i = .ok g ∧ g.fillOwners owns = .ok g' ∧
      ∀ t (ht : t < i.types.length) k (hk : k < i.types[t].pins.length),
        ResidenceIs g' (g'.getEdge k t) i.types[t].pins[k]
          (fun v => if v ∈ i.verts then me else (owns v).getD 0) := by
  obtain ⟨g, ghosts, e, hr⟩ := build_spec me peers total i hwf
  have hc := hr.core hwf
  rw [hh] at hc
  obtain ⟨g', e', ho, hg⟩ := fillOwners_spec hc.v owns
  refine ⟨g, g', e, e', fun t ht k hk => ?_⟩
  have hs : g'.self = me := by rw [hg]; exact hr.rank
  have := residenceIs_hyper (hc.of_eq hg) ho ht hk
  rw [hs] at this
  exact this

example : sampleH.WF ∧ sampleH.hyper = true := ⟨sampleH_wf, rfl⟩

/-- in the sample, with ghost 99 owned by part 3: the edge {10,20,99} of part 0 is cut and resides on parts
0 and 3, the edge {20,30} is not cut -/
example : (do
    let g ← build 0 4 3 sampleH
    let g ← g.fillOwners (fun v => if v = 99 then some 3 else none)
    let r ← g.getResidence (g.getEdge 0 0) []
    let c ← g.isCut (g.getEdge 0 0)
    let d ← g.isCut (g.getEdge 1 0)
    return (r, c, d) : Outcome _) = .ok ([0, 3], true, false) := by decide +kernel

theorem residenceIs_trad {g : Graph} {verts ghosts : List Gid} {types : List EdgeInput} {own : Gid → Part}
    (hc : CRep g false verts ghosts types) (ho : ORep g ghosts own) {t : Nat} (ht : t < types.length)
    {u : Nat} (hu : u < verts.length) {k : Nat}
    (hk : k < (adjOf false (verts ++ ghosts) types[t].pins verts[u]).length) {w : Gid}
    (hw : w ∈ verts ++ ghosts)
    (hadj : (adjOf false (verts ++ ghosts) types[t].pins verts[u])[k] = (verts ++ ghosts).idxOf w) :
    ResidenceIs g (g.getEdge (offs (fun u => degOf false types[t].pins (verts.getD u 0)) u + k) t)
      [verts[u], w] (ownerOf g.self verts own) := by
  have hp := pins_trad hc ht hu hk
  rw [hadj] at hp
  have hvu : verts[u] ∈ verts ++ ghosts := by simp
  have hou : ownerOf g.self verts own verts[u] = g.self := by simp [ownerOf]
  have hidx : (verts ++ ghosts).idxOf verts[u] = u := (idxOf_eq_iff hc.v.nodup hvu hu).mpr rfl
  have hd : g.degreeE (g.getEdge (offs (fun u => degOf false types[t].pins (verts.getD u 0)) u + k) t) =
      .ok 2 := by unfold Graph.degreeE; rw [if_pos hc.hyp]
  have h1 := owner_local hc.v hu
  have h2 := owner_eq hc.v ho hw
  have hnull : g.owner 0 = .ok g.self := by simp [Graph.owner, fromPtr]
  -- the two rounds
  have hr : Rounds g ⟨t, getVertex u, getVertex ((verts ++ ghosts).idxOf w)⟩
      [g.self, ownerOf g.self verts own w] := by
    by_cases heq : getVertex u = getVertex ((verts ++ ghosts).idxOf w)
    · have how : ownerOf g.self verts own w = g.self := by
        rw [← heq, h1] at h2
        simpa using h2.symm
      refine ⟨⟨t, 0, 0⟩, ?_, ⟨⟨t, 0, 0⟩, ?_, trivial⟩⟩
      · unfold Graph.nextOwner Graph.iterPin
        rw [← heq]
        simp only [hc.hyp, Bool.false_eq_true, if_false, if_true, Outcome.bind_ok]
        rw [h1]; rfl
      · unfold Graph.nextOwner Graph.iterPin
        simp only [hc.hyp, Bool.false_eq_true, if_false, if_true, Outcome.bind_ok]
        rw [hnull, how]; rfl
    · refine ⟨⟨t, getVertex ((verts ++ ghosts).idxOf w), getVertex ((verts ++ ghosts).idxOf w)⟩, ?_,
        ⟨⟨t, 0, 0⟩, ?_, trivial⟩⟩
      · unfold Graph.nextOwner Graph.iterPin
        simp only [hc.hyp, Bool.false_eq_true, if_false, heq, Outcome.bind_ok]
        rw [h1]; rfl
      · unfold Graph.nextOwner Graph.iterPin
        simp only [hc.hyp, Bool.false_eq_true, if_false, if_true, Outcome.bind_ok]
        rw [h2]; rfl
  obtain ⟨r1, r2⟩ := residence_of_rounds (pins := [verts[u], w]) (own := ownerOf g.self verts own)
    hp hd rfl hr (by intro p; simp [hou, eq_comm])
  refine ⟨r1, r2, fun hne => ?_⟩
  let ownH : Handle → Part := fun h => ownerOf g.self verts own ((verts ++ ghosts).getD (h - 1) 0)
  have hH : ∀ v ∈ verts ++ ghosts, ownH (getVertex ((verts ++ ghosts).idxOf v)) =
      ownerOf g.self verts own v := by
    intro v hv
    have hlt := List.idxOf_lt_length_of_mem hv
    simp only [ownH, getVertex, Nat.add_sub_cancel]
    rw [List.getD_eq_getElem?_getD, List.getElem?_eq_getElem hlt, List.getElem_idxOf]; rfl
  have hHu := hH _ hvu
  rw [hidx] at hHu
  have hHw := hH _ hw
  have hy := yields_pinIt_trad hc.hyp t (a := getVertex u) (b := getVertex ((verts ++ ghosts).idxOf w))
    (by simp [getVertex]) (by simp [getVertex])
  have hmem : ∀ h, h ∈ (if getVertex u = getVertex ((verts ++ ghosts).idxOf w) then [getVertex u] else
      [getVertex u, getVertex ((verts ++ ghosts).idxOf w)]) ↔
      h = getVertex u ∨ h = getVertex ((verts ++ ghosts).idxOf w) := by
    intro h
    split
    · rename_i heq; simp [← heq]
    · simp
  obtain ⟨e, he, hrt, -⟩ := hc.typ t ht
  have hb := bound_ge he
  obtain ⟨b, e1, e2⟩ := isCut_eq ownH ⟨_, hp, hy⟩ (by split <;> simp <;> omega)
    (by
      intro h hh
      rcases (hmem h).mp hh with rfl | rfl
      · rw [h1, hHu, hou]
      · rw [h2, hHw])
    (by
      intro h hh
      rcases (hmem h).mp hh with rfl | rfl
      · rw [hHu]; exact hne _ (by simp)
      · rw [hHw]; exact hne _ (by simp))
  rw [e1]
  congr 1
  rw [Bool.eq_iff_iff, decide_eq_true_iff, e2]
  constructor
  · rintro ⟨a, ha, c, hc', hac⟩
    have hx : ∀ h, h = getVertex u ∨ h = getVertex ((verts ++ ghosts).idxOf w) →
        ∃ v ∈ [verts[u], w], ownH h = ownerOf g.self verts own v := by
      rintro h (rfl | rfl)
      · exact ⟨_, by simp, hHu⟩
      · exact ⟨w, by simp, hHw⟩
    obtain ⟨v, hv, e3⟩ := hx a ((hmem a).mp ha)
    obtain ⟨v', hv', e4⟩ := hx c ((hmem c).mp hc')
    exact ⟨v, hv, v', hv', by rw [← e3, ← e4]; exact hac⟩
  · rintro ⟨v, hv, v', hv', hac⟩
    have hx : ∀ v ∈ [verts[u], w], ∃ h, (h = getVertex u ∨ h = getVertex ((verts ++ ghosts).idxOf w)) ∧
        ownH h = ownerOf g.self verts own v := by
      intro v hv
      rcases List.mem_cons.mp hv with rfl | hv
      · exact ⟨_, .inl rfl, hHu⟩
      · rw [List.mem_singleton] at hv; subst hv; exact ⟨_, .inr rfl, hHw⟩
    obtain ⟨a, ha, e3⟩ := hx v hv
    obtain ⟨c, hc', e4⟩ := hx v' hv'
    exact ⟨a, (hmem a).mpr ha, c, (hmem c).mpr hc', by rw [e3, e4]; exact hac⟩

/-- **C10**, traditional graphs: `edges(v,t)` of a local vertex yields its edges in input order (C06); the
`j`-th of them joins `v` and the `j`-th supplied destination, and its residence and cut status are those of
the two end points. -/
theorem c10_residence_trad (me : Part) (peers : Nat) (total : Int) (i : Input) (hwf : i.WF)
    (hh : i.hyper = false) (owns : GMap Part) :
    ∃ g g', build me peers total i = .ok g ∧ g.fillOwners owns = .ok g' ∧
      ∀ t (ht : t < i.types.length), ∀ v ∈ i.verts, ∃ hv hs,
        g'.findGID v = .ok hv ∧ YieldsFrom (g'.edges hv t) g'.iterEdge hs ∧
        hs.length = (i.types[t].pins.filter (fun p => p[0]? == some v)).length ∧
        ∀ j (h1 : j < hs.length) (h2 : j < (i.types[t].pins.filter (fun p => p[0]? == some v)).length),
          ResidenceIs g' hs[j] (i.types[t].pins.filter (fun p => p[0]? == some v))[j]
            (fun v => if v ∈ i.verts then me else (owns v).getD 0) := by
  obtain ⟨g, ghosts, e, hr⟩ := build_spec me peers total i hwf
  have hc := hr.core hwf
  rw [hh] at hc
  obtain ⟨g', e', ho, hg⟩ := fillOwners_spec hc.v owns
  have hs : g'.self = me := by rw [hg]; exact hr.rank
  have hc' := hc.of_eq hg
  refine ⟨g, g', e, e', fun t ht v hv => ?_⟩
  obtain ⟨u, hu, rfl⟩ := List.mem_iff_getElem.mp hv
  have hal := adjOf_length false (i.verts ++ ghosts) i.types[t].pins i.verts[u]
  have hal2 : (adjOf false (i.verts ++ ghosts) i.types[t].pins i.verts[u]).length =
      (i.types[t].pins.filter (fun p => p[0]? == some i.verts[u])).length := by simp [adjOf]
  refine ⟨_, _, findGID_local hc'.v hu, yields_edges_trad hc' ht hu, by simp; omega, ?_⟩
  intro j h1 h2
  simp only [List.getElem_map, List.getElem_range', Nat.one_mul]
  have hj : j < (adjOf false (i.verts ++ ghosts) i.types[t].pins i.verts[u]).length := by omega
  have hpm := List.getElem_mem h2
  rw [List.mem_filter] at hpm
  have hlen := (hwf.edges _ (List.getElem_mem ht)).two hh _ hpm.1
  have hform : (i.types[t].pins.filter (fun p => p[0]? == some i.verts[u]))[j] =
      [i.verts[u], ((i.types[t].pins.filter (fun p => p[0]? == some i.verts[u]))[j]).getD 1 0] := by
    have h0 := hpm.2
    generalize (i.types[t].pins.filter (fun p => p[0]? == some i.verts[u]))[j] = p at hlen h0
    match p, hlen with
    | [a, b], _ => simp at h0; simp [h0]
  have hw : ((i.types[t].pins.filter (fun p => p[0]? == some i.verts[u]))[j]).getD 1 0 ∈ i.verts ++ ghosts := by
    apply hc.pins t ht
    rw [List.mem_flatten]
    refine ⟨_, hpm.1, ?_⟩
    rw [List.getD_eq_getElem?_getD, List.getElem?_eq_getElem (by omega)]
    exact List.getElem_mem _
  have hadj : (adjOf false (i.verts ++ ghosts) i.types[t].pins i.verts[u])[j] = (i.verts ++ ghosts).idxOf
      (((i.types[t].pins.filter (fun p => p[0]? == some i.verts[u]))[j]).getD 1 0) := by
    simp [adjOf]
  have := residenceIs_trad hc' ho ht hu hj hw hadj
  rw [hs, ← hform] at this
  exact this

example : sampleT.WF ∧ sampleT.hyper = false := ⟨sampleT_wf, rfl⟩

end Verif.Agi
