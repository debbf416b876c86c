import Verif.Agi.DistLemmas
import Verif.Agi.DistSpec
/-!
# Lemmas: constructing all parts, ghost owners, global counts
-/
namespace Verif.Agi

theorem ORep.congr {g : Graph} {ghosts : List Gid} {own own' : Gid → Part} (h : ORep g ghosts own)
    (he : ∀ v ∈ ghosts, own v = own' v) : ORep g ghosts own' := by
  rcases h with h | h
  · exact .inl h
  · right; rw [h]; congr 2; exact List.map_congr_left he

theorem edges_pins {e : EdgeInput} {hyper : Bool} (h : e.WF hyper) :
    e.edges.map HEdge.pins = e.pins := by
  unfold EdgeInput.edges
  rw [List.map_map]
  have hw := weights_length h
  have hi := h.ids_len
  apply List.ext_getElem
  · simp; omega
  · intro k h1 h2; simp

theorem edges_length {e : EdgeInput} {hyper : Bool} (h : e.WF hyper) : e.edges.length = e.pins.length := by
  rw [← edges_pins h, List.length_map]

theorem HDist.dist {H : List (List HEdge)} {ins : List Input} {own : Gid → Nat} (h : HDist H ins own) :
    Dist ins own := by
  refine ⟨h.wf, h.verts, ?_⟩
  intro p hp v hv
  unfold Input.allPins at hv
  rw [List.mem_flatten] at hv
  obtain ⟨l, hl, hvl⟩ := hv
  rw [List.mem_map] at hl
  obtain ⟨e, he, rfl⟩ := hl
  obtain ⟨t, ht, rfl⟩ := List.mem_iff_getElem.mp he
  rw [List.mem_flatten] at hvl
  obtain ⟨ps, hps, hvp⟩ := hvl
  have hwf := (h.wf _ (List.getElem_mem hp)).edges _ he
  rw [← edges_pins hwf, List.mem_map] at hps
  obtain ⟨x, hx, rfl⟩ := hps
  have ht' : t < H.length := by rw [← h.types p hp]; exact ht
  have := ((h.edges p hp t ht ht').mem_iff.mp hx)
  rw [List.mem_filter] at this
  exact h.pins _ (List.getElem_mem ht') x this.1 v hvp

/-! ## building all parts and setting the owners -/

/-- after construction, before the owners are known -/
def Built (gs : List Graph) (ins : List Input) : Prop :=
  gs.length = ins.length ∧ ∀ p (h : p < gs.length) (h' : p < ins.length), ∃ ghosts,
    GRep gs[p] (p : Int) ins.length ((ins.map (fun i => (i.verts.length : Int))).sum) ins[p] ghosts

theorem buildAll_spec (ins : List Input) (hwf : ∀ i ∈ ins, i.WF) :
    ∃ gs, buildAll ins = .ok gs ∧ Built gs ins := by
  unfold buildAll
  obtain ⟨gs, e, hl, hr⟩ := mapM_idx (f := fun p => do
      let i ← rd ins p
      build (p : Int) ins.length ((ins.map (fun i => (i.verts.length : Int))).sum) i)
    (fun p g => ∀ (h' : p < ins.length), ∃ ghosts,
      GRep g (p : Int) ins.length ((ins.map (fun i => (i.verts.length : Int))).sum) ins[p] ghosts)
    (List.range ins.length)
    (by
      intro k hk
      simp only [List.length_range] at hk
      simp only [List.getElem_range]
      rw [rd_ok hk, Outcome.bind_ok]
      obtain ⟨g, ghosts, e, hg⟩ := build_spec (k : Int) ins.length
        ((ins.map (fun i => (i.verts.length : Int))).sum) ins[k] (hwf _ (List.getElem_mem hk))
      exact ⟨g, e, fun _ => ⟨ghosts, hg⟩⟩)
  refine ⟨gs, e, by simpa using hl, fun p h h' => hr p h h'⟩

theorem fillOwnersAll_spec {gs : List Graph} {ins : List Input} {own : Gid → Nat} {owns : List (GMap Part)}
    (hb : Built gs ins) (hwf : ∀ i ∈ ins, i.WF) (ho : OwnMaps ins own owns) :
    ∃ gs', (gs.zip owns).mapM (fun p => p.1.fillOwners p.2) = .ok gs' ∧ World gs' ins own ∧
      ∀ p (h : p < gs'.length) (h' : p < gs.length), gs'[p] = { gs[p] with owners := gs'[p].owners } := by
  obtain ⟨hl, hr⟩ := hb
  obtain ⟨hol, hov⟩ := ho
  have hz : (gs.zip owns).length = gs.length := by simp; omega
  obtain ⟨gs', e, hl', hr'⟩ := mapM_idx (f := fun p : Graph × GMap Part => p.1.fillOwners p.2)
    (fun p g => (∀ (h' : p < ins.length), ∃ ghosts, PartRep g p ins.length ins[p] own ghosts) ∧
      ∀ (h' : p < gs.length), g = { gs[p] with owners := g.owners })
    (gs.zip owns)
    (by
      intro k hk
      rw [hz] at hk
      simp only [List.getElem_zip]
      obtain ⟨ghosts, hg⟩ := hr k hk (by omega)
      obtain ⟨g', e, ho, hg'⟩ := fillOwners_spec hg.vrep (owns[k]'(by omega))
      refine ⟨g', e, fun h' => ⟨ghosts, ?_⟩, fun _ => hg'⟩
      refine ⟨(hg.core (hwf _ (List.getElem_mem h'))).of_eq hg', ?_, ?_, ?_, ?_, hg.ghosts_eq⟩
      · rw [hg']; exact hg.rank
      · rw [hg']; exact hg.peers
      · apply ho.congr
        intro v hv
        have hall : v ∈ ins[k].verts ++ ghosts := by simp [hv]
        rw [hg.ghosts_eq, mem_extend] at hall
        have hnv : v ∉ ins[k].verts := fun h =>
          (List.nodup_append.mp hg.vrep.nodup).2.2 v h v hv rfl
        rw [hov k h' (by omega) v (by tauto) hnv]
        rfl
      · rw [hg']; exact hg.weights)
  exact ⟨gs', e, ⟨by omega, fun p h h' => (hr' p h).1 h'⟩, fun p h h' => (hr' p h).2 h'⟩

/-! ## counting -/

/-- the hyperedges of a list of pin lists that part `p` counts: no pin is owned by a lower part -/
def countedBy (own : Gid → Nat) (p : Nat) (pins : List Gid) : Bool := decide (∀ v ∈ pins, p ≤ own v)

theorem lowerPart_iff (me : Part) (res : Peers) : lowerPart me res = true ↔ ∃ p ∈ res, p < me := by
  simp [lowerPart]

theorem ownedCounts_hyper {g : Graph} {me n : Nat} {i : Input} {own : Gid → Nat} {ghosts : List Gid}
    (h : PartRep g me n i own ghosts) (hh : i.hyper = true) (hv : ∀ v ∈ i.verts, own v = me) {t : Nat}
    (ht : t < i.types.length) :
    g.ownedCounts t = .ok (((i.types[t].pins.filter (countedBy own me)).length : Int),
      (((i.types[t].pins.filter (countedBy own me)).map (fun p => p.length)).sum : Nat)) := by
  have hc := h.core
  rw [hh] at hc
  obtain ⟨e, he, hr, -⟩ := hc.typ t ht
  obtain ⟨it, hit, hy⟩ := yields_edgeBegin hc ht
  unfold Graph.ownedCounts
  rw [Graph.slot_ok he, Outcome.bind_ok, if_pos hc.hyp, hit, Outcome.bind_ok,
    iterLoop_yields _ _ _ g.bound _ hy (by
      rw [List.length_map, List.length_range, ← hr.numE]; have := bound_ge he; omega)]
  have hown : ∀ v, ownerOf g.self i.verts (fun v => (own v : Int)) v = (own v : Int) := by
    intro v
    unfold ownerOf
    split
    · rename_i hm; rw [h.rank, hv v hm]
    · rfl
  -- one edge
  have hstep : ∀ k (hk : k < i.types[t].pins.length) (s : Int × Int),
      g.countOwned s (g.getEdge k t) = .ok (if countedBy own me i.types[t].pins[k] then s else
        (s.1 - 1, s.2 - (i.types[t].pins[k].length : Int)), false) := by
    intro k hk s
    obtain ⟨⟨res, e1, -, e2⟩, -, -⟩ := residenceIs_hyper hc h.owners ht hk
    unfold Graph.countOwned
    rw [e1, Outcome.bind_ok]
    have hiff : lowerPart g.self res = true ↔ countedBy own me i.types[t].pins[k] = false := by
      rw [lowerPart_iff]
      unfold countedBy
      rw [decide_eq_false_iff_not]
      constructor
      · rintro ⟨p, hp, hlt⟩ hall
        obtain ⟨v, hv, rfl⟩ := (e2 p).mp hp
        rw [hown, h.rank] at hlt
        have := hall v hv
        omega
      · intro hall
        rcases Classical.em (∃ v ∈ i.types[t].pins[k], own v < me) with ⟨v, hv, hlt⟩ | hno
        · exact ⟨_, (e2 _).mpr ⟨v, hv, rfl⟩, by rw [hown, h.rank]; omega⟩
        · exfalso; apply hall
          intro v hv
          rcases Nat.lt_or_ge (own v) me with h1 | h1
          · exact absurd ⟨v, hv, h1⟩ hno
          · exact h1
    cases hcb : countedBy own me i.types[t].pins[k] with
    | true =>
      have : lowerPart g.self res = false := by
        rw [← Bool.not_eq_true, hiff, hcb]; simp
      rw [this]; rfl
    | false =>
      rw [hiff.mpr hcb, if_pos rfl, degreeE_hyper hc ht hk]
      rfl
  -- the loop over the first `m` edges
  have key : ∀ m, m ≤ i.types[t].pins.length → ∀ s : Int × Int,
      loopList g.countOwned ((List.range m).map (fun l => g.getEdge l t)) s =
        .ok (s.1 - ((i.types[t].pins.take m).filter (fun p => !countedBy own me p)).length,
             s.2 - ((((i.types[t].pins.take m).filter (fun p => !countedBy own me p)).map (fun p => p.length)).sum : Nat)) := by
    intro m
    have hfold := fun (m : Nat) (hm : m ≤ i.types[t].pins.length) (b : Int × Int) =>
      loopList_fold (body := g.countOwned) (f := fun s h => do
        let r ← g.countOwned s h
        return r.1) ((List.range m).map (fun l => g.getEdge l t)) (by
        intro b x hx
        obtain ⟨k, hk, rfl⟩ := List.mem_map.mp hx
        rw [List.mem_range] at hk
        rw [hstep k (by omega)]; rfl) b
    induction m with
    | zero => intro _ s; simp [loopList]
    | succ m ih =>
      intro hm s
      have ih' := ih (by omega) s
      rw [hfold m (by omega)] at ih'
      rw [hfold (m + 1) hm, List.range_succ, List.map_append, List.foldlM_append, ih', Outcome.bind_ok]
      simp only [List.map_cons, List.map_nil, List.foldlM_cons, List.foldlM_nil]
      rw [hstep m (by omega), Outcome.bind_ok]
      rw [List.take_succ_eq_append_getElem (by omega), List.filter_append, List.map_append, List.sum_append,
        List.length_append]
      cases hcb : countedBy own me i.types[t].pins[m] with
      | true => simp [hcb]
      | false => simp [hcb]; omega
  rw [key _ (Nat.le_refl _), List.take_length]
  congr 1
  have hsplit : ∀ (l : List (List Gid)), l.length = (l.filter (countedBy own me)).length +
      (l.filter (fun p => !countedBy own me p)).length ∧
      l.flatten.length = ((l.filter (countedBy own me)).map (fun p => p.length)).sum +
      ((l.filter (fun p => !countedBy own me p)).map (fun p => p.length)).sum := by
    intro l
    induction l with
    | nil => simp
    | cons a l ih =>
      cases hcb : countedBy own me a <;> simp [hcb] <;> simp at ih <;> omega
  obtain ⟨s1, s2⟩ := hsplit i.types[t].pins
  rw [hr.numE, hr.numP]
  rw [Prod.mk.injEq]
  constructor
  · simp only; omega
  · simp only; omega

end Verif.Agi
