import Verif.Agi.ValidSound
/-!
# Property C11: constructed graphs pass `checkValidity`
-/
namespace Verif.Agi

/-! ## traditional graphs -/

/-- every edge starts at a local vertex and is no self-loop -/
def TradOk (i : Input) : Prop :=
  ∀ e ∈ i.types, ∀ p ∈ e.pins, (∃ v ∈ i.verts, p[0]? = some v) ∧ p[0]? ≠ p[1]?

theorem trad_target {g : Graph} {verts ghosts : List Gid} {types : List EdgeInput}
    (h : CRep g false verts ghosts types) (hwf : ∀ e ∈ types, e.WF false)
    (hok : ∀ e ∈ types, ∀ p ∈ e.pins, p[0]? ≠ p[1]?) {t : Nat} (ht : t < types.length) {u : Nat}
    (hu : u < verts.length) {k : Nat}
    (hk : k < (adjOf false (verts ++ ghosts) types[t].pins verts[u]).length) :
    ∃ w, w ∈ verts ++ ghosts ∧ w ≠ verts[u] ∧
      (adjOf false (verts ++ ghosts) types[t].pins verts[u])[k] = (verts ++ ghosts).idxOf w := by
  have hk2 : k < (types[t].pins.filter (fun p => p[0]? == some verts[u])).length := by
    simpa [adjOf] using hk
  have hpm := List.getElem_mem hk2
  rw [List.mem_filter] at hpm
  have hlen := (hwf _ (List.getElem_mem ht)).two rfl _ hpm.1
  have hne := hok _ (List.getElem_mem ht) _ hpm.1
  refine ⟨((types[t].pins.filter (fun p => p[0]? == some verts[u]))[k]).getD 1 0, ?_, ?_, ?_⟩
  · apply h.pins t ht
    rw [List.mem_flatten]
    refine ⟨_, hpm.1, ?_⟩
    rw [List.getD_eq_getElem?_getD, List.getElem?_eq_getElem (by omega)]
    exact List.getElem_mem _
  · intro heq
    apply hne
    have h0 := hpm.2
    simp only [beq_iff_eq] at h0
    have h1 : ((types[t].pins.filter (fun p => p[0]? == some verts[u]))[k])[1]? = some verts[u] := by
      rw [List.getD_eq_getElem?_getD, List.getElem?_eq_getElem (by omega), Option.getD_some] at heq
      rw [List.getElem?_eq_getElem (by omega)]
      exact congrArg some heq
    rw [h0, h1]
  · simp [adjOf]

theorem trad_pins {g : Graph} {verts ghosts : List Gid} {types : List EdgeInput}
    (h : CRep g false verts ghosts types) (hwf : ∀ e ∈ types, e.WF false)
    (hok : ∀ e ∈ types, ∀ p ∈ e.pins, p[0]? ≠ p[1]?) {t : Nat} (ht : t < types.length) {u : Nat}
    (hu : u < verts.length) {k : Nat} (hk : k < degOf false types[t].pins verts[u]) :
    ∃ b, YieldsFrom (g.pins (g.getEdge (offs (fun u => degOf false types[t].pins (verts.getD u 0)) u + k) t))
      g.iterPin [getVertex u, b] := by
  have hk' : k < (adjOf false (verts ++ ghosts) types[t].pins verts[u]).length := by rwa [adjOf_length]
  obtain ⟨w, hw, hwu, hadj⟩ := trad_target h hwf hok ht hu hk'
  have hp := pins_trad h ht hu hk'
  rw [hadj] at hp
  have hy := yields_pinIt_trad h.hyp t (a := getVertex u) (b := getVertex ((verts ++ ghosts).idxOf w))
    (by simp [getVertex]) (by simp [getVertex])
  rw [if_neg] at hy
  · exact ⟨_, _, hp, hy⟩
  · intro heq
    apply hwu
    have hi : (verts ++ ghosts).idxOf w = u := by simp [getVertex] at heq; omega
    exact (((idxOf_eq_iff h.v.nodup hw hu).mp hi))

theorem vertOk_trad {g : Graph} {verts ghosts : List Gid} {types : List EdgeInput}
    (h : CRep g false verts ghosts types) (hwf : ∀ e ∈ types, e.WF false)
    (hok : ∀ e ∈ types, ∀ p ∈ e.pins, p[0]? ≠ p[1]?) {t : Nat} (ht : t < types.length) {u : Nat}
    (hu : u < verts.length) : VertOk g (getVertex u) t := by
  refine ⟨_, yields_edges_trad h ht hu, ?_, ?_, ?_⟩
  · rw [List.length_map, List.length_range']; exact deg_le_list h ht hu
  · rw [degreeV_eq h ht hu, List.length_map, List.length_range']
  · intro e he
    obtain ⟨l, hl, rfl⟩ := List.mem_map.mp he
    rw [List.mem_range'] at hl
    obtain ⟨k, hk, rfl⟩ := hl
    rw [Nat.one_mul]
    obtain ⟨b, hy⟩ := trad_pins h hwf hok ht hu hk
    refine ⟨_, hy, ?_, by simp⟩
    simp; unfold Graph.bound; omega

theorem edge_split_trad {verts : List Gid} (hnd : verts.Nodup) {pins : List (List Gid)}
    (hloc : ∀ p ∈ pins, ∃ v ∈ verts, p[0]? = some v) {l : Nat} (hl : l < pins.length) :
    ∃ u k, ∃ hu : u < verts.length, k < degOf false pins verts[u] ∧
      l = offs (fun u => degOf false pins (verts.getD u 0)) u + k := by
  have h1 := offs_degOf_false verts hnd pins
  have h2 : pins.countP (fun p => decide (∃ v ∈ verts, p[0]? = some v)) = pins.length := by
    rw [List.countP_eq_length]
    intro p hp
    simpa using hloc p hp
  rw [h2] at h1
  obtain ⟨u, k, hu, hk, e⟩ := edge_index_split _ verts.length (show l < _ by rw [h1]; exact hl)
  refine ⟨u, k, hu, ?_, e⟩
  simpa [hu] using hk

theorem validCounts_trad {g : Graph} {me n : Nat} {i : Input} {own : Gid → Nat} {ghosts : List Gid}
    (h : PartRep g me n i own ghosts) (hwf : i.WF) (hh : i.hyper = false) (hok : TradOk i) {t : Nat}
    (ht : t < i.types.length) :
    g.validCounts t = .ok ((i.types[t].pins.length : Int), (i.types[t].pins.length : Int),
      2 * (i.types[t].pins.length : Int), (i.types[t].pins.flatten.length : Int)) := by
  have hc := h.core
  rw [hh] at hc
  have hw2 : ∀ e ∈ i.types, e.WF false := by intro e he; rw [← hh]; exact hwf.edges e he
  have hno : ∀ e ∈ i.types, ∀ p ∈ e.pins, p[0]? ≠ p[1]? := fun e he p hp => (hok e he p hp).2
  have hlen2 : ∀ p ∈ i.types[t].pins, p.length = 2 := (hw2 _ (List.getElem_mem ht)).two rfl
  have := validCounts_eq hc ht (fun _ => true) (by
    intro l hl s
    obtain ⟨u, k, hu, hk, rfl⟩ := edge_split_trad hwf.nodup
      (fun p hp => (hok _ (List.getElem_mem ht) p hp).1) hl
    have hk' : k < (adjOf false (i.verts ++ ghosts) i.types[t].pins i.verts[u]).length := by
      rwa [adjOf_length]
    obtain ⟨w, hw, -, hadj⟩ := trad_target hc hw2 hno ht hu hk'
    obtain ⟨⟨res, e1, -, -⟩, -, -⟩ := residenceIs_trad hc h.owners ht hu hk' hw hadj
    unfold Graph.countEdge
    have hd : ∀ x, g.degreeE x = .ok 2 := by intro x; unfold Graph.degreeE; rw [if_pos hc.hyp]
    rw [hd, Outcome.bind_ok, e1, Outcome.bind_ok, if_pos (.inr hc.hyp), if_pos rfl]
    have := hlen2 _ (List.getElem_mem hl)
    rw [this]; rfl)
  rw [this]
  have hfil : i.types[t].pins.filter (fun _ => true) = i.types[t].pins := by simp
  have hsum : ∀ (l : List (List Gid)), (∀ p ∈ l, p.length = 2) →
      (((l.map (fun p => p.length)).sum : Nat) : Int) = 2 * (l.length : Int) := by
    intro l
    induction l with
    | nil => simp
    | cons a l ih =>
      intro hl
      have := ih (fun p hp => hl p (by simp [hp]))
      have h1 := hl a (by simp)
      simp only [List.map_cons, List.sum_cons, List.length_cons]; omega
  rw [hfil, hsum _ hlen2]

/-! ## the check on all parts -/

/-- every part of a world whose parts all contribute their counted edges is accepted -/
theorem checkValidityAll_true {gs : List Graph} {ins : List Input} {own : Gid → Nat} {hyper : Bool} {T : Nat}
    (hw : World gs ins own) (hd : Dist ins own) (hu : Uniform ins hyper T)
    (hok : hyper = false → ∀ i ∈ ins, TradOk i)
    (hcnt : ∀ p (h : p < gs.length), gs[p].globalVerts = (ins.map (fun i => (i.verts.length : Int))).sum ∧
      ∀ t, t < T → gs[p].numGlobalEdges t = .ok (edgeTotal ins own t) ∧
        gs[p].numGlobalPins t = .ok (if hyper then pinTotal ins own t else 2 * edgeTotal ins own t)) :
    checkValidityAll gs T = .ok (List.replicate gs.length true) := by
  obtain ⟨hl, hr⟩ := hw
  -- what each part counts
  have hvc : ∀ p (hp : p < gs.length) (hi : p < ins.length) t (ht : t < T) (ht' : t < ins[p].types.length),
      gs[p].validCounts t = .ok ((ins[p].types[t].pins.length : Int), (contribution ins own t p).1,
        (contribution ins own t p).2, (ins[p].types[t].pins.flatten.length : Int)) := by
    intro p hp hi t ht ht'
    obtain ⟨ghosts, hg⟩ := hr p hp hi
    have hH := hu.hyper _ (List.getElem_mem hi)
    have e1 : ins[p]? = some ins[p] := List.getElem?_eq_getElem _
    have e2 : ins[p].types[t]? = some ins[p].types[t] := List.getElem?_eq_getElem _
    unfold contribution
    simp only [e1, e2]
    cases hyp : ins[p].hyper with
    | true => rw [validCounts_hyper hg hyp (hd.verts p hi) ht']; simp
    | false =>
      rw [validCounts_trad hg (hd.wf _ (List.getElem_mem hi)) hyp
        (hok (by rw [← hH, hyp]) _ (List.getElem_mem hi)) ht']
      simp
  obtain ⟨cnt, ec, hcl, hcr⟩ := mapM_idx (f := fun t => gs.mapM (fun g => g.validCounts t))
    (fun t row => t < T ∧ row.map (fun c => c.2.1) = (List.range ins.length).map (fun p => (contribution ins own t p).1) ∧
      row.map (fun c => c.2.2.1) = (List.range ins.length).map (fun p => (contribution ins own t p).2))
    (List.range T)
    (by
      intro t ht
      simp only [List.length_range] at ht
      simp only [List.getElem_range]
      obtain ⟨row, er, hrl, hrr⟩ := mapM_idx (f := fun g : Graph => g.validCounts t)
        (fun p c => c.2.1 = (contribution ins own t p).1 ∧ c.2.2.1 = (contribution ins own t p).2) gs
        (by
          intro p hp
          have hi : p < ins.length := by omega
          have hT := hu.types _ (List.getElem_mem hi)
          exact ⟨_, hvc p hp hi t ht (by omega), rfl, rfl⟩)
      refine ⟨row, er, ht, ?_, ?_⟩
      · apply List.ext_getElem
        · simp; omega
        · intro k h1 h2; simp only [List.getElem_map, List.getElem_range]; exact (hrr k (by simpa using h1)).1
      · apply List.ext_getElem
        · simp; omega
        · intro k h1 h2; simp only [List.getElem_map, List.getElem_range]; exact (hrr k (by simpa using h1)).2)
  rw [List.length_range] at hcl
  have hcg : ∀ t, t < T → ((cnt.getD t []).map (fun c => c.2.1)).sum = edgeTotal ins own t ∧
      ((cnt.getD t []).map (fun c => c.2.2.1)).sum = pinTotal ins own t := by
    intro t ht
    have h1 := hcr t (by omega)
    rw [List.getD_eq_getElem?_getD, List.getElem?_eq_getElem (by omega), Option.getD_some, h1.2.1, h1.2.2]
    exact ⟨rfl, rfl⟩
  unfold checkValidityAll
  rw [ec, Outcome.bind_ok, mapM_ok (g := fun _ => true)]
  · simp
  · intro g hg
    obtain ⟨p, hp, rfl⟩ := List.mem_iff_getElem.mp hg
    have hi : p < ins.length := by omega
    obtain ⟨ghosts, hg⟩ := hr p hp hi
    have hT := hu.types _ (List.getElem_mem hi)
    have hH := hu.hyper _ (List.getElem_mem hi)
    have hwf := hd.wf _ (List.getElem_mem hi)
    obtain ⟨c1, c2⟩ := hcnt p hp
    apply checkValidity_true (T := T) (by rw [hg.core.numTypes, hT])
    · rw [c1]
      congr 1
      apply List.ext_getElem
      · simp [hl]
      · intro k h1 h2
        simp only [List.length_map] at h1 h2
        obtain ⟨gk, hgk⟩ := hr k (by omega) h1
        simp only [List.getElem_map]
        rw [hgk.core.v.nl]
    · intro u hu' t ht
      rw [hg.core.v.nl] at hu'
      have hc := hg.core
      cases hyp : ins[p].hyper with
      | true => rw [hyp] at hc; exact vertOk_hyper hc (by omega) hu'
      | false =>
        rw [hyp] at hc
        refine vertOk_trad hc (by intro e he; rw [← hyp]; exact hwf.edges e he) ?_ (by omega) hu'
        exact fun e he q hq => (hok (by rw [← hH, hyp]) _ (List.getElem_mem hi) e he q hq).2
    · intro t ht
      have ht' : t < ins[p].types.length := by omega
      obtain ⟨e, he, hrt, -⟩ := hg.core.typ t ht'
      obtain ⟨g1, g2⟩ := c2 t ht
      refine ⟨_, _, _, _, _, yields_edgeBegin hg.core ht', ?_, hvc p hp hi t ht ht', numEdges_eq hg.core ht',
        numPins_eq hg.core ht', ?_, ?_, ?_⟩
      · rw [List.length_map, List.length_range, ← hrt.numE]; have := bound_ge he; omega
      · rw [g1, (hcg t ht).1]
      · rw [g2, (hcg t ht).2]
        cases hyper with
        | true => rfl
        | false =>
          simp only [Bool.false_eq_true, if_false]
          congr 1
          -- pinTotal = 2 * edgeTotal
          unfold pinTotal edgeTotal
          have : ∀ q, q < ins.length → (contribution ins own t q).2 = 2 * (contribution ins own t q).1 := by
            intro q hq
            have e1 : ins[q]? = some ins[q] := List.getElem?_eq_getElem _
            have hTq := hu.types _ (List.getElem_mem hq)
            have e2 : ins[q].types[t]? = some (ins[q].types[t]'(by omega)) := List.getElem?_eq_getElem _
            unfold contribution
            simp only [e1, e2, hu.hyper _ (List.getElem_mem hq)]
            simp
          have hm : (List.range ins.length).map (fun p => (contribution ins own t p).2) =
              (List.range ins.length).map (fun p => 2 * (contribution ins own t p).1) :=
            List.map_congr_left (fun q hq => this q (by simpa using hq))
          rw [hm]
          have hs : ∀ (l : List Nat), (l.map (fun p => 2 * (contribution ins own t p).1)).sum =
              2 * (l.map (fun p => (contribution ins own t p).1)).sum := by
            intro l
            induction l with
            | nil => rfl
            | cons a l ih => simp only [List.map_cons, List.sum_cons, ih]; omega
          rw [hs]
      · intro x hx
        obtain ⟨l, hl', rfl⟩ := List.mem_map.mp hx
        rw [List.mem_range] at hl'
        have hc := hg.core
        cases hyp : ins[p].hyper with
        | true => rw [hyp] at hc; exact edgeOk_hyper hc ht' hl'
        | false =>
          rw [hyp] at hc
          have hokp := hok (by rw [← hH, hyp]) _ (List.getElem_mem hi)
          obtain ⟨u, k, hu', hk, rfl⟩ := edge_split_trad hwf.nodup
            (fun q hq => (hokp _ (List.getElem_mem ht') q hq).1) hl'
          obtain ⟨b, hy⟩ := trad_pins hc (by intro e he; rw [← hyp]; exact hwf.edges e he)
            (fun e he q hq => (hokp e he q hq).2) ht' hu' hk
          refine ⟨_, hy, by simp; unfold Graph.bound; omega, ?_⟩
          unfold Graph.degreeE; rw [if_pos hc.hyp]; rfl
    · intro k hk
      rw [hg.core.v.ng] at hk
      have hmem : ghosts[k] ∈ ins[p].verts ++ ghosts := by simp
      have hin := (hg.mem_ghosts ghosts[k]).mp (List.getElem_mem hk)
      have hidx : (ins[p].verts ++ ghosts).idxOf ghosts[k] = gs[p].numLocal + k := by
        rw [List.idxOf_append_of_notMem hin.2, hg.core.v.nl,
          (List.nodup_append.mp hg.core.v.nodup).2.1.idxOf_getElem]
      have ho := owner_eq hg.core.v hg.owners hmem
      rw [hidx] at ho
      refine ⟨_, ho, ?_, ?_⟩
      · unfold ownerOf
        rw [if_neg hin.2, hg.rank]
        simp only
        intro heq
        have heq' : own ghosts[k] = p := by exact_mod_cast heq
        obtain ⟨h1, h2⟩ := hd.pins p hi _ hin.1
        apply hin.2
        simpa only [heq'] using h2
      · unfold ownerOf
        rw [if_neg hin.2, hg.peers]
        obtain ⟨h1, h2⟩ := hd.pins p hi _ hin.1
        simp only
        omega

/-- **C11**, hypergraphs: a hypergraph distributed over any number of parts, built with `constructVerts`,
`constructEdges` and `constructGhosts`, passes `checkValidity` on every part, for every delivery order. -/
theorem c11_valid_hyper (H : List (List HEdge)) (ins : List Input) (own : Gid → Nat) (h : HDist H ins own)
    (owns : List (GMap Part)) (ho : OwnMaps ins own owns) (o1 o2 : Nat → List Nat)
    (ho1 : Orders ins.length o1) (ho2 : Orders ins.length o2) :
    ∃ gs gs', buildAll ins = .ok gs ∧ constructGhosts gs owns o1 o2 = .ok gs' ∧
      checkValidityAll gs' H.length = .ok (List.replicate ins.length true) := by
  have hd := h.dist
  obtain ⟨gs, e, hb⟩ := buildAll_spec ins h.wf
  obtain ⟨gs', e', hw, hr⟩ := constructGhosts_spec hb hd (hdist_uniform h) ho ho1 ho2
  have hl := hw.1
  have hl0 := hb.1
  refine ⟨gs, gs', e, e', ?_⟩
  rw [checkValidityAll_true hw hd (hdist_uniform h) (by simp), hl]
  intro p hp
  obtain ⟨r1, r2, -⟩ := hr p hp (by omega) (by omega)
  obtain ⟨gh, hgr⟩ := hb.2 p (by omega) (by omega)
  exact ⟨by rw [r2]; exact hgr.total, r1⟩

/-- the same after the array version of `constructGhosts` -/
theorem c11_valid_hyper_array (H : List (List HEdge)) (ins : List Input) (own : Gid → Nat) (h : HDist H ins own)
    (owns : List (List (Gid × Part))) (ho : OwnArrays ins own owns) :
    ∃ gs gs', buildAll ins = .ok gs ∧ constructGhostsA gs owns = .ok gs' ∧
      checkValidityAll gs' H.length = .ok (List.replicate ins.length true) := by
  obtain ⟨gs, e, hb⟩ := buildAll_spec ins h.wf
  obtain ⟨g1, e1, w1, r1⟩ := fillOwnersArrays_spec hb h.wf ho
  obtain ⟨g2, e2, w2, l2, r2⟩ := countTypes_spec w1 (hdist_uniform h) h.verts
  have hl1 := w1.1
  have hl0 := hb.1
  refine ⟨gs, g2, e, by unfold constructGhostsA; rw [e1, Outcome.bind_ok, e2], ?_⟩
  rw [checkValidityAll_true w2 h.dist (hdist_uniform h) (by simp), w2.1]
  intro p hp
  obtain ⟨b1, b2⟩ := r2 p hp (by omega)
  have c1 := r1 p (by omega) (by omega)
  obtain ⟨gh, hgr⟩ := hb.2 p (by omega) (by omega)
  exact ⟨by rw [b2, c1]; exact hgr.total, b1⟩

example : HDist sampleHG sampleWorld sampleOwn := sampleWorld_dist

/-- the sample world passes, computed -/
example : (do
    let gs ← buildAll sampleWorld
    let gs ← constructGhosts gs [fun v => some (sampleOwn v : Int), fun v => some (sampleOwn v : Int)]
      (fun _ => [1, 0]) (fun _ => [0, 1])
    checkValidityAll gs 1 : Outcome _) = .ok [true, true] := by decide +kernel

/-- **C11**, traditional graphs.  Full claim: every graph built from well-formed input passes.  Missing: an
edge whose source is not local (then `u(e)` does not end, `c07_ghost_source_endless`) and self-loops, which
`checkValidity` rejects (`c11_self_loop_rejected`). -/
theorem c11_valid_trad_partial (ins : List Input) (own : Gid → Nat) (hd : Dist ins own) (T : Nat)
    (hu : Uniform ins false T) (hok : ∀ i ∈ ins, TradOk i) (owns : List (GMap Part)) (ho : OwnMaps ins own owns)
    (o1 o2 : Nat → List Nat) (ho1 : Orders ins.length o1) (ho2 : Orders ins.length o2) :
    ∃ gs gs', buildAll ins = .ok gs ∧ constructGhosts gs owns o1 o2 = .ok gs' ∧
      checkValidityAll gs' T = .ok (List.replicate ins.length true) := by
  obtain ⟨gs, e, hb⟩ := buildAll_spec ins hd.wf
  obtain ⟨gs', e', hw, hr⟩ := constructGhosts_spec hb hd hu ho ho1 ho2
  have hl := hw.1
  have hl0 := hb.1
  refine ⟨gs, gs', e, e', ?_⟩
  rw [checkValidityAll_true hw hd hu (fun _ => hok), hl]
  intro p hp
  obtain ⟨r1, r2, -⟩ := hr p hp (by omega) (by omega)
  obtain ⟨gh, hgr⟩ := hb.2 p (by omega) (by omega)
  exact ⟨by rw [r2]; exact hgr.total, r1⟩

/-- two parts of a traditional graph with edges 1→2 and 2→1, 2→3 -/
def sampleTradWorld : List Input :=
  [{ hyper := false, verts := [1], wgts := [], types := [⟨[0], [[1, 2]], []⟩] },
   { hyper := false, verts := [2, 3], wgts := [], types := [⟨[0, 1], [[2, 1], [2, 3]], []⟩] }]

example : Dist sampleTradWorld sampleOwn ∧ Uniform sampleTradWorld false 1 ∧ ∀ i ∈ sampleTradWorld, TradOk i := by
  refine ⟨⟨?_, by decide, by decide⟩, ⟨by decide, by decide⟩, ?_⟩
  · intro i hi
    simp only [sampleTradWorld, List.mem_cons, List.not_mem_nil, or_false] at hi
    rcases hi with rfl | rfl
    · refine ⟨by decide, by decide, ?_⟩
      intro e he
      simp only [List.mem_cons, List.not_mem_nil, or_false] at he
      subst he; exact ⟨by decide, by decide, by decide⟩
    · refine ⟨by decide, by decide, ?_⟩
      intro e he
      simp only [List.mem_cons, List.not_mem_nil, or_false] at he
      subst he; exact ⟨by decide, by decide, by decide⟩
  · unfold TradOk; decide

/-- a traditional graph with a self-loop -/
def sampleLoop : List Input := [{ hyper := false, verts := [1, 2], wgts := [], types := [⟨[0, 1], [[1, 1], [1, 2]], []⟩] }]

/-- **negation witness for C11**: a traditional graph with a self-loop, correctly built, is rejected: the
degree of every edge is 2 but the pin iterator visits the vertex of a self-loop once. -/
theorem c11_self_loop_rejected : (∀ i ∈ sampleLoop, i.WF) ∧ (do
    let gs ← buildAll sampleLoop
    let gs ← constructGhosts gs [fun _ => none] (fun _ => [0]) (fun _ => [0])
    checkValidityAll gs 1 : Outcome _) = .ok [false] := by
  refine ⟨?_, by decide +kernel⟩
  intro i hi
  simp only [sampleLoop, List.mem_cons, List.not_mem_nil, or_false] at hi
  subst hi
  refine ⟨by decide, by decide, ?_⟩
  intro e he
  simp only [List.mem_cons, List.not_mem_nil, or_false] at he
  subst he; exact ⟨by decide, by decide, by decide⟩

/-- the hypothesis of `c11_validity_sound` is met by a built graph -/
example : (do
    let gs ← buildAll sampleLoop
    let gs ← (gs.zip [fun _ => none]).mapM (fun p => p.1.fillOwners p.2)
    return gs.map (fun g => g.checkValidity 2 (fun _ => 2) (fun _ => 4)) : Outcome _) = .ok [.ok false] ∧
  (do
    let gs ← buildAll sampleWorld
    let gs ← constructGhosts gs [fun v => some (sampleOwn v : Int), fun v => some (sampleOwn v : Int)]
      (fun _ => [1, 0]) (fun _ => [0, 1])
    return gs.map (fun g => g.checkValidity 3 (fun _ => 3) (fun _ => 5)) : Outcome _) =
    .ok [.ok true, .ok true] := by
  constructor <;> decide +kernel

end Verif.Agi
