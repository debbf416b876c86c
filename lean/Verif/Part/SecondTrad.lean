import Verif.Part.SecondProps
import Verif.Color.ColorEve
/-!
# C13 for edges of traditional graphs
-/
namespace Verif.Part
open Verif.Agi

/-- the adjacency created and visited, when the loops around an edge are known -/
theorem eve_core {g' : Graph} {hyper : Bool} {verts ghosts : List Gid} {types : List EdgeInput} (hc : CRep g' hyper verts ghosts types)
    (ht : 0 < types.length) {J : Nat → List Nat}
    (hJ : ∀ k, k < types[0].pins.length → GatherIs (eveGather g') (g'.getEdge k 0) ((J k).map (fun j => g'.getEdge j 0)))
    (compress : Bool) {ord : Handle → List Handle → List Handle} (ho : ∀ x l, (ord x l).Perm l) :
    ∃ g'' e0 o l, createEve g' 0 compress ord = .ok g'' ∧ g'.types[0]? = some (some e0) ∧
      g'' = { g' with types := g'.types.set 0 (some { e0 with eveOffsets := o, eveLists := l }) } ∧
      ∀ k (_ : k < types[0].pins.length), ∃ js : List Nat,
        (∀ fuel, js.length < fuel → visitEve g'' (g''.getEdge k 0) fuel = .ok (js.map (fun j => g''.getEdge j 0))) ∧
        (compress = false → js = J k) ∧ (compress = true → js.Nodup ∧ ∀ j, j ∈ js ↔ j ≠ k ∧ j ∈ J k) := by
  have hnt : 0 < g'.numTypes := by rw [hc.numTypes]; exact ht
  set E : Nat → Handle := fun j => g'.getEdge j 0 with hE
  have hEinj : ∀ a b, E a = E b → a = b := by
    intro a b hab
    have h1 := decode_getEdge (g := g') (l := a) hnt
    have h2 := decode_getEdge (g := g') (l := b) hnt
    simp only [hE] at hab
    rw [hab, h2] at h1
    simp at h1
    exact h1.symm
  obtain ⟨e0, hs0, hne, hcr⟩ := createEve_gen hc ht (L := fun k => (J k).map E) (lf := fun x => (x - 1) / g'.numTypes) hJ
    (by
      intro k hk x hx
      obtain ⟨j, -, rfl⟩ := List.mem_map.mp hx
      unfold edgeLid
      rw [decode_getEdge hnt]
      simp only [Outcome.bind_ok, Outcome.pure_eq, hE, Graph.getEdge, Nat.add_sub_cancel, Nat.add_zero]
      rw [Nat.mul_div_cancel_left _ hnt]) compress ho
  obtain ⟨e1, he1, -⟩ := hc.typ 0 ht
  have he01 : e0 = e1 := by
    have := Graph.slot_ok he1
    rw [hs0] at this
    exact Outcome.ok.inj this
  subst he01
  have htl : 0 < g'.types.length := by
    by_contra hc
    rw [List.getElem?_eq_none (by omega)] at he1
    exact absurd he1 (by simp)
  refine ⟨_, e0, _, _, hcr, he1, rfl, ?_⟩
  set R := rowsOf compress ord ((List.range types[0].pins.length).map (fun l => g'.getEdge l 0)) (fun k => (J k).map E) with hR
  have hRl : R.length = types[0].pins.length := by simp [hR, rowsOf]
  have hRu : ∀ k (hk : k < types[0].pins.length), R[k]'(by omega) = rowOf compress ord (E k) ((J k).map E) := by
    intro k hk
    simp [hR, rowsOf, hk, hE]
  have hmem : ∀ k x, x ∈ rowOf compress ord (E k) ((J k).map E) → x ∈ (J k).map E := by
    intro k x hx
    unfold rowOf at hx
    split at hx
    · exact mem_dedupL.mp (List.mem_of_mem_erase ((ho _ _).mem_iff.mp hx))
    · exact hx
  set back : Handle → Nat := fun x => (x - 1) / g'.numTypes with hback
  have hbE : ∀ j, back (E j) = j := by
    intro j
    simp only [hback, hE, Graph.getEdge, Nat.add_sub_cancel, Nat.add_zero]
    rw [Nat.mul_div_cancel_left _ hnt]
  intro k hk
  refine ⟨(rowOf compress ord (E k) ((J k).map E)).map back, ?_, ?_, ?_⟩
  · intro fuel hfu
    have hv := visitEve_gen (g := { g' with types := g'.types.set 0 (some { e0 with
        eveOffsets := some (Mem.ofList ((List.range (types[0].pins.length + 1)).map
          (fun k => (R.take k).flatten.length)))
        eveLists := Mem.ofList (R.flatten.map back) }) }) (slot_set htl) hnt hne hRl (lf := back) rfl rfl (by
      intro x hx
      obtain ⟨r, hr1, hr2⟩ := List.mem_flatten.mp hx
      obtain ⟨k', hk', rfl⟩ := List.mem_iff_getElem.mp hr1
      rw [hRu k' (by omega)] at hr2
      obtain ⟨j, -, rfl⟩ := List.mem_map.mp (hmem k' x hr2)
      show g'.getEdge (back (E j)) 0 = E j
      rw [hbE]) (u := k) (by omega) (fuel := fuel) (by rw [hRu k hk]; simpa using hfu)
    refine hv.trans ?_
    rw [hRu k hk, List.map_map]
    congr 1
    conv_lhs => rw [← List.map_id (rowOf compress ord (E k) ((J k).map E))]
    apply List.map_congr_left
    intro x hx
    obtain ⟨j, -, rfl⟩ := List.mem_map.mp (hmem k x hx)
    show E j = g'.getEdge (back (E j)) 0
    rw [hbE]
  · intro hcf
    subst hcf
    simp only [rowOf, Bool.false_eq_true, if_false, List.map_map]
    conv_rhs => rw [← List.map_id (J k)]
    exact List.map_congr_left (fun j _ => hbE j)
  · intro hct
    subst hct
    have hrow : ∀ x, x ∈ rowOf true ord (E k) ((J k).map E) ↔ x ≠ E k ∧ x ∈ (J k).map E := by
      intro x
      simp only [rowOf, if_true]
      rw [(ho _ _).mem_iff, (nodup_dedupL _).mem_erase_iff, mem_dedupL]
    refine ⟨?_, ?_⟩
    · apply List.Nodup.map_on
      · intro x hx y hy hxy
        obtain ⟨a, ha, rfl⟩ := List.mem_map.mp ((hrow x).mp hx).2
        obtain ⟨b, hb, rfl⟩ := List.mem_map.mp ((hrow y).mp hy).2
        rw [hbE, hbE] at hxy
        rw [hxy]
      · simp only [rowOf, if_true]
        exact (ho _ _).nodup_iff.mpr ((nodup_dedupL _).erase _)
    · intro j
      rw [List.mem_map]
      constructor
      · rintro ⟨x, hx, rfl⟩
        obtain ⟨h1, h2⟩ := (hrow x).mp hx
        obtain ⟨a, ha, rfl⟩ := List.mem_map.mp h2
        rw [hbE]
        exact ⟨fun hc => h1 (by rw [hc]), ha⟩
      · rintro ⟨h1, h2⟩
        exact ⟨E j, (hrow _).mpr ⟨fun hc => h1 (hEinj _ _ hc), List.mem_map.mpr ⟨j, h2, rfl⟩⟩, hbE j⟩

section
variable {g : Graph} {verts ghosts : List Gid} {types : List EdgeInput}

/-- the numbers of the edges that leave a vertex of the part -/
def leaving (verts : List Gid) (es : List (List Gid)) (v : Gid) : List Nat :=
  if v ∈ verts then List.range' (offs (fun u => degOf false es (verts.getD u 0)) (verts.idxOf v)) (degOf false es v) else []

/-- the edges of one end -/
theorem evePin_trad {own : Gid → Part} (h : CRep g false verts ghosts types) (ho : ORep g ghosts own)
    (hown : ∀ v ∈ ghosts, own v ≠ g.self) (ht : 0 < types.length) {β : Type} (f : β → Handle → Outcome β) {v : Gid} (hv : v ∈ verts ++ ghosts) (b : β) :
    evePin g f b (getVertex ((verts ++ ghosts).idxOf v)) =
      ((leaving verts types[0].pins v).map (fun j => g.getEdge j 0)).foldlM f b := by
  obtain ⟨e0, he0, hr0, -⟩ := h.typ 0 ht
  have hbd := bound_ge he0
  have hne := hr0.numE
  unfold evePin leaving
  rw [owner_eq h.v ho hv, Outcome.bind_ok]
  unfold ownerOf
  by_cases hvv : v ∈ verts
  · obtain ⟨u, hu, rfl⟩ := List.mem_iff_getElem.mp hvv
    rw [if_pos hvv, if_neg (by simp), (idxOf_eq_iff h.v.nodup hv hu).mpr rfl, if_pos hvv]
    obtain ⟨it2, e2, hy2⟩ := yields_edges_trad h ht hu
    have hi : verts.idxOf verts[u] = u := (List.nodup_append.mp h.v.nodup).1.idxOf_getElem u hu
    rw [e2, Outcome.bind_ok, iterLoop_plain _ _ hy2, hi]
    rw [List.length_map, List.length_range']
    have : degOf false types[0].pins verts[u] ≤ types[0].pins.length := by
      unfold degOf; simp only [Bool.false_eq_true, if_false]; exact List.countP_le_length
    omega
  · have hg : v ∈ ghosts := by
      rcases List.mem_append.mp hv with h1 | h1
      · exact absurd h1 hvv
      · exact h1
    rw [if_neg hvv, if_pos (hown v hg), if_neg hvv]
    rfl

/-- the destination of the `k`-th edge that leaves `v` -/
def dest (es : List (List Gid)) (v : Gid) (k : Nat) : Gid := (((es.filter (fun p => p[0]? == some v)).map (fun p => p.getD 1 0))).getD k 0

theorem dest_known (h : CRep g false verts ghosts types) (ht : 0 < types.length) {v : Gid} {k : Nat} (hk : k < degOf false types[0].pins v) :
    dest types[0].pins v k ∈ verts ++ ghosts ∧
      (adjOf false (verts ++ ghosts) types[0].pins v)[k]? = some ((verts ++ ghosts).idxOf (dest types[0].pins v k)) := by
  have hl : k < (types[0].pins.filter (fun p => p[0]? == some v)).length := by
    simpa [degOf, List.countP_eq_length_filter] using hk
  set p := (types[0].pins.filter (fun p => p[0]? == some v))[k] with hp
  have hpm : p ∈ types[0].pins := (List.mem_filter.mp (List.getElem_mem hl)).1
  have h2 := (h.wf _ (List.getElem_mem ht)).two rfl p hpm
  have hd : dest types[0].pins v k = p.getD 1 0 := by
    unfold dest
    rw [List.getD_eq_getElem?_getD, List.getElem?_map, List.getElem?_eq_getElem hl]
    rfl
  constructor
  · rw [hd]
    refine h.pins 0 ht _ (List.mem_flatten.mpr ⟨p, hpm, ?_⟩)
    rw [List.getD_eq_getElem?_getD, List.getElem?_eq_getElem (by omega)]
    exact List.getElem_mem _
  · unfold adjOf
    simp only [Bool.false_eq_true, if_false]
    rw [List.getElem?_map, List.getElem?_eq_getElem hl, hd]
    rfl

theorem bind_self {α : Type} (x : Outcome α) : (x >>= fun a => pure a) = x := by cases x <;> rfl

/-- the edges around the `k`-th edge that leaves a vertex -/
theorem gather_eve_trad {own : Gid → Part} (h : CRep g false verts ghosts types) (ho : ORep g ghosts own)
    (hown : ∀ v ∈ ghosts, own v ≠ g.self) (ht : 0 < types.length) {u : Nat} (hu : u < verts.length) {k : Nat}
    (hk : k < degOf false types[0].pins verts[u]) :
    GatherIs (eveGather g) (g.getEdge (offs (fun u => degOf false types[0].pins (verts.getD u 0)) u + k) 0)
      ((leaving verts types[0].pins verts[u] ++
        if dest types[0].pins verts[u] k = verts[u] then [] else leaving verts types[0].pins (dest types[0].pins verts[u] k)).map (fun j => g.getEdge j 0)) := by
  intro β f b
  obtain ⟨hd1, hd2⟩ := dest_known h ht hk
  have hk' : k < (adjOf false (verts ++ ghosts) types[0].pins verts[u]).length := by rwa [adjOf_length]
  have hp := pins_trad h ht hu hk'
  have hw : (adjOf false (verts ++ ghosts) types[0].pins verts[u])[k] = (verts ++ ghosts).idxOf (dest types[0].pins verts[u] k) := by
    rw [List.getElem?_eq_getElem hk'] at hd2
    exact Option.some.inj hd2
  rw [hw] at hp
  have hs : verts[u] ∈ verts ++ ghosts := List.mem_append_left _ (List.getElem_mem hu)
  have hui : getVertex u = getVertex ((verts ++ ghosts).idxOf verts[u]) := by rw [(idxOf_eq_iff h.v.nodup hs hu).mpr rfl]
  obtain ⟨e0, he0, hr0, -⟩ := h.typ 0 ht
  have hbd := bound_ge he0
  have hy := yields_pinIt_trad (g := g) h.hyp 0 (a := getVertex u) (b := getVertex ((verts ++ ghosts).idxOf (dest types[0].pins verts[u] k)))
    (by simp [getVertex]) (by simp [getVertex])
  unfold eveGather
  rw [hp, Outcome.bind_ok]
  by_cases hsd : dest types[0].pins verts[u] k = verts[u]
  · rw [if_pos hsd, List.append_nil]
    rw [hsd, hui, if_pos rfl] at hy
    rw [hsd, hui, iterLoop_plain _ _ hy (by simp; omega)]
    simp only [List.foldlM_cons, List.foldlM_nil, evePin_trad h ho hown ht f hs]
    exact bind_self _
  · have hne : getVertex u ≠ getVertex ((verts ++ ghosts).idxOf (dest types[0].pins verts[u] k)) := by
      intro he
      have : (verts ++ ghosts).idxOf (dest types[0].pins verts[u] k) = u := by
        simp only [getVertex] at he; omega
      exact hsd ((idxOf_eq_iff h.v.nodup hd1 hu).mp this)
    rw [if_neg hne] at hy
    rw [if_neg hsd, List.map_append, List.foldlM_append, iterLoop_plain _ _ hy (by simp; omega), hui]
    simp only [List.foldlM_cons, List.foldlM_nil, evePin_trad h ho hown ht f hs, evePin_trad h ho hown ht f hd1]
    refine congrArg (Outcome.bind _) ?_
    funext b'
    exact bind_self _

theorem offs_all (hnd : verts.Nodup) {es : List (List Gid)} (h2 : ∀ p ∈ es, p.length = 2) (hsrc : ∀ p ∈ es, p.getD 0 0 ∈ verts) :
    offs (fun u => degOf false es (verts.getD u 0)) verts.length = es.length := by
  have e1 : ∀ v, degOf false es v = (es.map (fun p => p.getD 0 0)).count v := by
    intro v
    unfold degOf
    simp only [Bool.false_eq_true, if_false]
    rw [List.count, List.countP_map]
    apply List.countP_congr
    intro p hp
    match p, h2 p hp with
    | [a, b], _ => simp
  have e2 := Verif.Color.sum_counts hnd (es.map (fun p => p.getD 0 0))
  rw [List.countP_eq_length.mpr (by
    intro v hv
    obtain ⟨p, hp, rfl⟩ := List.mem_map.mp hv
    simpa using hsrc p hp), List.length_map] at e2
  rw [← e2]
  unfold offs
  congr 1
  conv => rhs; rw [list_range verts 0, List.map_map]
  apply List.map_congr_left
  intro u _
  exact e1 _

end

/-- a graph that differs in the second adjacency of type 0 only reads the same -/
theorem CRep.of_eve {g g' : Graph} {hyper : Bool} {verts ghosts : List Gid} {types : List EdgeInput} (h : CRep g hyper verts ghosts types)
    {e0 : EType} {o : Option (Mem Nat)} {l : Mem Nat} (he : g.types[0]? = some (some e0))
    (hg : g' = { g with types := g.types.set 0 (some { e0 with eveOffsets := o, eveLists := l }) }) : CRep g' hyper verts ghosts types := by
  subst hg
  refine ⟨⟨h.v.nl, h.v.ng, h.v.nodup, h.v.map, h.v.loc, h.v.gho⟩, h.hyp, h.numTypes, ?_, h.pins, h.wf⟩
  intro t ht
  obtain ⟨e, h1, h2, h3⟩ := h.typ t ht
  by_cases h0 : t = 0
  · subst h0
    rw [he] at h1
    cases h1
    refine ⟨{ e0 with eveOffsets := o, eveLists := l }, ?_, ⟨h2.numE, h2.numP, h2.ids_len, h2.unmap, h2.pd, h2.pl, h2.deg_len, h2.deg, h2.adj, h2.list_len⟩, h3⟩
    have hlt : 0 < g.types.length := by
      by_contra hc
      rw [List.getElem?_eq_none (by omega)] at he
      cases he
    show (g.types.set 0 _)[0]? = _
    rw [List.getElem?_set_self hlt]
  · refine ⟨e, ?_, h2, h3⟩
    show (g.types.set 0 _)[t]? = _
    rw [List.getElem?_set_ne (Ne.symm h0)]
    exact h1

/-- what the second adjacency of the edges of type 0 of a traditional graph lists: `out v` are the numbers of the edges that leave `v`, `d` is where
an edge goes to -/
def EveIs (g : Graph) (compress : Bool) (verts : List Gid) (out : Gid → List Nat) : Prop :=
  ∀ v ∈ verts, ∃ hv, g.findGID v = .ok hv ∧ YieldsFrom (g.edges hv 0) g.iterEdge ((out v).map (fun j => g.getEdge j 0)) ∧
    ∀ n ∈ out v, ∃ hd d, g.vOf (g.getEdge n 0) = .ok hd ∧ g.globalID hd = .ok d ∧ ∃ js : List Nat,
      (∀ fuel, js.length < fuel → visitEve g (g.getEdge n 0) fuel = .ok (js.map (fun j => g.getEdge j 0))) ∧
      (compress = false → js = out v ++ if d ∈ verts ∧ d ≠ v then out d else []) ∧
      (compress = true → js.Nodup ∧ ∀ j, j ∈ js ↔ j ≠ n ∧ (j ∈ out v ∨ d ∈ verts ∧ j ∈ out d))

/-- **C13** for edges of a traditional graph, type 0, all starting on the part: after `create_eve_adjacency(0, compress)` the second adjacency of an
edge lists, uncompressed, the edges leaving its source and then, if its destination is another vertex of the part, those leaving the destination;
compressed exactly the other ones of these, each once.  Missing compared to C13: edges that only *enter* one of the two ends, which are not listed
(`c13_entering_missing`), and the other edge types. -/
theorem c13_eve_trad_partial (me : Part) (peers : Nat) (total : Int) (i : Input) (hwf : i.WF) (hh : i.hyper = false)
    (owns : GMap Part) (hown : ∀ v, v ∉ i.verts → (owns v).getD 0 ≠ me)
    (ht : 0 < i.types.length) (hsrc : ∀ p ∈ i.types[0].pins, p.getD 0 0 ∈ i.verts)
    (compress : Bool) (ord : Handle → List Handle → List Handle) (ho : ∀ x l, (ord x l).Perm l) :
    ∃ g g' g'' out, build me peers total i = .ok g ∧ g.fillOwners owns = .ok g' ∧ createEve g' 0 compress ord = .ok g'' ∧
      (∀ n, n < i.types[0].pins.length → ∃ v ∈ i.verts, n ∈ out v) ∧ EveIs g'' compress i.verts out := by
  obtain ⟨g, ghosts, e, hr⟩ := build_spec me peers total i hwf
  have hc0 := hr.core hwf
  rw [hh] at hc0
  obtain ⟨g', e', hor, hg⟩ := fillOwners_spec hc0.v owns
  have hs : g'.self = me := by rw [hg]; exact hr.rank
  have hc := hc0.of_eq hg
  have hnd := (List.nodup_append.mp hc.v.nodup).1
  have hdisj : ∀ v ∈ ghosts, v ∉ i.verts := fun v hv hv2 => (List.nodup_append.mp hc.v.nodup).2.2 v hv2 v hv rfl
  have hown' : ∀ v ∈ ghosts, (fun v => (owns v).getD 0) v ≠ g'.self := by rw [hs]; exact fun v hv => hown v (hdisj v hv)
  have h2 : ∀ p ∈ i.types[0].pins, p.length = 2 := (hwf.edges _ (List.getElem_mem ht)).two hh
  set es := i.types[0].pins with hes
  have hall := offs_all hnd h2 hsrc
  set c := fun u => degOf false es (i.verts.getD u 0) with hcd
  have hfind : ∀ n, n < es.length → ∃ u k, u < i.verts.length ∧ k < c u ∧ n = offs c u + k := by
    intro n hn
    exact Io.offs_find c i.verts.length n (by rw [hall]; exact hn)
  have hc1 : ∀ u (hu : u < i.verts.length), c u = degOf false es i.verts[u] := by intro u hu; simp [hcd, hu]
  -- the rows
  have hJ : ∃ J : Nat → List Nat, ∀ u (hu : u < i.verts.length) k, k < c u → J (offs c u + k) = leaving i.verts es i.verts[u] ++
      (if dest es i.verts[u] k = i.verts[u] then [] else leaving i.verts es (dest es i.verts[u] k)) := by
    have huniq : ∀ u u' k k', k < c u → k' < c u' → offs c u + k = offs c u' + k' → u = u' := by
      intro u u' k k' h1 h2 h3
      rcases Nat.lt_trichotomy u u' with h | h | h
      · have := offs_mono c (show u + 1 ≤ u' by omega)
        rw [offs_succ] at this
        omega
      · exact h
      · have := offs_mono c (show u' + 1 ≤ u by omega)
        rw [offs_succ] at this
        omega
    classical
    refine ⟨fun n => if hx : ∃ u k, ∃ hu : u < i.verts.length, k < c u ∧ n = offs c u + k then
      leaving i.verts es (i.verts[hx.choose]'hx.choose_spec.choose_spec.choose) ++
        (if dest es (i.verts[hx.choose]'hx.choose_spec.choose_spec.choose) (n - offs c hx.choose) = i.verts[hx.choose]'hx.choose_spec.choose_spec.choose then []
          else leaving i.verts es (dest es (i.verts[hx.choose]'hx.choose_spec.choose_spec.choose) (n - offs c hx.choose))) else [], ?_⟩
    intro u hu k hk
    have hx : ∃ u' k', ∃ _ : u' < i.verts.length, k' < c u' ∧ offs c u + k = offs c u' + k' := ⟨u, k, hu, hk, rfl⟩
    have hcu : hx.choose = u := (huniq _ _ _ _ hk hx.choose_spec.choose_spec.choose_spec.1 hx.choose_spec.choose_spec.choose_spec.2).symm
    simp only [dif_pos hx]
    simp only [hcu, Nat.add_sub_cancel_left]
  obtain ⟨J, hJ⟩ := hJ
  obtain ⟨g'', e0, o, l, hcr, he0, hg'', hv⟩ := eve_core hc ht (J := J) (by
    intro n hn
    obtain ⟨u, k, hu, hk, rfl⟩ := hfind n hn
    rw [hJ u hu k hk]
    rw [hc1 u hu] at hk
    exact gather_eve_trad hc hor hown' ht hu hk) compress ho
  have hc'' := CRep.of_eve hc he0 hg''
  have hout : ∀ u (hu : u < i.verts.length), leaving i.verts es i.verts[u] = List.range' (offs c u) (degOf false es i.verts[u]) := by
    intro u hu
    unfold leaving
    rw [if_pos (List.getElem_mem hu), hnd.idxOf_getElem u hu]
  refine ⟨g, g', g'', leaving i.verts es, e, e', hcr, ?_, ?_⟩
  · intro n hn
    obtain ⟨u, k, hu, hk, rfl⟩ := hfind n hn
    refine ⟨i.verts[u], List.getElem_mem hu, ?_⟩
    rw [hout u hu, List.mem_range'_1]
    rw [hc1 u hu] at hk
    omega
  · intro v hv'
    obtain ⟨u, hu, rfl⟩ := List.mem_iff_getElem.mp hv'
    refine ⟨getVertex u, ?_, ?_, ?_⟩
    · exact findGID_local hc''.v hu
    · rw [hout u hu]
      exact yields_edges_trad hc'' ht hu
    · intro n hn
      rw [hout u hu, List.mem_range'_1] at hn
      obtain ⟨k, rfl⟩ : ∃ k, n = offs c u + k := ⟨n - offs c u, by omega⟩
      have hk : k < degOf false es i.verts[u] := by omega
      have hk' : k < (adjOf false (i.verts ++ ghosts) es i.verts[u]).length := by rwa [adjOf_length]
      obtain ⟨hd1, hd2⟩ := dest_known hc'' ht hk
      have hlt : offs c u + k < es.length := by
        have := offs_mono c (show u + 1 ≤ i.verts.length by omega)
        rw [offs_succ, hall, hc1 u hu] at this
        omega
      obtain ⟨js, j1, j2, j3⟩ := hv _ hlt
      rw [List.getElem?_eq_getElem hk'] at hd2
      have hvo := vOf_eq hc'' ht hu hk'
      rw [Option.some.inj hd2] at hvo
      refine ⟨_, dest es i.verts[u] k, hvo, globalID_eq hc''.v hd1, js, j1, fun hcf => ?_, fun hct => ?_⟩
      · rw [j2 hcf, hJ u hu k (by rw [hc1 u hu]; exact hk)]
        congr 1
        by_cases he : dest es i.verts[u] k = i.verts[u]
        · rw [if_pos he, if_neg (fun hx => hx.2 he)]
        · rw [if_neg he]
          by_cases hm : dest es i.verts[u] k ∈ i.verts
          · rw [if_pos ⟨hm, he⟩]
          · rw [if_neg (fun hx => hm hx.1)]
            unfold leaving
            rw [if_neg hm]
      · refine ⟨(j3 hct).1, fun j => ?_⟩
        rw [(j3 hct).2 j, hJ u hu k (by rw [hc1 u hu]; exact hk), List.mem_append]
        refine and_congr_right fun _ => ?_
        by_cases he : dest es i.verts[u] k = i.verts[u]
        · rw [if_pos he, he]
          simp
        · rw [if_neg he]
          by_cases hm : dest es i.verts[u] k ∈ i.verts
          · simp [hm]
          · have : leaving i.verts es (dest es i.verts[u] k) = [] := by unfold leaving; rw [if_neg hm]
            simp [hm, this]

/-- `1 → 2`, `2 → 1`, `2 → 7` and the loop `2 → 2`; vertex 7 elsewhere -/
example : sampleT.WF ∧ sampleT.hyper = false ∧ (∀ v, v ∉ sampleT.verts → ((fun _ => some 3 : GMap Part) v).getD 0 ≠ 0) ∧
    0 < sampleT.types.length ∧ ∀ p ∈ (sampleT.types[0]'(by decide)).pins, p.getD 0 0 ∈ sampleT.verts :=
  ⟨sampleT_wf, rfl, fun _ _ => by simp, by decide, by decide⟩

/-- around `1 → 2` (number 0) are the three edges leaving 2; around `2 → 7` (number 2) the others leaving 2 -/
example : (do
    let g ← build 0 2 2 sampleT
    let g ← g.fillOwners (fun _ => some 3)
    let g ← createEve g 0 true (fun _ l => l)
    let a ← visitEve g (g.getEdge 0 0) 10
    let b ← visitEve g (g.getEdge 2 0) 10
    return (a, b, [1, 2, 3].map (fun k => g.getEdge k 0)) : Outcome _) = .ok ([2, 3, 4], [2, 4], [2, 3, 4]) := by decide +kernel

/-- **The claim of C13, carried over to edges of traditional graphs, is false**: `1 → 2` and `2 → 7` meet in 2, a vertex of the part, and the second adjacency of
`1 → 2` lists `2 → 7`; that of `2 → 7` does not list `1 → 2`. -/
theorem c13_entering_missing : (do
    let g ← build 0 2 2 sampleT
    let g ← g.fillOwners (fun _ => some 3)
    let g ← createEve g 0 true (fun _ l => l)
    let b ← visitEve g (g.getEdge 2 0) 10
    return (b, g.getEdge 0 0) : Outcome _) = .ok ([2, 4], 1) := by decide +kernel

end Verif.Part
