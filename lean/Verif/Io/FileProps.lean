import Verif.Io.FileLoad
import Verif.Agi.MigWitness
/-!
# Property C23: `saveToFile` then `loadFromFile`

`Same` and the hypotheses `FileOk`, `SourcesLocal` are in `FileSpec`.
-/
namespace Verif.Io
open Verif.Agi

section
variable {ins : List Input} {own : Gid → Nat} {hyper : Bool} {T : Nat} {owns : List (GMap Part)}
  {co : Option (Gid → Coord)} {o1 o2 o1' o2' : Nat → List Nat} {c : Codec}

/-- construction with coordinates, ghosts and original owners: hypergraphs and traditional graphs, any types -/
theorem setup_full (hd : Dist ins own) (hu : Uniform ins hyper T) (ho : OwnMaps ins own owns)
    (ho1 : Orders ins.length o1) (ho2 : Orders ins.length o2)
    (hs : hyper = false → ∀ i ∈ ins, SourcesLocal i) (co : Option (Gid → Coord)) :
    ∃ (gr : Nat → Graph) (GH : Nat → List Gid), setupAll ins co owns o1 o2 = .ok ((List.range ins.length).map gr) ∧
      ∀ p, p < ins.length → PF ins.length own (weightOf ins own) (edgeTotal ins own)
        (ins.map (fun i => (i.verts.length : Int))).sum p (gr p) (ins.getD p ⟨true, [], [], []⟩) (GH p) co ∧
        ∀ t, t < T → (gr p).numGlobalPins t = .ok (if hyper then pinTotal ins own t else 2 * edgeTotal ins own t) := by
  set n := ins.length with hn
  have hget : ∀ p (hp : p < n), ins.getD p ⟨true, [], [], []⟩ = ins[p] := by
    intro p hp; rw [List.getD_eq_getElem?_getD, List.getElem?_eq_getElem hp]; rfl
  have hins : ins = (List.range n).map (fun p => ins.getD p ⟨true, [], [], []⟩) := list_range ins _
  obtain ⟨g0, gr, GH, b1, b2, b3, b4⟩ := full_spec hd hu ho ho1 ho2
    (cs := fun p => co.map (fun f => (ins.getD p ⟨true, [], [], []⟩).verts.map f)) (by
      intro p hp l hl
      obtain ⟨f, -, rfl⟩ := Option.map_eq_some_iff.mp hl
      rw [hget p hp]; simp)
  rw [← hn] at b1 b2 b3 b4
  have e1 : (((List.range n).map g0).zip ins).mapM (fun x => x.1.giveCoords x.2.verts co) =
      .ok ((List.range n).map (fun p => { g0 p with coords := (co.map (fun f => (ins.getD p ⟨true, [], [], []⟩).verts.map f)).map Mem.ofList })) := by
    have : ((List.range n).map g0).zip ins = (List.range n).map (fun p => (g0 p, ins.getD p ⟨true, [], [], []⟩)) := by
      conv_lhs => rw [hins]
      exact zip_range _ _ _
    rw [this]
    apply mapM_range
    intro p hp
    rw [← b2 p hp]
    unfold Graph.giveCoords setCoordsOpt
    cases co <;> rfl
  refine ⟨fun p => (gr p).setOriginalOwners, GH, ?_, ?_⟩
  · unfold setupAll
    rw [b1, Outcome.bind_ok, e1, Outcome.bind_ok, b3, Outcome.bind_ok, List.map_map]
    rfl
  · intro p hp
    have hf := b4 p hp
    have hrep := hf.rep hp
    have hset : (gr p).setOriginalOwners =
        { gr p with originalOwners := some (Mem.ofList (List.replicate (gr p).numLocal (gr p).self)) } := by
      unfold Graph.setOriginalOwners
      simp only [hf.oo]
    simp only
    rw [hset, hget p hp]
    have hi := List.getElem_mem (l := ins) hp
    refine ⟨⟨hrep.of_orig _, hd.verts p hp, weightOf_verts hd.verts (fun i hi => (hd.wf i hi).nodup) hp, ?_, ?_, ?_, ?_, ?_, hf.gv⟩, fun t ht => hf.gp t ht⟩
    · intro hh
      exact hs ((hu.hyper _ hi).symm.trans hh) _ hi
    · simp only [hf.crd]
      cases co <;> rfl
    · intro f hfc v hv
      rw [vh_local hv]
      unfold Graph.coord
      have hlt := List.idxOf_lt_length_of_mem hv
      have hnl : (gr p).numLocal = ins[p].verts.length := hrep.core.v.nl
      have hcrd := hf.crd
      rw [hfc, hget p hp] at hcrd
      simp only [Option.map_some] at hcrd
      rw [vidx_getVertex, Outcome.bind_ok, if_neg (by simp only; omega)]
      simp only [hcrd, deref, Outcome.ofOption_some, Outcome.bind_ok]
      rw [Mem.load_ofList (by simpa using hlt), List.getElem_map, List.getElem_idxOf]
    · intro hne
      have hn1 : 1 < n := by
        obtain ⟨v, hv⟩ := List.exists_mem_of_ne_nil _ hne
        obtain ⟨h1, h2⟩ := (hrep.mem_ghosts v).mp hv
        obtain ⟨h3, h4⟩ := hd.pins p hp v h1
        by_contra hc
        have : own v = p := by omega
        exact h2 (by simpa [this] using h4)
      exact hf.gw hn1
    · intro t ht
      rw [hu.types _ hi] at ht
      exact hf.ge t ht

/-- **C23 (graphs as constructed).**  Any number of parts and types, hypergraph or traditional graph without
self-loops, with or without coordinates: writing all parts succeeds, on a machine of either byte order and
with the entries of the owner maps visited in any order; reading the files on as many parts - again either
byte order, any message order - succeeds; and every part then has the same graph (`Same`), the same number of
global pins.  The data have to fit the file format (`FileOk`).  Missing: self-loops, for which it is false
(`c23_self_loop_ub`). -/
theorem c23_roundtrip_partial (hd : Dist ins own) (hu : Uniform ins hyper T) (ho : OwnMaps ins own owns)
    (ho1 : Orders ins.length o1) (ho2 : Orders ins.length o2)
    (hs : hyper = false → ∀ i ∈ ins, SourcesLocal i) (hok : FileOk c ins co)
    (ord : List (Gid × Part) → List (Gid × Part)) (hord : ∀ l, (ord l).Perm l) (writer reader : Bool)
    (ho1' : Orders ins.length o1') (ho2' : Orders ins.length o2') :
    ∃ gs files gs', setupAll ins co owns o1 o2 = .ok gs ∧ saveFiles c writer ord gs = .ok files ∧
      loadFiles c reader files o1' o2' = .ok gs' ∧ gs.length = ins.length ∧ gs'.length = ins.length ∧
      ∀ p (h : p < gs.length) (h' : p < gs'.length), Same gs[p] gs'[p] ∧
        ∀ t, t < T → Agree (gs[p].numGlobalPins t) (gs'[p].numGlobalPins t) := by
  obtain ⟨gr, GH, e, hpf⟩ := setup_full hd hu ho ho1 ho2 hs co
  have hins : ins = (List.range ins.length).map (fun p => ins.getD p ⟨true, [], [], []⟩) := list_range ins _
  set n := ins.length with hn
  obtain ⟨files, gr', e1, e2, h⟩ := roundtrip (n := n) (own := own) (I := fun p => ins.getD p ⟨true, [], [], []⟩)
    (gr := gr) (GH := GH) (cop := fun _ => co) (co := co) (writer := writer) (reader := reader) (hyper := hyper) (T := T)
    (by rw [← hins]; exact hd) (by rw [← hins]; exact hu) (by rw [← hins]; exact hok) hord
    (fun p hp => (hpf p hp).1) (fun _ _ f hf => hf) (by rw [← hins]; intro t _; rfl) (by rw [← hins]) ho1' ho2'
  refine ⟨_, files, _, e, e1, e2, by simp, by simp, ?_⟩
  intro p hp hp'
  have hpn : p < n := by simpa using hp
  simp only [List.getElem_map, List.getElem_range]
  obtain ⟨h1, h2, -⟩ := h p hpn
  refine ⟨h1, fun t ht => ⟨_, (hpf p hpn).2 t ht, ?_⟩⟩
  rw [h2 t ht, ← hins]

end

/-- the sizes of a hypergraph and its data fit the file format wherever the vertices are -/
structure FileFits (c : Codec) (es : List HEdge) (ins : List Input) (co : Option (Gid → Coord)) : Prop where
  parts : ins.length < 2 ^ 32
  nv : (allVerts ins).length < 2 ^ 32
  verts : ∀ v ∈ allVerts ins, U32 v
  wts : ∀ i ∈ ins, ∀ w ∈ vertWeights i.verts i.wgts, c.Exact w
  edges : ∀ E ∈ es, U32 E.id ∧ c.Exact E.w
  ne : es.length < 2 ^ 32
  np : (es.map (fun E => E.pins.length)).sum < 2 ^ 32
  coords : ∀ f, co = some f → ∀ v ∈ allVerts ins, c.Exact (f v).1 ∧ c.Exact (f v).2.1 ∧ c.Exact (f v).2.2

section
variable {es : List HEdge} {ins : List Input} {own : Gid → Nat} {owns : List (GMap Part)} {o1 o2 o1' o2' : Nat → List Nat}
  {c : Codec} {co : Option (Gid → Coord)}

theorem sum_sublist {l l' : List Nat} (h : l.Sublist l') : l.sum ≤ l'.sum := by
  induction h with
  | slnil => simp
  | cons a _ ih => rw [List.sum_cons]; omega
  | cons_cons a _ ih => rw [List.sum_cons, List.sum_cons]; omega

theorem done_hdist {G : GG} {n : Nat} {own : Gid → Nat} {gr : Nat → Graph} {I : Nat → Input} {GH : Nat → List Gid}
    (hG : G.WF n own) (h : ∀ p, p < n → PartDone G own n p (gr p) (I p) (GH p)) :
    HDist [G.edges] ((List.range n).map I) own := by
  have hwf : ∀ p, p < n → (I p).WF := fun p hp =>
    ⟨(h p hp).nodup, by rw [(h p hp).one]; decide, fun e he => (h p hp).inv.rep.core.wf e he⟩
  refine ⟨?_, ?_, ?_, ?_, ?_, ?_, ?_⟩
  · intro i hi
    obtain ⟨p, hp, rfl⟩ := List.mem_map.mp hi
    exact hwf p (List.mem_range.mp hp)
  · intro i hi
    obtain ⟨p, hp, rfl⟩ := List.mem_map.mp hi
    exact (h p (List.mem_range.mp hp)).hyper
  · intro p hp v hv
    have hp' : p < n := by simpa using hp
    exact (((h p hp').inv.verts v).mp (by simpa using hv)).2
  · intro l hl E hE v hv
    simp only [List.mem_singleton] at hl
    subst hl
    have hvV := hG.pins E hE v hv
    have hlt := hG.own v hvV
    refine ⟨by simpa using hlt, ?_⟩
    simp only [List.getElem_map, List.getElem_range]
    exact ((h _ hlt).inv.verts v).mpr ⟨hvV, rfl⟩
  · intro l hl E hE
    simp only [List.mem_singleton] at hl
    subst hl
    exact hG.ne E hE
  · intro p hp
    have hp' : p < n := by simpa using hp
    simp only [List.getElem_map, List.getElem_range]
    exact (h p hp').one
  · intro p hp t ht ht'
    have hp' : p < n := by simpa using hp
    have h0 : t = 0 := by simpa using ht'
    subst h0
    simp only [List.getElem_map, List.getElem_range, List.getElem_cons_zero]
    rcases (h p hp').inv.shape with ⟨-, e, he, hperm⟩ | ⟨-, he, -⟩
    · simp only [he, List.getElem_cons_zero]
      exact hperm
    · have := (h p hp').one
      rw [he] at this; simp at this

/-- the sizes of a hypergraph and its data fit the file format, on `n` parts -/
structure FitsG (c : Codec) (G : GG) (n : Nat) : Prop where
  parts : n < 2 ^ 32
  nv : G.verts.length < 2 ^ 32
  verts : ∀ v ∈ G.verts, U32 v
  wts : ∀ v ∈ G.verts, c.Exact (G.wt v)
  edges : ∀ E ∈ G.edges, U32 E.id ∧ c.Exact E.w
  ne : G.edges.length < 2 ^ 32
  np : (G.edges.map (fun E => E.pins.length)).sum < 2 ^ 32
  coords : ∀ f, G.co = some f → ∀ v ∈ G.verts, c.Exact (f v).1 ∧ c.Exact (f v).2.1 ∧ c.Exact (f v).2.2

/-- saving and loading parts that hold a hypergraph -/
theorem reload_world {G : GG} {n : Nat} {own : Gid → Nat} {gr : Nat → Graph} {I : Nat → Input} {GH : Nat → List Gid} {c : Codec}
    {o1' o2' : Nat → List Nat}
    (hG : G.WF n own) (hdn : ∀ p, p < n → PartDone G own n p (gr p) (I p) (GH p)) (hok : FitsG c G n)
    {ord : List (Gid × Part) → List (Gid × Part)} (hord : ∀ l, (ord l).Perm l) (writer reader : Bool)
    (ho1' : Orders n o1') (ho2' : Orders n o2') :
    ∃ (files : List (List Nat)) (gr' : Nat → Graph) (I' : Nat → Input) (GH' : Nat → List Gid),
      saveFiles c writer ord ((List.range n).map gr) = .ok files ∧
      loadFiles c reader files o1' o2' = .ok ((List.range n).map gr') ∧
      ∀ p, p < n → Same (gr p) (gr' p) ∧
        PartDone { G with oo := fun v => (own v : Int) } own n p (gr' p).setOriginalOwners (I' p) (GH' p) := by
  have hhd := done_hdist hG hdn
  have hd := hhd.dist
  have hu := hdist_uniform hhd
  have hget : ∀ p, p < n → ∃ e, (I p).types = [e] ∧ e.edges.Perm (G.on (own) p) := by
    intro p hp
    rcases (hdn p hp).inv.shape with ⟨-, e, he, hperm⟩ | ⟨-, he, -⟩
    · exact ⟨e, he, hperm⟩
    · have := (hdn p hp).one
      rw [he] at this; simp at this
  have hmem : ∀ p, p < n → ∀ v ∈ (I p).verts, v ∈ G.verts := fun p hp v hv => (((hdn p hp).inv.verts v).mp hv).1
  have hwtE := hok.wts
  have hfok : FileOk c ((List.range n).map I) G.co := by
    refine ⟨by simpa using hok.parts, ?_, ?_, ?_, ?_⟩
    · intro i hi
      obtain ⟨p, hp, rfl⟩ := List.mem_map.mp hi
      rw [List.mem_range] at hp
      refine ⟨?_, fun v hv => hok.verts v (hmem p hp v hv), ?_⟩
      · have := (List.subperm_of_subset (hdn p hp).nodup (hmem p hp)).length_le
        have := hok.nv
        omega
      · intro w hw
        rw [(hdn p hp).inv.wts] at hw
        obtain ⟨v, hv, rfl⟩ := List.mem_map.mp hw
        exact hwtE v (hmem p hp v hv)
    · intro i hi e he
      obtain ⟨p, hp, rfl⟩ := List.mem_map.mp hi
      rw [List.mem_range] at hp
      obtain ⟨e', he', hperm⟩ := hget p hp
      have hee : e = e' := by rw [he'] at he; simpa using he
      subst hee
      have hwe : e.WF true := by
        have := (hdn p hp).inv.rep.core.wf e he
        rwa [(hdn p hp).hyper] at this
      have hsub : ∀ E ∈ e.edges, E ∈ G.edges := fun E hE => (GG.mem_on.mp (hperm.mem_iff.mp hE)).1
      have hlen : e.pins.length ≤ G.edges.length := by
        rw [← edges_length hwe, hperm.length_eq]
        exact List.length_filter_le _ _
      refine ⟨?_, ?_, ?_⟩
      · have := hok.ne; omega
      · intro x hx
        obtain ⟨k, hk, rfl⟩ := List.mem_iff_getElem.mp hx
        have h1 : k < e.pins.length := by rw [← hwe.ids_len]; exact hk
        have h2 : k < e.edges.length := by rw [edges_length hwe]; exact h1
        have h3 : k < e.weights.length := by rw [weights_length hwe]; exact h1
        have := hok.edges _ (hsub _ (List.getElem_mem h2))
        rw [edges_getElem h2 hk h1 h3] at this
        exact this.1
      · intro w hw
        obtain ⟨k, hk, rfl⟩ := List.mem_iff_getElem.mp hw
        have h1 : k < e.pins.length := by rw [← weights_length hwe]; exact hk
        have h2 : k < e.edges.length := by rw [edges_length hwe]; exact h1
        have h3 : k < e.ids.length := by rw [hwe.ids_len]; exact h1
        have := hok.edges _ (hsub _ (List.getElem_mem h2))
        rw [edges_getElem h2 h3 h1 hk] at this
        exact this.2
    · intro i hi
      obtain ⟨p, hp, rfl⟩ := List.mem_map.mp hi
      rw [List.mem_range] at hp
      obtain ⟨e', he', hperm⟩ := hget p hp
      have hwe : e'.WF true := by
        have := (hdn p hp).inv.rep.core.wf e' (by rw [he']; simp)
        rwa [(hdn p hp).hyper] at this
      have h1 : (I p).allPins.length = (e'.edges.map (fun E => E.pins.length)).sum := by
        unfold Input.allPins
        rw [he']
        simp only [List.map_cons, List.map_nil, List.flatten_cons, List.flatten_nil, List.append_nil]
        rw [← edges_pins hwe, List.length_flatten, List.map_map]; rfl
      have h2 : (e'.edges.map (fun E => E.pins.length)).sum ≤ (G.edges.map (fun E => E.pins.length)).sum := by
        rw [(hperm.map _).sum_nat]
        exact sum_sublist ((List.filter_sublist (l := G.edges)).map _)
      have := hok.np
      omega
    · intro f hf i hi v hv
      obtain ⟨p, hp, rfl⟩ := List.mem_map.mp hi
      exact hok.coords f hf v (hmem p (List.mem_range.mp hp) v hv)
  obtain ⟨files, gr', e2, e3, hS⟩ := roundtrip (n := n) (own := own) (wt := G.wt)
    (tot := fun _ => (G.edges.length : Int)) (tv := ((G.verts).length : Int)) (I := I) (gr := gr) (GH := GH)
    (cop := fun p => if (gr p).coords.isSome then G.co else none) (co := G.co) (writer := writer) (reader := reader)
    (hyper := true) (T := 1) (o1 := o1') (o2 := o2') (c := c) (ord := ord) hd hu hfok hord (by
      intro p hp
      have hp' := hdn p hp
      have hcase : (gr p).coords.isSome = true → G.co.isSome = true := by
        intro hc
        cases hco : G.co with
        | some f => rfl
        | none =>
          have := hp'.inv.cnone hco
          rw [this] at hc; simp at hc
      refine ⟨hp'.inv.rep, fun v hv => ((hp'.inv.verts v).mp hv).2, hp'.inv.wts, ?_, ?_, ?_, ?_, ?_, hp'.total⟩
      · intro hf
        rw [hp'.hyper] at hf; simp at hf
      · cases hg : (gr p).coords.isSome with
        | true => simp [hcase hg]
        | false => simp
      · intro f hf v hv
        have hco : G.co = some f := by
          split at hf
          · exact hf
          · exact absurd hf (by simp)
        have := hp'.coord hG hv hco
        unfold Graph.coordG at this
        rw [findGID_eq hp'.inv.rep.core.v (by simp [hv]), Outcome.bind_ok] at this
        exact this
      · intro hne
        have hn1 : 1 < n := by
          obtain ⟨v, hv⟩ := List.exists_mem_of_ne_nil _ hne
          obtain ⟨h1, h2⟩ := (hp'.inv.rep.mem_ghosts v).mp hv
          obtain ⟨h3, h4⟩ := (dist_at hd hp).2.2 v h1
          by_contra hc
          have : own v = p := by omega
          rw [this] at h4
          exact h2 h4
        exact hp'.ghostW hn1
      · intro t ht
        rw [hp'.one] at ht
        have h0 : t = 0 := by omega
        subst h0
        exact hp'.edges) (by
      intro p _ f hf
      split at hf
      · exact hf
      · exact absurd hf (by simp)) (by
      intro t ht
      have h0 : t = 0 := by omega
      subst h0
      have := hdist_edgeTotal hhd (t := 0) (by simp)
      exact this.symm) (by
      rw [List.map_map]
      exact (new_total (G := G) (W := fun p => (I p).verts) hG.nodup hG.own
        (fun p hp => ⟨(hdn p hp).nodup, (hdn p hp).inv.verts⟩)).symm) ho1' ho2'
  have hS' : ∀ p, ∃ GH' : List Gid, p < n → Same (gr p) (gr' p) ∧
      PartDone { G with oo := fun v => (own v : Int) } own n p (gr' p).setOriginalOwners (reread G.wt (I p)) GH' := by
    intro p
    by_cases hp : p < n
    swap
    · exact ⟨[], fun h => absurd h hp⟩
    obtain ⟨s1, s2, s3, GH', s4, s5, s6⟩ := hS p hp
    refine ⟨GH', fun _ => ⟨s1, ?_⟩⟩
    have hp' := hdn p hp
    have hwp : (I p).WF := by
      have := dist_at hd hp
      exact this.1
    have hr := s4.rep
    have hc := hr.core
    have e : (gr' p).setOriginalOwners = ({ gr' p with originalOwners := some (Mem.ofList (List.replicate (gr' p).numLocal (gr' p).self)) } : Graph) := by
      unfold Graph.setOriginalOwners
      rw [s3]
    have hrep : PartRep (gr' p).setOriginalOwners p n (reread G.wt (I p)) own GH' := by
      rw [e]
      exact ⟨⟨⟨hc.v.nl, hc.v.ng, hc.v.nodup, hc.v.map, hc.v.loc, hc.v.gho⟩, hc.hyp, hc.numTypes, hc.typ, hc.pins, hc.wf⟩,
        hr.rank, hr.peers, hr.owners, hr.weights, hr.ghosts_eq⟩
    refine ⟨⟨hrep, hp'.inv.verts, s4.wts, ?_, ?_, ?_, ?_⟩, ?_, hp'.hyper, ?_, ?_, ?_, ?_, ?_⟩
    · left
      obtain ⟨e', he', hperm⟩ := hget p hp
      refine ⟨hp'.hyper, ofHEdges (canon (I p).hyper (I p).verts e'), by simp [reread, he'], ?_⟩
      have h2 := (again hwp (fun hf => by rw [hp'.hyper] at hf; simp at hf) (e := e') (by rw [he']; simp)).2.1
      rw [hp'.hyper] at h2 ⊢
      simp only [canon, if_true] at h2 ⊢
      rw [h2]
      exact hperm
    · right
      rw [e]
      simp only
      congr 2
      rw [hc.v.nl, hr.rank]
      apply List.ext_getElem
      · simp
      · intro k h1 h2
        simp only [List.length_replicate] at h1
        simp only [List.getElem_replicate, List.getElem_map]
        have := ((hp'.inv.verts (I p).verts[k]).mp (List.getElem_mem h1)).2
        exact congrArg Int.ofNat this.symm
    · intro hco
      rw [e]
      show (gr' p).coords = none
      have hco' : G.co = none := hco
      rw [s5, hco']
      split <;> rfl
    · intro f hco
      have hco' : G.co = some f := hco
      rcases hp'.inv.csome f hco' with h0 | h0
      · exact .inl h0
      · right
        rw [e]
        show (gr' p).coords = _
        rw [s5, h0, hco']
        simp [reread]
    · have := hp'.one
      simpa [reread] using this
    · rw [e]; exact s4.gv
    · rw [e]
      exact s4.ge 0 (by have := hp'.one; simp [reread, this])
    · rw [e]
      show (gr' p).numGlobalPins 0 = _
      rw [s2 0 (by omega), if_pos rfl, hdist_pinTotal hhd (by simp)]
      rfl
    · intro hn; rw [e]; exact s6 hn
    · rw [e]; rfl
  choose GH' hGH' using hS'
  exact ⟨files, gr', fun p => reread G.wt (I p), GH', e2, e3, hGH'⟩

theorem FileFits.fitsG {es : List HEdge} {ins : List Input} {own : Gid → Nat} {owns : List (GMap Part)} {o1 o2 : Nat → List Nat}
    {c : Codec} {co : Option (Gid → Coord)} (h : Start es ins own owns o1 o2) (hok : FileFits c es ins co) :
    FitsG c (startG es ins own co) ins.length := by
  refine ⟨hok.parts, hok.nv, hok.verts, ?_, hok.edges, hok.ne, hok.np, hok.coords⟩
  intro v hv
  obtain ⟨h1, h2⟩ := (allVerts_own h.dist.verts).mp hv
  apply hok.wts _ (List.getElem_mem h1)
  rw [weightOf_verts h.dist.verts (fun i hi => (h.dist.wf i hi).nodup) h1]
  exact List.mem_map.mpr ⟨v, h2, rfl⟩

/-- **C23 (after migrations).**  The same for a hypergraph with one edge type after any sequence of
migrations.  (Missing: several types, where migration itself is broken, see C17.) -/
theorem c23_after_migration_partial (h : Start es ins own owns o1 o2) (rs : List Round)
    (hr : RoundsOk (allVerts ins) ins.length co.isSome own rs) (hok : FileFits c es ins co)
    (ord : List (Gid × Part) → List (Gid × Part)) (hord : ∀ l, (ord l).Perm l) (writer reader : Bool)
    (ho1' : Orders ins.length o1') (ho2' : Orders ins.length o2') :
    ∃ gs0 gs files gs', setupAll ins co owns o1 o2 = .ok gs0 ∧ migrateRounds gs0 rs = .ok gs ∧
      saveFiles c writer ord gs = .ok files ∧ loadFiles c reader files o1' o2' = .ok gs' ∧
      gs.length = ins.length ∧ gs'.length = ins.length ∧
      ∀ p (h : p < gs.length) (h' : p < gs'.length), Same gs[p] gs'[p] := by
  obtain ⟨hG, gs0, gs, e0, e1, gr, I, GH, rfl, hdn⟩ := run_spec h co rs hr
  obtain ⟨files, gr', I', GH', e2, e3, hS⟩ := reload_world hG hdn (hok.fitsG h) hord writer reader ho1' ho2'
  refine ⟨gs0, _, files, _, e0, e1, e2, e3, by simp, by simp, ?_⟩
  intro p hp hp'
  simp only [List.getElem_map, List.getElem_range]
  exact (hS p (by simpa using hp)).1

end

end Verif.Io
