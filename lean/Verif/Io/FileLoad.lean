import Verif.Io.FileCore
/-!
# Lemmas: saving all parts and loading the files
-/
namespace Verif.Io
open Verif.Agi

/-- the types of a part as written -/
def written (i : Input) : List (List HEdge) := i.types.map (canon i.hyper i.verts)

theorem mem_pinsOf {types : List (List HEdge)} {v : Gid} :
    v ∈ pinsOf types ↔ ∃ es ∈ types, ∃ E ∈ es, v ∈ E.pins := by
  unfold pinsOf
  rw [List.mem_flatMap]
  constructor
  · rintro ⟨es, he, hv⟩
    obtain ⟨E, hE, h⟩ := List.mem_flatMap.mp hv
    exact ⟨es, he, E, hE, h⟩
  · rintro ⟨es, he, E, hE, h⟩
    exact ⟨es, he, List.mem_flatMap.mpr ⟨E, hE, h⟩⟩

theorem pinsOf_written {i : Input} (hw : i.WF) (hs : i.hyper = false → SourcesLocal i) (v : Gid) :
    v ∈ pinsOf (written i) ↔ v ∈ i.allPins := by
  rw [mem_pinsOf, ← reread_allPins (wt := fun _ => 1) hw hs, mem_allPins]
  constructor
  · rintro ⟨es, he, E, hE, hv⟩
    obtain ⟨e, he', rfl⟩ := List.mem_map.mp he
    exact ⟨_, List.mem_map.mpr ⟨e, he', rfl⟩, E.pins, List.mem_map.mpr ⟨E, hE, rfl⟩, hv⟩
  · rintro ⟨e, he, x, hx, hv⟩
    obtain ⟨e0, he0, rfl⟩ := List.mem_map.mp he
    obtain ⟨E, hE, rfl⟩ := List.mem_map.mp hx
    exact ⟨_, List.mem_map.mpr ⟨e0, he0, rfl⟩, E, hE, hv⟩

theorem canon_ids {hyper : Bool} {verts : List Gid} {e : EdgeInput} (h : e.WF hyper) (hl : e.pins.length < 2 ^ 32)
    (hi : ∀ x ∈ e.ids, U32 x) {E : HEdge} (hE : E ∈ canon hyper verts e) : U32 E.id ∧ E.w ∈ e.weights := by
  have hwl := weights_length h
  cases hyper with
  | true =>
    obtain ⟨k, hk, rfl⟩ := List.mem_iff_getElem.mp hE
    have h1 : k < e.pins.length := by rw [canon_length h] at hk; exact hk
    have h2 : k < e.ids.length := by rw [h.ids_len]; exact h1
    have : (canon true verts e)[k] = ⟨e.ids[k], e.pins[k], e.weights[k]'(by omega)⟩ :=
      edges_getElem hk h2 h1 (by omega)
    rw [this]
    exact ⟨hi _ (List.getElem_mem h2), List.getElem_mem _⟩
  | false =>
    rw [canon_false] at hE
    obtain ⟨k, hk, rfl⟩ := List.mem_map.mp hE
    rw [List.mem_range] at hk
    refine ⟨⟨Int.natCast_nonneg k, ?_⟩, ?_⟩
    · have : ((k : Nat) : Int) < 2 ^ 32 := by omega
      exact this
    · simp only
      rw [List.getD_eq_getElem?_getD, List.getElem?_eq_getElem (by omega), Option.getD_some]
      exact List.getElem_mem _

section
variable {n : Nat} {own : Gid → Nat} {wt : Gid → Wgt} {tot : Nat → Int} {tv : Int} {hyper : Bool} {T : Nat}
  {I : Nat → Input} {gr : Nat → Graph} {GH : Nat → List Gid} {cop : Nat → Option (Gid → Coord)}
  {co : Option (Gid → Coord)} {c : Codec} {writer reader : Bool} {ord : List (Gid × Part) → List (Gid × Part)}
  {o1 o2 : Nat → List Nat}

/-- the file of part `p` -/
def fileOf (c : Codec) (writer : Bool) (ord : List (Gid × Part) → List (Gid × Part)) (own : Gid → Nat) (wt : Gid → Wgt)
    (cop : Option (Gid → Coord)) (p : Nat) (i : Input) : List Nat :=
  fileBytes c writer i.hyper (i.verts.map (fun v => (v, wt v))) (cop.map (fun f => i.verts.map f)) (written i)
    (ord (ownsOf own p (pinsOf (written i))))

theorem mem_I {p : Nat} (hp : p < n) : I p ∈ (List.range n).map I :=
  List.mem_map.mpr ⟨p, List.mem_range.mpr hp, rfl⟩

theorem dist_at (hd : Dist ((List.range n).map I) own) {p : Nat} (hp : p < n) :
    (I p).WF ∧ (∀ v ∈ (I p).verts, own v = p) ∧ ∀ v ∈ (I p).allPins, own v < n ∧ v ∈ (I (own v)).verts := by
  refine ⟨hd.wf _ (mem_I hp), ?_, ?_⟩
  · intro v hv
    exact hd.verts p (by simpa using hp) v (by simpa using hv)
  · intro v hv
    obtain ⟨h1, h2⟩ := hd.pins p (by simpa using hp) v (by simpa using hv)
    exact ⟨by simpa using h1, by simpa using h2⟩

theorem deg_le {i : Input} (hw : i.WF) (hs : i.hyper = false → SourcesLocal i) {es : List HEdge} (he : es ∈ written i)
    {E : HEdge} (hE : E ∈ es) : E.pins.length ≤ i.allPins.length := by
  obtain ⟨e, he', rfl⟩ := List.mem_map.mp he
  have hm := canon_pins (hw.edges e he') hw.nodup (fun hf => hs hf e he') hE
  have h1 := (List.sublist_flatten_of_mem hm).length_le
  have h2 : e.pins.flatten.length ≤ i.allPins.length := by
    unfold Input.allPins
    have hmm : e.pins.flatten ∈ i.types.map (fun e => e.pins.flatten) := List.mem_map.mpr ⟨e, he', rfl⟩
    exact (List.sublist_flatten_of_mem hmm).length_le
  omega

theorem fits_at (hd : Dist ((List.range n).map I) own) (hok : FileOk c ((List.range n).map I) co)
    (hord : ∀ l, (ord l).Perm l) {p : Nat} (hp : p < n) (hpf : PF n own wt tot tv p (gr p) (I p) (GH p) (cop p))
    (hcop : ∀ f, cop p = some f → co = some f) :
    Fits c ((I p).verts.map (fun v => (v, wt v))) ((cop p).map (fun f => (I p).verts.map f)) (written (I p))
      (ord (ownsOf own p (pinsOf (written (I p))))) := by
  obtain ⟨hw, hv, hpins⟩ := dist_at hd hp
  have hm := mem_I (I := I) hp
  obtain ⟨v1, v2, v3⟩ := hok.verts _ hm
  have hpu : ∀ v ∈ pinsOf (written (I p)), U32 v ∧ own v < n := by
    intro v hv
    obtain ⟨h1, h2⟩ := hpins v ((pinsOf_written hw hpf.src v).mp hv)
    exact ⟨(hok.verts _ (mem_I (I := I) h1)).2.1 v h2, h1⟩
  obtain ⟨s1, s2⟩ := ownsOf_spec (own := own) (p := p) (pins := pinsOf (written (I p))) (fun v hv => (hpu v hv).1)
  refine ⟨by simpa using v1, ?_, ?_, ?_, ?_, ?_, ?_⟩
  · intro x hx
    obtain ⟨v, hv', rfl⟩ := List.mem_map.mp hx
    refine ⟨v2 v hv', v3 _ ?_⟩
    rw [hpf.wts]; exact List.mem_map.mpr ⟨v, hv', rfl⟩
  · intro cs hcs
    obtain ⟨f, hf, rfl⟩ := Option.map_eq_some_iff.mp hcs
    refine ⟨by simp, ?_⟩
    intro x hx
    obtain ⟨v, hv', rfl⟩ := List.mem_map.mp hx
    exact hok.coords f (hcop f hf) _ hm v hv'
  · have := hw.types_le
    simp only [written, List.length_map]
    unfold maxTypes at this; omega
  · intro es hes
    have hdeg := fun E hE => deg_le hw hpf.src hes (E := E) hE
    obtain ⟨e, he, rfl⟩ := List.mem_map.mp hes
    obtain ⟨e1, e2, e3⟩ := hok.edges _ hm e he
    have hwe := hw.edges e he
    refine ⟨by rw [canon_length hwe]; exact e1, ?_⟩
    intro E hE
    obtain ⟨a, b⟩ := canon_ids hwe e1 e2 hE
    refine ⟨a, e3 _ b, ?_, ?_⟩
    · have h1 := hdeg E hE
      have h2 := hok.pins _ hm
      omega
    · intro v hv'
      exact (hpu v (mem_pinsOf.mpr ⟨_, hes, E, hE, hv'⟩)).1
  · rw [(hord _).length_eq]
    have h1 : ((ownsOf own p (pinsOf (written (I p)))).map Prod.fst).Subperm (I p).allPins := by
      apply List.subperm_of_subset s1
      intro v hv'
      obtain ⟨x, hx, rfl⟩ := List.mem_map.mp hv'
      exact (pinsOf_written hw hpf.src _).mp ((s2 x).mp hx).1
    have h2 := h1.length_le
    have h3 := hok.pins _ hm
    rw [List.length_map] at h2
    omega
  · intro x hx
    obtain ⟨h1, h2, h3⟩ := (s2 x).mp ((hord _).mem_iff.mp hx)
    obtain ⟨h4, h5⟩ := hpu _ h1
    refine ⟨h4, ?_⟩
    rw [h3]
    have h6 := hok.parts
    simp only [List.length_map, List.length_range] at h6
    exact ⟨by omega, by omega⟩

theorem save_at (hd : Dist ((List.range n).map I) own) (hok : FileOk c ((List.range n).map I) co)
    (hord : ∀ l, (ord l).Perm l) {p : Nat} (hp : p < n) (hpf : PF n own wt tot tv p (gr p) (I p) (GH p) (cop p)) :
    saveFile c writer ord (gr p) = .ok (fileOf c writer ord own wt (cop p) p (I p)) := by
  obtain ⟨hw, -, -⟩ := dist_at hd hp
  have hm := mem_I (I := I) hp
  rw [hpf.shows.save hord]
  · rw [ezOf_snd, hpf.rep.core.hyp]; rfl
  · intro es hes x hx
    have h1 : es.map Prod.snd ∈ written (I p) := by
      unfold written
      rw [← ezOf_snd (gr p)]
      exact List.mem_map.mpr ⟨es, hes, rfl⟩
    have h2 := deg_le hw hpf.src h1 (List.mem_map.mpr ⟨x, hx, rfl⟩)
    have h3 := hok.pins _ hm
    omega

/-- the owner map found in the file -/
def ownsRead (ord : List (Gid × Part) → List (Gid × Part)) (own : Gid → Nat) (p : Nat) (i : Input) : GMap Part :=
  (ord (ownsOf own p (pinsOf (written i)))).foldl (fun (m : GMap Part) x => m.put x.1 x.2) GMap.empty

theorem parse_at (hd : Dist ((List.range n).map I) own) (hok : FileOk c ((List.range n).map I) co)
    (hord : ∀ l, (ord l).Perm l) {p : Nat} (hp : p < n) (hpf : PF n own wt tot tv p (gr p) (I p) (GH p) (cop p))
    (hcop : ∀ f, cop p = some f → co = some f) :
    parseFile c reader (fileOf c writer ord own wt (cop p) p (I p)) =
      .ok ⟨reread wt (I p), (cop p).map (fun f => (I p).verts.map f), ownsRead ord own p (I p)⟩ := by
  unfold fileOf
  rw [parseFile_eq (fits_at hd hok hord hp hpf hcop)]
  simp only [reread, written, ownsRead, List.map_map, Function.comp_def, List.map_id']

theorem reread_total (hd : Dist ((List.range n).map I) own)
    (hs : ∀ p, p < n → (I p).hyper = false → SourcesLocal (I p)) (t p : Nat) :
    contribution ((List.range n).map (fun p => reread wt (I p))) own t p = contribution ((List.range n).map I) own t p := by
  unfold contribution
  by_cases hp : p < n
  · rw [List.getElem?_map, List.getElem?_map, List.getElem?_range hp]
    simp only [Option.map_some]
    obtain ⟨hw, -, -⟩ := dist_at hd hp
    have hty : (reread wt (I p)).types[t]? = ((I p).types[t]?).map (fun e => ofHEdges (canon (I p).hyper (I p).verts e)) := by
      simp [reread]
    rw [hty]
    by_cases ht : t < (I p).types.length
    · rw [List.getElem?_eq_getElem ht]
      simp only [Option.map_some]
      obtain ⟨-, -, -, -, a1, a2⟩ := again hw (hs p hp) (List.getElem_mem ht)
      have : (reread wt (I p)).hyper = (I p).hyper := rfl
      rw [this]
      by_cases hh : (I p).hyper = true
      · rw [if_pos hh, if_pos hh, a1 hh]
      · rw [if_neg hh, if_neg hh, a2]
    · rw [List.getElem?_eq_none (by omega)]
      simp
  · have h1 : ((List.range n).map (fun p => reread wt (I p)))[p]? = none := List.getElem?_eq_none (by simp; omega)
    have h2 : ((List.range n).map I)[p]? = none := List.getElem?_eq_none (by simp; omega)
    rw [h1, h2]

/-- saving and loading all parts -/
theorem roundtrip (hd : Dist ((List.range n).map I) own) (hu : Uniform ((List.range n).map I) hyper T)
    (hok : FileOk c ((List.range n).map I) co) (hord : ∀ l, (ord l).Perm l)
    (hpf : ∀ p, p < n → PF n own wt tot tv p (gr p) (I p) (GH p) (cop p))
    (hcop : ∀ p, p < n → ∀ f, cop p = some f → co = some f)
    (htot : ∀ t, t < T → tot t = edgeTotal ((List.range n).map I) own t)
    (htv : tv = (((List.range n).map I).map (fun i => (i.verts.length : Int))).sum)
    (ho1 : Orders n o1) (ho2 : Orders n o2) :
    ∃ files gr', saveFiles c writer ord ((List.range n).map gr) = .ok files ∧
      loadFiles c reader files o1 o2 = .ok ((List.range n).map gr') ∧
      ∀ p, p < n → Same (gr p) (gr' p) ∧ (∀ t, t < T → (gr' p).numGlobalPins t =
        .ok (if hyper then pinTotal ((List.range n).map I) own t else 2 * edgeTotal ((List.range n).map I) own t)) ∧
        (gr' p).originalOwners = none ∧ ∃ GH' : List Gid, PF n own wt tot tv p (gr' p) (reread wt (I p)) GH' (cop p) ∧
          (gr' p).coords = (cop p).map (fun f => Mem.ofList ((I p).verts.map f)) ∧
          (1 < n → (gr' p).ghostWeights = some (Mem.ofList (GH'.map wt))) := by
  have hsl : ∀ p, p < n → (I p).hyper = false → SourcesLocal (I p) := fun p hp => (hpf p hp).src
  have e1 : saveFiles c writer ord ((List.range n).map gr) =
      .ok ((List.range n).map (fun p => fileOf c writer ord own wt (cop p) p (I p))) := by
    unfold saveFiles
    exact mapM_range (fun p hp => save_at hd hok hord hp (hpf p hp))
  have e2 : ((List.range n).map (fun p => fileOf c writer ord own wt (cop p) p (I p))).mapM (parseFile c reader) =
      .ok ((List.range n).map (fun p => ⟨reread wt (I p), (cop p).map (fun f => (I p).verts.map f), ownsRead ord own p (I p)⟩)) :=
    mapM_range (fun p hp => parse_at hd hok hord hp (hpf p hp) (hcop p hp))
  set ins' := (List.range n).map (fun p => reread wt (I p)) with hins'
  have hl' : ins'.length = n := by simp [hins']
  have hget' : ∀ p (h : p < ins'.length), ins'[p] = reread wt (I p) := by intro p h; simp [hins']
  have hd' : Dist ins' own := by
    refine ⟨?_, ?_, ?_⟩
    · intro i hi
      obtain ⟨p, hp, rfl⟩ := List.mem_map.mp hi
      rw [List.mem_range] at hp
      exact reread_wf (dist_at hd hp).1 (hsl p hp)
    · intro p hp v hv
      rw [hget' p hp] at hv
      rw [hl'] at hp
      exact (dist_at hd hp).2.1 v hv
    · intro p hp v hv
      rw [hget' p hp] at hv
      rw [hl'] at hp
      obtain ⟨hw, -, h3⟩ := dist_at hd hp
      obtain ⟨h4, h5⟩ := h3 v ((reread_allPins hw (hsl p hp) v).mp hv)
      refine ⟨by rw [hl']; exact h4, ?_⟩
      rw [hget' _ _]
      exact h5
  have hu' : Uniform ins' hyper T := by
    refine ⟨?_, ?_⟩
    · intro i hi
      obtain ⟨p, hp, rfl⟩ := List.mem_map.mp hi
      exact hu.hyper (I p) (mem_I (List.mem_range.mp hp))
    · intro i hi
      obtain ⟨p, hp, rfl⟩ := List.mem_map.mp hi
      have := hu.types (I p) (mem_I (List.mem_range.mp hp))
      simpa [reread] using this
  have ho' : OwnMaps ins' own ((List.range n).map (fun p => ownsRead ord own p (I p))) := by
    refine ⟨by simp [hl'], ?_⟩
    intro p hp hp2 v hv hnv
    rw [hget' p hp] at hv hnv
    rw [hl'] at hp
    obtain ⟨hw, h2, h3⟩ := dist_at hd hp
    have hva := (reread_allPins hw (hsl p hp) v).mp hv
    obtain ⟨h4, h5⟩ := h3 v hva
    simp only [List.getElem_map, List.getElem_range]
    have hpu : ∀ v ∈ pinsOf (written (I p)), U32 v := by
      intro v hv
      obtain ⟨h1, h2⟩ := h3 v ((pinsOf_written hw (hsl p hp) v).mp hv)
      exact (hok.verts _ (mem_I (I := I) h1)).2.1 v h2
    obtain ⟨s1, s2⟩ := ownsOf_spec (own := own) (p := p) hpu
    unfold ownsRead
    apply fold_put
    · exact ((hord _).map Prod.fst).nodup_iff.mpr s1
    · rw [(hord _).mem_iff, s2]
      refine ⟨(pinsOf_written hw (hsl p hp) v).mpr hva, ?_, rfl⟩
      intro hc
      simp only at hc
      rw [hc] at h5
      exact hnv h5
  have ho1' : Orders ins'.length o1 := by rw [hl']; exact ho1
  have ho2' : Orders ins'.length o2 := by rw [hl']; exact ho2
  obtain ⟨g0, gr', GH', b1, b2, b3, b4⟩ := full_spec hd' hu' ho' ho1' ho2'
    (cs := fun p => (cop p).map (fun f => (I p).verts.map f)) (by
      intro p hp l hl
      obtain ⟨f, -, rfl⟩ := Option.map_eq_some_iff.mp hl
      rw [hget' p hp]
      simp [reread])
  rw [hl'] at b1 b2 b3 b4
  refine ⟨_, gr', e1, ?_, ?_⟩
  · unfold loadFiles
    rw [e2, Outcome.bind_ok, List.map_map]
    have hi : (List.range n).map (FileData.input ∘ fun p => (⟨reread wt (I p), (cop p).map (fun f => (I p).verts.map f), ownsRead ord own p (I p)⟩ : FileData)) = ins' := rfl
    rw [hi, b1, Outcome.bind_ok, zip_range, mapM_range (fun p hp => b2 p hp), Outcome.bind_ok, List.map_map]
    exact b3
  · intro p hp
    have hpf' := hpf p hp
    obtain ⟨hw, hlv, hpv⟩ := dist_at hd hp
    have hf := b4 p hp
    have hrep := hf.rep (by rw [hl']; exact hp)
    rw [hget' p _] at hrep
    rw [hl'] at hrep
    have hvw : ∀ q, q < n → vertWeights (reread wt (I q)).verts (reread wt (I q)).wgts = (I q).verts.map wt := by
      intro q _
      unfold vertWeights reread
      apply List.ext_getElem
      · simp
      · intro k h1 h2
        have hk : k < (I q).verts.length := by simpa using h2
        simp [hk]
    have hwo : ∀ v, own v < n → v ∈ (I (own v)).verts → weightOf ins' own v = wt v := by
      intro v h1 h2
      have := weightOf_verts (own := own) hd'.verts (fun i hi => (hd'.wf i hi).nodup) (p := own v) (by rw [hl']; exact h1)
      rw [hget' _ _, hvw _ h1] at this
      have h3 : ∀ (l : List Gid), l.map wt = l.map (weightOf ins' own) → ∀ v ∈ l, weightOf ins' own v = wt v := by
        intro l hl v hv
        exact (List.map_inj_left.mp hl v hv).symm
      exact h3 _ this v h2
    have hmg : ∀ v ∈ GH' p, v ∈ (I p).allPins ∧ v ∉ (I p).verts := by
      intro v hv
      obtain ⟨h1, h2⟩ := (hrep.mem_ghosts v).mp hv
      exact ⟨(reread_allPins hw (hsl p hp) v).mp h1, h2⟩
    have htot' : ∀ t, edgeTotal ins' own t = edgeTotal ((List.range n).map I) own t := by
      intro t
      unfold edgeTotal
      rw [hl', List.length_map, List.length_range]
      congr 1
      apply List.map_congr_left
      intro q _
      rw [hins', reread_total hd hsl]
    have hptot' : ∀ t, pinTotal ins' own t = pinTotal ((List.range n).map I) own t := by
      intro t
      unfold pinTotal
      rw [hl', List.length_map, List.length_range]
      congr 1
      apply List.map_congr_left
      intro q _
      rw [hins', reread_total hd hsl]
    have hcoords := hf.crd
    have hgw' : 1 < n → (gr' p).ghostWeights = some (Mem.ofList ((GH' p).map wt)) := by
      intro hn1
      rw [hf.gw (by rw [hl']; exact hn1)]
      congr 2
      apply List.map_congr_left
      intro v hv
      obtain ⟨h1, -⟩ := hmg v hv
      exact hwo v (hpv v h1).1 (hpv v h1).2
    have hPF' : PF n own wt tot tv p (gr' p) (reread wt (I p)) (GH' p) (cop p) := by
      refine ⟨hrep, hlv, hvw p hp, ?_, ?_, ?_, ?_, ?_, ?_⟩
      · intro hh e he x hx
        obtain ⟨e0, he0, rfl⟩ := List.mem_map.mp he
        exact hsl p hp hh e0 he0 x ((again hw (hsl p hp) he0).2.2.2.1.mem_iff.mp hx)
      · rw [hcoords]; cases cop p <;> rfl
      · intro f hfc v hv
        have hv' : v ∈ (I p).verts := hv
        rw [vh_local hv]
        unfold Graph.coord
        have hlt := List.idxOf_lt_length_of_mem hv
        have hnl : (gr' p).numLocal = (I p).verts.length := hrep.core.v.nl
        have hlt' : (I p).verts.idxOf v < (I p).verts.length := hlt
        have hid : (reread wt (I p)).verts.idxOf v = (I p).verts.idxOf v := rfl
        rw [vidx_getVertex, Outcome.bind_ok, hid, if_neg (by omega), hcoords, hfc]
        simp only [Option.map_some, deref, Outcome.ofOption_some, Outcome.bind_ok]
        rw [Mem.load_ofList (by simpa using hlt'), List.getElem_map, List.getElem_idxOf]
      · intro hne
        have hn1 : 1 < n := by
          obtain ⟨v, hv⟩ := List.exists_mem_of_ne_nil _ hne
          obtain ⟨h1, h2⟩ := hmg v hv
          obtain ⟨h3, h4⟩ := hpv v h1
          by_contra hc
          have : own v = p := by omega
          rw [this] at h4
          exact h2 h4
        exact hgw' hn1
      · intro t ht
        have htT : t < T := by
          have := hu'.types _ (mem_I (I := fun p => reread wt (I p)) hp)
          omega
        rw [hf.ge t htT, htot t htT, htot']
      · rw [hf.gv, htv]
        congr 1
        rw [hins', List.map_map, List.map_map]; rfl
    refine ⟨PF.same hpf' hPF' hw rfl (fun a b h1 h2 v _ => ?_), ?_, hf.oo, GH' p, hPF', ?_, hgw'⟩
    · rw [h1] at h2
      rw [Option.some.inj h2]
    · intro t ht
      rw [hf.gp t ht, htot', hptot']
    · rw [hcoords]; cases cop p <;> rfl

end

end Verif.Io
