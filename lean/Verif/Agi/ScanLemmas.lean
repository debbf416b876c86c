import Verif.Agi.Known
import Mathlib.Data.List.Nodup
/-!
# The first loop of `constructEdges`: numbering, counting, pin lists
-/
namespace Verif.Agi

/-- how many of the first `J` pins count towards the degree of the vertex with gid `v`: all of them in
hypergraph mode, the first of each pair (the source) in traditional mode -/
def cnt (hyper : Bool) (pins : List Gid) (J : Nat) (v : Gid) : Nat :=
  (List.range J).countP (fun j => (decide (j % 2 = 0) || hyper) && (pins[j]? == some v))

theorem cnt_succ (hyper : Bool) (pins : List Gid) (J : Nat) (v : Gid) :
    cnt hyper pins (J + 1) v = cnt hyper pins J v +
      (if (J % 2 = 0 ∨ hyper = true) ∧ pins[J]? = some v then 1 else 0) := by
  rw [cnt, List.range_succ, List.countP_append, ← cnt]
  simp [List.countP_cons]

/-- invariant of the pin loop after the first `J` pins of this type -/
structure ScanInv (hyper : Bool) (verts ghosts pins : List Gid) (numPins : Nat) (J : Nat) (s : Scan) :
    Prop where
  map_eq : s.vtxMap = lookup (extend (verts ++ ghosts) (pins.take J))
  ghosts_eq : verts.length + s.numGhost = (extend (verts ++ ghosts) (pins.take J)).length
  new_eq : s.numGhost = ghosts.length + s.newGhosts
  deg_len : s.degree.length = verts.length + 1
  deg_zero : s.degree[0]? = some (some 0)
  deg_eq : ∀ k (h : k < verts.length), s.degree[k + 1]? = some (some (cnt hyper pins J verts[k]))
  pin_len : s.pinList.length = numPins
  pin_eq : ∀ j (_ : j < J) (h : j < pins.length),
    s.pinList[j]? = some (some ((extend (verts ++ ghosts) (pins.take J)).idxOf pins[j]))

theorem bump_ok {m : Mem Nat} {i x : Nat} (h : m[i]? = some (some x)) :
    bump m i = .ok (m.set i (some (x + 1))) := by
  have hi : i < m.length := by
    rcases Nat.lt_or_ge i m.length with h' | h'
    · exact h'
    · rw [List.getElem?_eq_none h'] at h; cases h
  simp [bump, Mem.load_ok h, Mem.store_ok _ hi]

theorem take_succ_snoc (pins : List Gid) {J : Nat} (hJ : J < pins.length) :
    pins.take (J + 1) = pins.take J ++ [pins[J]] := by
  rw [List.take_succ_eq_append_getElem hJ]

theorem scanPin_inv {hyper : Bool} {verts ghosts pins : List Gid} {numPins J : Nat} {s : Scan}
    (hnd : verts.Nodup) (hJ : J < pins.length) (hlen : pins.length ≤ numPins)
    (h : ScanInv hyper verts ghosts pins numPins J s) :
    ∃ s', scanPin hyper verts.length pins s J = .ok s' ∧
      ScanInv hyper verts ghosts pins numPins (J + 1) s' ∧
      s'.pinDegree = s.pinDegree ∧ s'.edgeMap = s.edgeMap ∧ s'.unmap = s.unmap := by
  obtain ⟨hmap, hgh, hnew, hdl, hdz, hde, hpl, hpe⟩ := h
  have hpre : verts <+: extend (verts ++ ghosts) (pins.take J) :=
    (List.prefix_append verts ghosts).trans (extend_prefix _ _)
  have htake := take_succ_snoc pins hJ
  have hkn : extend (verts ++ ghosts) (pins.take (J + 1)) =
      if pins[J] ∈ extend (verts ++ ghosts) (pins.take J) then extend (verts ++ ghosts) (pins.take J)
      else extend (verts ++ ghosts) (pins.take J) ++ [pins[J]] := by
    rw [htake, extend_snoc]
  -- pins already numbered keep their number
  have hstable : ∀ j (_ : j < J) (hj : j < pins.length),
      (extend (verts ++ ghosts) (pins.take (J + 1))).idxOf pins[j] =
      (extend (verts ++ ghosts) (pins.take J)).idxOf pins[j] := by
    intro j hjJ hj
    apply idxOf_prefix
    · rw [htake, extend_append]; exact extend_prefix _ _
    · rw [mem_extend]; right
      exact List.mem_take_iff_getElem.mpr ⟨j, by omega, rfl⟩
  have hpin : ∀ (l : Nat), l = (extend (verts ++ ghosts) (pins.take (J + 1))).idxOf pins[J] →
      ∀ j (_ : j < J + 1) (hj : j < pins.length), (s.pinList.set J (some l))[j]? =
        some (some ((extend (verts ++ ghosts) (pins.take (J + 1))).idxOf pins[j])) := by
    intro l hl j hj1 hj
    rw [List.getElem?_set]
    by_cases hjJ : J = j
    · subst hjJ; simp [hl, show J < s.pinList.length by omega]
    · rw [if_neg hjJ, hpe j (by omega) hj, hstable j (by omega) hj]
  unfold scanPin
  rw [rd_ok hJ]
  simp only [Outcome.bind_ok, hmap]
  by_cases hmem : pins[J] ∈ extend (verts ++ ghosts) (pins.take J)
  · rw [lookup_of_mem hmem]
    rw [if_pos hmem] at hkn
    simp only
    by_cases hlt : (extend (verts ++ ghosts) (pins.take J)).idxOf pins[J] < verts.length
    · -- a local vertex
      rw [if_pos hlt]
      obtain ⟨r, hr⟩ := hpre
      have hv : pins[J] ∈ verts := by
        rw [← hr] at hlt; exact idxOf_lt_iff.mp hlt
      have hidx : (extend (verts ++ ghosts) (pins.take J)).idxOf pins[J] = verts.idxOf pins[J] := by
        rw [← hr]; exact List.idxOf_append_of_mem hv
      set l := (extend (verts ++ ghosts) (pins.take J)).idxOf pins[J] with hl
      have hgetl : verts[l] = pins[J] := by
        have := List.getElem_idxOf (List.idxOf_lt_length_of_mem hv)
        simp only [hidx, this]
      have hst := Mem.store_ok (m := s.pinList) l (show J < s.pinList.length by omega)
      have hb := bump_ok (hde l hlt)
      have hcnt : ∀ k (h : k < verts.length), k ≠ l → cnt hyper pins (J + 1) verts[k] =
          cnt hyper pins J verts[k] := by
        intro k hk hkl
        rw [cnt_succ, if_neg]
        · omega
        · rintro ⟨-, h2⟩
          rw [List.getElem?_eq_getElem hJ, Option.some.injEq, ← hgetl] at h2
          exact hkl ((List.Nodup.getElem_inj_iff hnd).mp h2).symm
      by_cases hsel : J % 2 = 0 ∨ hyper = true
      · have e1 : countPin hyper J s.degree l =
            .ok (s.degree.set (l + 1) (some (cnt hyper pins J verts[l] + 1))) := by
          unfold countPin
          split
          · exact hb
          · rw [if_pos (by tauto)]; exact hb
        rw [e1]
        simp only [Outcome.bind_ok, hst, Outcome.pure_eq]
        refine ⟨_, rfl, ⟨?_, ?_, hnew, ?_, ?_, ?_, ?_, ?_⟩, rfl, rfl, rfl⟩
        · simp [hkn]
        · simpa [hkn] using hgh
        · simpa using hdl
        · rw [List.getElem?_set]; simpa using hdz
        · intro k hk
          rw [List.getElem?_set]
          by_cases hkl : l = k
          · subst hkl
            rw [if_pos rfl, if_pos (by omega), cnt_succ, if_pos ⟨hsel, by rw [hgetl]; simp [hJ]⟩]
          · rw [if_neg (by omega), hde k hk, hcnt k hk (Ne.symm hkl)]
        · simpa using hpl
        · exact hpin l (by rw [hl, hkn])
      · have e1 : countPin hyper J s.degree l = .ok s.degree := by
          unfold countPin; rw [if_neg (by tauto), if_neg (by tauto)]
        rw [e1]
        simp only [Outcome.bind_ok, hst, Outcome.pure_eq]
        refine ⟨_, rfl, ⟨?_, ?_, hnew, hdl, hdz, ?_, ?_, ?_⟩, rfl, rfl, rfl⟩
        · simp [hkn]
        · simpa [hkn] using hgh
        · intro k hk
          rw [hde k hk, cnt_succ, if_neg (by tauto)]; rfl
        · simpa using hpl
        · exact hpin l (by rw [hl, hkn])
    · -- a known ghost
      rw [if_neg hlt]
      have hst := Mem.store_ok (m := s.pinList)
        ((extend (verts ++ ghosts) (pins.take J)).idxOf pins[J]) (show J < s.pinList.length by omega)
      simp only [hst, Outcome.bind_ok, Outcome.pure_eq]
      refine ⟨_, rfl, ⟨?_, ?_, hnew, hdl, hdz, ?_, ?_, ?_⟩, rfl, rfl, rfl⟩
      · simp [hkn]
      · simpa [hkn] using hgh
      · intro k hk
        rw [hde k hk, cnt_succ, if_neg]; · rfl
        rintro ⟨-, h2⟩
        rw [List.getElem?_eq_getElem hJ, Option.some.injEq] at h2
        apply hlt
        obtain ⟨r, hr⟩ := hpre
        rw [← hr]; apply idxOf_lt_iff.mpr; rw [h2]; exact List.getElem_mem hk
      · simpa using hpl
      · exact hpin _ (by rw [hkn])
  · -- a new ghost
    rw [lookup_of_not_mem hmem]
    rw [if_neg hmem] at hkn
    have hst := Mem.store_ok (m := s.pinList) (verts.length + s.numGhost)
      (show J < s.pinList.length by omega)
    simp only [hst, Outcome.bind_ok, Outcome.pure_eq]
    refine ⟨_, rfl, ⟨?_, ?_, ?_, hdl, hdz, ?_, ?_, ?_⟩, rfl, rfl, rfl⟩
    · simp only [hgh, hkn]; exact lookup_snoc hmem
    · simp only [hkn, List.length_append, List.length_singleton]; omega
    · simp only; omega
    · intro k hk
      rw [hde k hk, cnt_succ, if_neg]; · rfl
      rintro ⟨-, h2⟩
      rw [List.getElem?_eq_getElem hJ, Option.some.injEq] at h2
      apply hmem
      rw [h2]; exact hpre.subset (List.getElem_mem hk)
    · simpa using hpl
    · refine hpin _ ?_
      rw [hkn, hgh, List.idxOf_append_of_notMem hmem]; simp

/-- the pins of the edges before edge `i` -/
def pinOff (es : List (List Gid)) (i : Nat) : Nat := (es.take i).flatten.length

theorem pinOff_succ (es : List (List Gid)) {i : Nat} (h : i < es.length) :
    pinOff es (i + 1) = pinOff es i + es[i].length := by
  unfold pinOff
  rw [List.take_succ_eq_append_getElem h, List.flatten_append, List.length_append]
  simp

theorem pinOff_le (es : List (List Gid)) (i : Nat) : pinOff es i ≤ es.flatten.length := by
  have : es.flatten = (es.take i).flatten ++ (es.drop i).flatten := by
    rw [← List.flatten_append, List.take_append_drop]
  rw [this]; simp [pinOff]

theorem pinOff_length (es : List (List Gid)) : pinOff es es.length = es.flatten.length := by
  simp [pinOff]

theorem flatten_getElem? (es : List (List Gid)) {i : Nat} (h : i < es.length) (k : Nat)
    (hk : k < es[i].length) : es.flatten[pinOff es i + k]? = some es[i][k] := by
  have : es.flatten = (es.take i).flatten ++ (es[i] ++ (es.drop (i + 1)).flatten) := by
    conv => lhs; rw [← List.take_append_drop i es, List.drop_eq_getElem_cons h]
    rw [List.flatten_append, List.flatten_cons]
  rw [this, List.getElem?_append_right (by simp [pinOff]), List.getElem?_append_left (by simp [pinOff, hk])]
  simp [pinOff, hk]

/-- invariant of the edge loop after the first `i` edges -/
structure EdgeInv (hyper : Bool) (verts ghosts ids : List Gid) (es : List (List Gid)) (numPins : Nat)
    (i : Nat) (s : Scan) : Prop where
  scan : ScanInv hyper verts ghosts es.flatten numPins (pinOff es i) s
  pd_len : s.pinDegree.length = es.length + 1
  pd_eq : ∀ k, k ≤ i → s.pinDegree[k]? = some (some (pinOff es k))
  um_len : s.unmap.length = es.length
  um_eq : ∀ k (_ : k < i) (h : k < ids.length), s.unmap[k]? = some (some ids[k])

theorem scanEdge_inv {hyper : Bool} {verts ghosts ids : List Gid} {es : List (List Gid)}
    {numPins i : Nat} {s : Scan} (hnd : verts.Nodup) (hids : ids.length = es.length)
    (hlen : es.flatten.length ≤ numPins) (hi : i < es.length)
    (h : EdgeInv hyper verts ghosts ids es numPins i s) :
    ∃ s', scanEdge hyper verts.length ids (es.map List.length) es.flatten s i = .ok s' ∧
      EdgeInv hyper verts ghosts ids es numPins (i + 1) s' := by
  obtain ⟨hsc, hpl, hpe, hul, hue⟩ := h
  unfold scanEdge
  rw [rd_ok (show i < ids.length by omega)]
  simp only [Outcome.bind_ok]
  rw [Mem.store_ok _ (show i < s.unmap.length by omega)]
  simp only [Outcome.bind_ok]
  rw [Mem.load_ok (hpe i (Nat.le_refl _))]
  simp only [Outcome.bind_ok]
  rw [rd_ok (show i < (es.map List.length).length by simpa using hi)]
  simp only [Outcome.bind_ok, List.getElem_map]
  rw [Mem.store_ok _ (show i + 1 < s.pinDegree.length by omega)]
  simp only [Outcome.bind_ok]
  have hoff := pinOff_succ es hi
  have hle := pinOff_le es (i + 1)
  set s1 : Scan := { s with
    edgeMap := GMap.put s.edgeMap ids[i] i
    unmap := s.unmap.set i (some ids[i])
    pinDegree := s.pinDegree.set (i + 1) (some (pinOff es i + es[i].length)) } with hs1
  obtain ⟨s', e, hI, h1, h2, h3⟩ := range_inv (scanPin hyper verts.length es.flatten)
    (fun k s => ScanInv hyper verts ghosts es.flatten numPins (pinOff es i + k) s ∧
      s.pinDegree = s1.pinDegree ∧ s.edgeMap = s1.edgeMap ∧ s.unmap = s1.unmap)
    (pinOff es i) es[i].length
    (by
      intro k s2 hk ⟨hI, a1, a2, a3⟩
      obtain ⟨s3, e3, hI3, b1, b2, b3⟩ := scanPin_inv hnd (by omega) hlen hI
      exact ⟨s3, e3, hI3, b1.trans a1, b2.trans a2, b3.trans a3⟩)
    s1 ⟨⟨hsc.map_eq, hsc.ghosts_eq, hsc.new_eq, hsc.deg_len, hsc.deg_zero, hsc.deg_eq, hsc.pin_len,
      hsc.pin_eq⟩, rfl, rfl, rfl⟩
  refine ⟨s', e, ?_, ?_, ?_, ?_, ?_⟩
  · rw [hoff]; exact hI
  · rw [h1]; simpa [hs1] using hpl
  · intro k hk
    rw [h1]
    simp only [hs1]
    rw [List.getElem?_set]
    by_cases hki : i + 1 = k
    · subst hki; rw [if_pos rfl, if_pos (by omega), hoff]
    · rw [if_neg hki]; exact hpe k (by omega)
  · rw [h3]; simpa [hs1] using hul
  · intro k hk hkl
    rw [h3]
    simp only [hs1]
    rw [List.getElem?_set]
    by_cases hki : i = k
    · subst hki; rw [if_pos rfl, if_pos (by omega)]
    · rw [if_neg hki]; exact hue k (by omega) hkl

theorem scan_all {hyper : Bool} {verts ghosts ids : List Gid} {es : List (List Gid)}
    {numPins : Nat} {s : Scan} (hnd : verts.Nodup) (hids : ids.length = es.length)
    (hlen : es.flatten.length ≤ numPins) (h : EdgeInv hyper verts ghosts ids es numPins 0 s) :
    ∃ s', (List.range' 0 es.length).foldlM
        (scanEdge hyper verts.length ids (es.map List.length) es.flatten) s = .ok s' ∧
      EdgeInv hyper verts ghosts ids es numPins es.length s' := by
  refine range_inv _ (fun i s => EdgeInv hyper verts ghosts ids es numPins i s) 0 es.length ?_ s h
  intro k s hk hI
  rw [Nat.zero_add]
  exact scanEdge_inv hnd hids hlen hk hI

end Verif.Agi
