import Verif.Agi.Bucket
/-!
# The second loop of `constructEdges`: adjacency lists and ghost gids
-/
namespace Verif.Agi

/-- `ghost_unmap` after the pins `seen` were handled; `known0` were known before this edge type -/
def GhostInv (nl : Nat) (known known0 seen : List Gid) (gu : Option (Mem Gid)) : Prop :=
  match gu with
  | none => known.length = nl
  | some m => nl + m.length = known.length ∧
      ∀ k (h : nl + k < known.length), (known[nl + k] ∈ known0 ∨ known[nl + k] ∈ seen) →
        m[k]? = some (some known[nl + k])

theorem fillGhost_inv {nl : Nat} {known known0 seen pins : List Gid} {s : Fill} {u j : Nat} {v : Gid}
    (h : GhostInv nl known known0 seen s.ghostUnmap) (hnd : known.Nodup) (hj : j < pins.length)
    (hv : pins[j] = v) (hu : u = known.idxOf v) (hm : v ∈ known) :
    ∃ s', fillGhost nl pins s u j = .ok s' ∧ GhostInv nl known known0 (seen ++ [v]) s'.ghostUnmap ∧
      s'.temp = s.temp ∧ s'.edgeList = s.edgeList := by
  have hlt : u < known.length := by rw [hu]; exact List.idxOf_lt_length_of_mem hm
  have hget : known[u] = v := by subst hu; exact List.getElem_idxOf _
  unfold fillGhost
  by_cases hnl : nl ≤ u
  · rw [if_pos hnl]
    cases hg : s.ghostUnmap with
    | none => rw [hg] at h; simp only [GhostInv] at h; omega
    | some m =>
      rw [hg] at h
      obtain ⟨h1, h2⟩ := h
      simp only [deref, Outcome.ofOption_some, Outcome.bind_ok, rd_ok hj]
      rw [Mem.store_ok _ (by omega), Outcome.bind_ok]
      refine ⟨_, rfl, ⟨by simpa using h1, ?_⟩, rfl, rfl⟩
      intro k hk hor
      rw [List.getElem?_set]
      by_cases hku : u - nl = k
      · have hkk : nl + k = u := by omega
        rw [if_pos hku, if_pos (by omega), hv]
        congr 2
        have : known[nl + k] = known[u] := by congr 1
        rw [this, hget]
      · rw [if_neg hku]
        apply h2 k hk
        rcases hor with ho | ho
        · exact .inl ho
        · rw [List.mem_append, List.mem_singleton] at ho
          rcases ho with ho | ho
          · exact .inr ho
          · exfalso
            apply hku
            rw [← hget] at ho
            have := (List.Nodup.getElem_inj_iff hnd).mp ho
            omega
  · rw [if_neg hnl]
    refine ⟨s, rfl, ?_, rfl, rfl⟩
    cases hg : s.ghostUnmap with
    | none => rw [hg] at h; exact h
    | some m =>
      rw [hg] at h
      obtain ⟨h1, h2⟩ := h
      refine ⟨h1, ?_⟩
      intro k hk hor
      apply h2 k hk
      rcases hor with ho | ho
      · exact .inl ho
      · rw [List.mem_append, List.mem_singleton] at ho
        rcases ho with ho | ho
        · exact .inr ho
        · exfalso
          rw [← hget] at ho
          have := (List.Nodup.getElem_inj_iff hnd).mp ho
          omega

/-! ## hypergraph mode -/

/-- (vertex, edge) incidences in the order of the loop -/
def incid (known : List Gid) (es : List (List Gid)) : List (Nat × Nat) :=
  es.zipIdx.flatMap (fun p => p.1.map (fun v => (known.idxOf v, p.2)))

theorem incid_take_succ (known : List Gid) (es : List (List Gid)) {i : Nat} (h : i < es.length) :
    incid known (es.take (i + 1)) =
      incid known (es.take i) ++ es[i].map (fun v => (known.idxOf v, i)) := by
  unfold incid
  rw [List.take_succ_eq_append_getElem h, List.zipIdx_append, List.flatMap_append]
  simp [Nat.min_eq_left (Nat.le_of_lt h)]

theorem incid_take_prefix (known : List Gid) (es : List (List Gid)) (i : Nat) :
    ∃ r, incid known es = incid known (es.take i) ++ r := by
  refine ⟨(es.drop i).zipIdx (es.take i).length |>.flatMap (fun p => p.1.map (fun v => (known.idxOf v, p.2))), ?_⟩
  unfold incid
  conv => lhs; rw [← List.take_append_drop i es]
  rw [List.zipIdx_append, List.flatMap_append]
  simp

theorem bucket_le {a b : List (Nat × Nat)} (u : Nat) (h : ∃ r, b = a ++ r) :
    (bucket u a).length ≤ (bucket u b).length := by
  obtain ⟨r, rfl⟩ := h
  rw [bucket_append, List.length_append]; omega

/-- what both loops preserve -/
structure LoopInv (nl : Nat) (known known0 seen : List Gid) (c : Nat → Nat) (done : List (Nat × Nat))
    (s : Fill) : Prop where
  fill : FillInv nl c done s.temp s.edgeList
  ghost : GhostInv nl known known0 seen s.ghostUnmap

theorem fillHyper_inv {nl : Nat} {known known0 seen pins : List Gid} {c : Nat → Nat}
    {done : List (Nat × Nat)} {s : Fill} {pinList : Mem Nat} {i j : Nat} {v : Gid}
    (h : LoopInv nl known known0 seen c done s) (hnd : known.Nodup) (hj : j < pins.length)
    (hv : pins[j] = v) (hm : v ∈ known) (hp : pinList[j]? = some (some (known.idxOf v)))
    (hroom : ∀ w, w < nl → (bucket w (done ++ [(known.idxOf v, i)])).length ≤ c w) :
    ∃ s', fillHyper nl pins pinList i s j = .ok s' ∧
      LoopInv nl known known0 (seen ++ [v]) c (done ++ [(known.idxOf v, i)]) s' := by
  obtain ⟨s1, e1, hg1, ht, hel⟩ := fillGhost_inv h.ghost hnd hj hv rfl hm
  obtain ⟨s2, e2, hf2, hgu⟩ := fillPut_inv (s := s1) (by rw [ht, hel]; exact h.fill) hroom
  refine ⟨s2, ?_, hf2, by rw [hgu]; exact hg1⟩
  unfold fillHyper
  rw [Mem.load_ok hp, Outcome.bind_ok, e1, Outcome.bind_ok, e2]

theorem fillEdge_hyper_inv {nl : Nat} {known known0 : List Gid} {es : List (List Gid)} {c : Nat → Nat}
    {s : Fill} {pinDegree pinList : Mem Nat} {i : Nat} (hnd : known.Nodup)
    (hmem : ∀ v ∈ es.flatten, v ∈ known) (hi : i < es.length)
    (hpd : ∀ k, k ≤ es.length → pinDegree[k]? = some (some (pinOff es k)))
    (hpl : ∀ j (h : j < es.flatten.length), pinList[j]? = some (some (known.idxOf es.flatten[j])))
    (hc : ∀ w, w < nl → (bucket w (incid known es)).length = c w)
    (h : LoopInv nl known known0 (es.take i).flatten c (incid known (es.take i)) s) :
    ∃ s', fillEdge true nl es.flatten pinDegree pinList s i = .ok s' ∧
      LoopInv nl known known0 (es.take (i + 1)).flatten c (incid known (es.take (i + 1))) s' := by
  have hoff := pinOff_succ es hi
  have hle := pinOff_le es (i + 1)
  unfold fillEdge
  rw [Mem.load_ok (hpd i (by omega)), Outcome.bind_ok, Mem.load_ok (hpd (i + 1) (by omega)),
    Outcome.bind_ok, if_pos rfl, show pinOff es (i + 1) - pinOff es i = es[i].length by omega]
  obtain ⟨s', e, hI⟩ := range_inv (fillHyper nl es.flatten pinList i)
    (fun k s => LoopInv nl known known0 ((es.take i).flatten ++ es[i].take k) c
      (incid known (es.take i) ++ (es[i].take k).map (fun v => (known.idxOf v, i))) s)
    (pinOff es i) es[i].length
    (by
      intro k s hk hI
      have hfl := flatten_getElem? es hi k hk
      have hjl : pinOff es i + k < es.flatten.length := by omega
      have hget : es.flatten[pinOff es i + k] = es[i][k] := by
        rw [List.getElem?_eq_getElem hjl, Option.some.injEq] at hfl; exact hfl
      have htk : es[i].take (k + 1) = es[i].take k ++ [es[i][k]] :=
        List.take_succ_eq_append_getElem hk
      obtain ⟨s', e', hI'⟩ := fillHyper_inv (i := i) (pinList := pinList) hI hnd hjl hget
        (by rw [← hget]; exact hmem _ (List.getElem_mem hjl))
        (by rw [hpl _ hjl, hget])
        (by
          intro w hw
          rw [← hc w hw]
          apply bucket_le
          obtain ⟨r, hr⟩ := incid_take_prefix known es (i + 1)
          refine ⟨(es[i].drop (k + 1)).map (fun v => (known.idxOf v, i)) ++ r, ?_⟩
          rw [hr, incid_take_succ known es hi]
          conv => lhs; rw [← List.take_append_drop (k + 1) es[i], htk]
          simp only [List.map_append, List.append_assoc, List.map_cons, List.map_nil])
      refine ⟨s', e', ?_⟩
      rw [htk, List.map_append, ← List.append_assoc, ← List.append_assoc]
      exact hI')
    s (by simpa using h)
  refine ⟨s', e, ?_⟩
  rw [incid_take_succ known es hi, List.take_succ_eq_append_getElem hi, List.flatten_append]
  simpa using hI

/-! ## traditional mode -/

/-- (source, destination) numbers of the edges -/
def arcs (known : List Gid) (es : List (List Gid)) : List (Nat × Nat) :=
  es.map (fun p => (known.idxOf (p.getD 0 0), known.idxOf (p.getD 1 0)))

theorem fillEdge_trad_inv {nl : Nat} {known known0 : List Gid} {es : List (List Gid)} {c : Nat → Nat}
    {s : Fill} {pinDegree pinList : Mem Nat} {i : Nat} (hnd : known.Nodup)
    (hmem : ∀ v ∈ es.flatten, v ∈ known) (hi : i < es.length) (h2 : ∀ p ∈ es, p.length = 2)
    (hpd : ∀ k, k ≤ es.length → pinDegree[k]? = some (some (pinOff es k)))
    (hpl : ∀ j (h : j < es.flatten.length), pinList[j]? = some (some (known.idxOf es.flatten[j])))
    (hc : ∀ w, w < nl → (bucket w (arcs known es)).length = c w)
    (h : LoopInv nl known known0 (es.take i).flatten c (arcs known (es.take i)) s) :
    ∃ s', fillEdge false nl es.flatten pinDegree pinList s i = .ok s' ∧
      LoopInv nl known known0 (es.take (i + 1)).flatten c (arcs known (es.take (i + 1))) s' := by
  have hoff := pinOff_succ es hi
  have hle := pinOff_le es (i + 1)
  have hl2 : es[i].length = 2 := h2 _ (List.getElem_mem hi)
  obtain ⟨a, b, hab⟩ : ∃ a b, es[i] = [a, b] := by
    match hE : es[i], hl2 with
    | [a, b], _ => exact ⟨a, b, rfl⟩
  have j0 : pinOff es i < es.flatten.length := by omega
  have j1 : pinOff es i + 1 < es.flatten.length := by omega
  have g0 : es.flatten[pinOff es i] = a := by
    have := flatten_getElem? es hi 0 (by omega)
    rw [Nat.add_zero, List.getElem?_eq_getElem j0, Option.some.injEq] at this
    rw [this]; simp [hab]
  have g1 : es.flatten[pinOff es i + 1] = b := by
    have := flatten_getElem? es hi 1 (by omega)
    rw [List.getElem?_eq_getElem j1, Option.some.injEq] at this
    rw [this]; simp [hab]
  unfold fillEdge
  rw [Mem.load_ok (hpd i (by omega)), Outcome.bind_ok, Mem.load_ok (hpd (i + 1) (by omega)),
    Outcome.bind_ok, if_neg (by decide), show (pinOff es (i + 1) - pinOff es i + 1) / 2 = 1 by omega]
  simp only [List.range'_one, List.foldlM_cons, List.foldlM_nil]
  have ma : a ∈ known := by rw [← g0]; exact hmem _ (List.getElem_mem j0)
  have mb : b ∈ known := by rw [← g1]; exact hmem _ (List.getElem_mem j1)
  obtain ⟨s1, e1, hg1, ht1, hel1⟩ := fillGhost_inv h.ghost hnd j0 g0 rfl ma
  obtain ⟨s2, e2, hg2, ht2, hel2⟩ := fillGhost_inv hg1 hnd j1 g1 rfl mb
  have harcs : arcs known (es.take (i + 1)) =
      arcs known (es.take i) ++ [(known.idxOf a, known.idxOf b)] := by
    unfold arcs
    rw [List.take_succ_eq_append_getElem hi, List.map_append]
    simp [hab]
  obtain ⟨s3, e3, hf3, hgu3⟩ := fillPut_inv (s := s2) (u := known.idxOf a) (x := known.idxOf b)
    (by rw [ht2, hel2, ht1, hel1]; exact h.fill)
    (by
      intro w hw
      rw [← hc w hw, ← harcs]
      apply bucket_le
      refine ⟨arcs known (es.drop (i + 1)), ?_⟩
      unfold arcs
      rw [← List.map_append, List.take_append_drop])
  refine ⟨s3, ?_, ?_⟩
  · unfold fillTrad
    rw [Mem.load_ok (hpl _ j0), g0, Outcome.bind_ok, e1, Outcome.bind_ok, Mem.load_ok (hpl _ j1), g1,
      Outcome.bind_ok, e2, Outcome.bind_ok, e3]
    rfl
  · refine ⟨?_, ?_⟩
    · rw [harcs]; exact hf3
    · rw [hgu3, List.take_succ_eq_append_getElem hi, List.flatten_append]
      simpa [hab] using hg2

end Verif.Agi
