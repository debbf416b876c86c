import Verif.Mesh.MeshCount
import Verif.Agi.IterLemmas
/-!
# Filling in the pins of a mesh graph on one part
-/
namespace Verif.Mesh
open Verif.Agi

theorem putPin_inv {nl : Nat} {c : Nat → Nat} {done : List (Nat × Nat)} {temp pl : Mem Nat} {u x : Nat}
    (h : FillInv nl c done temp pl) (hu : u < nl)
    (hroom : ∀ w, w < nl → (bucket w (done ++ [(u, x)])).length ≤ c w) :
    ∃ s' : Mem Nat × Mem Nat, putPin (temp, pl) u x = .ok s' ∧ FillInv nl c (done ++ [(u, x)]) s'.1 s'.2 := by
  obtain ⟨s', e, hi, -⟩ := fillPut_inv (s := ⟨temp, pl, none⟩) h hroom
  unfold fillPut at e
  rw [if_pos hu] at e
  refine ⟨(s'.temp, s'.edgeList), ?_, hi⟩
  unfold putPin
  simp only at e ⊢
  cases h1 : temp.load u with
  | fail => rw [h1] at e; simp [Outcome.bind_fail] at e
  | ub => rw [h1] at e; simp [Outcome.bind_ub] at e
  | ok a =>
    rw [h1, Outcome.bind_ok] at e
    rw [Outcome.bind_ok]
    cases h2 : pl.store a x with
    | fail => rw [h2] at e; simp [Outcome.bind_fail] at e
    | ub => rw [h2] at e; simp [Outcome.bind_ub] at e
    | ok b =>
      rw [h2, Outcome.bind_ok] at e
      rw [Outcome.bind_ok]
      cases h3 : temp.store u (a + 1) with
      | fail => rw [h3] at e; simp [Outcome.bind_fail] at e
      | ub => rw [h3] at e; simp [Outcome.bind_ub] at e
      | ok d =>
        rw [h3, Outcome.bind_ok] at e
        rw [Outcome.bind_ok]
        simp only [Outcome.pure_eq, Outcome.ok.injEq] at e ⊢
        rw [← e]

/-- the pins `items` (edge, vertex) as stored: edge number and vertex number -/
def coded (ids K : List Gid) (items : List (Gid × Gid)) : List (Nat × Nat) :=
  items.map (fun m => (ids.idxOf m.1, K.idxOf m.2))

/-- the pins of an edge among `items` -/
def pinsOf (x : Gid) (items : List (Gid × Gid)) : List Gid := (items.filter (fun m => decide (m.1 = x))).map Prod.snd

theorem bucket_coded {ids : List Gid} (hn : ids.Nodup) (K : List Gid) {items : List (Gid × Gid)}
    (hi : ∀ m ∈ items, m.1 ∈ ids) {u : Nat} (hu : u < ids.length) :
    bucket u (coded ids K items) = (pinsOf ids[u] items).map (fun v => K.idxOf v) := by
  unfold bucket coded pinsOf
  rw [List.filter_map, List.map_map, List.map_map]
  have : (items.filter ((fun p : Nat × Nat => p.1 == u) ∘ fun m => (ids.idxOf m.1, K.idxOf m.2))) =
      items.filter (fun m => decide (m.1 = ids[u])) := by
    apply List.filter_congr
    intro m hm
    simp only [Function.comp_apply]
    rw [Bool.eq_iff_iff]
    simp only [beq_iff_eq, decide_eq_true_eq]
    constructor
    · rintro rfl; rw [List.getElem_idxOf]
    · intro h; rw [h]; exact hn.idxOf_getElem _ _
  rw [this]
  rfl

theorem coded_snoc (ids K : List Gid) (items : List (Gid × Gid)) (x v : Gid) :
    coded ids K (items ++ [(x, v)]) = coded ids K items ++ [(ids.idxOf x, K.idxOf v)] := by
  simp [coded]

theorem pinsOf_append (x : Gid) (a b : List (Gid × Gid)) : pinsOf x (a ++ b) = pinsOf x a ++ pinsOf x b := by
  simp [pinsOf]

theorem pinsOf_prefix (x : Gid) {a b : List (Gid × Gid)} (h : a <+: b) : (pinsOf x a).length ≤ (pinsOf x b).length := by
  obtain ⟨r, rfl⟩ := h
  rw [pinsOf_append, List.length_append]; omega

/-- room for a pin that is one of `all` -/
theorem room {ids : List Gid} (hn : ids.Nodup) (K : List Gid) {all pre : List (Gid × Gid)} {x v : Gid}
    (hi : ∀ m ∈ all, m.1 ∈ ids) (hpre : pre ++ [(x, v)] <+: all) (c : Nat → Nat)
    (hc : ∀ u (h : u < ids.length), c u = (pinsOf ids[u] all).length) :
    ∀ w, w < ids.length → (bucket w (coded ids K pre ++ [(ids.idxOf x, K.idxOf v)])).length ≤ c w := by
  intro w hw
  rw [← coded_snoc, bucket_coded hn K (fun m hm => hi m (hpre.subset hm)) hw, List.length_map, hc w hw]
  exact pinsOf_prefix _ hpre

/-! ## own pins -/

/-- the pins of a part's own vertices -/
def ownPins (l : List Ent) : List (Gid × Gid) := l.flatMap (fun x => x.mine.map (fun v => (x.gid, v)))

/-- the messages about them -/
def pinMsgs (self : Nat) (l : List Ent) : List (Part × (Gid × Gid)) :=
  l.flatMap (fun x => x.mine.flatMap (fun v => (others self x).map (fun q : Nat => ((q : Int), (x.gid, v)))))

theorem localPins_eq {t self : Nat} {m : MeshPart} {s : MGraph} {e : EType}
    (he : s.g.types[t]? = some (some e)) (ht : t < m.ents.length)
    (hn : ((m.entsOf t).map Ent.gid).Nodup) (hN : e.numEdges = (m.entsOf t).length)
    (hmap : e.edgeMap = lookup ((m.entsOf t).map Ent.gid))
    {ps : List (List Gid)} (hpl : ps.length = (m.entsOf t).length)
    (hpd : e.pinDegree = Mem.ofList ((List.range (ps.length + 1)).map (off ps)))
    (hpn : e.pinList = Mem.alloc ps.flatten.length)
    {K0 K : List Gid} (hK : K0 <+: K) (hvm : s.g.vtxMap = lookup K0)
    (hmine : ∀ x ∈ m.entsOf t, ∀ v ∈ x.mine, v ∈ K0)
    {all : List (Gid × Gid)} (hall : ownPins (m.entsOf t) <+: all) (hi : ∀ a ∈ all, a.1 ∈ (m.entsOf t).map Ent.gid)
    (hps : ∀ u (h : u < ((m.entsOf t).map Ent.gid).length), (ps.getD u []).length = (pinsOf ((m.entsOf t).map Ent.gid)[u] all).length) :
    ∃ f : Mem Nat × Mem Nat, localPins t self m s = .ok (f, pinMsgs self (m.entsOf t)) ∧
      FillInv (m.entsOf t).length (fun u => (ps.getD u []).length)
        (coded ((m.entsOf t).map Ent.gid) K (ownPins (m.entsOf t))) f.1 f.2 := by
  unfold localPins
  have hes : m.ents[t] = m.entsOf t := by
    unfold MeshPart.entsOf
    rw [List.getD_eq_getElem?_getD, List.getElem?_eq_getElem ht, Option.getD_some]
  rw [Graph.slot_ok he, Outcome.bind_ok, rd_ok ht, Outcome.bind_ok, hes, hN]
  set es := m.entsOf t with hesd
  obtain ⟨⟨f, msg⟩, e', h1, h2⟩ := foldlM_inv (entStep self s.g e)
    (fun pre (s : (Mem Nat × Mem Nat) × List (Part × (Gid × Gid))) =>
      FillInv es.length (fun u => (ps.getD u []).length) (coded (es.map Ent.gid) K (ownPins pre)) s.1.1 s.1.2 ∧
        s.2 = pinMsgs self pre)
    es
    (by
      rintro pre x ⟨f, msg⟩ hpre ⟨hf, hm⟩
      simp only at hf hm
      have hxm : x ∈ es := hpre.subset (by simp)
      have hxi : x.gid ∈ es.map Ent.gid := List.mem_map.mpr ⟨x, hxm, rfl⟩
      unfold entStep
      obtain ⟨⟨f', msg'⟩, e', h1, h2⟩ := foldlM_inv (pinStep self s.g e x)
        (fun prev (s : (Mem Nat × Mem Nat) × List (Part × (Gid × Gid))) =>
          FillInv es.length (fun u => (ps.getD u []).length)
            (coded (es.map Ent.gid) K (ownPins pre ++ prev.map (fun v => (x.gid, v)))) s.1.1 s.1.2 ∧
          s.2 = pinMsgs self pre ++ prev.flatMap (fun v => (others self x).map (fun q : Nat => ((q : Int), (x.gid, v)))))
        x.mine
        (by
          rintro prev v ⟨f, msg⟩ hprev ⟨hf, hm⟩
          simp only at hf hm
          have hv : v ∈ x.mine := hprev.subset (by simp)
          have hvK : v ∈ K0 := hmine x hxm v hv
          have hlk : s.g.lookup0 v = K.idxOf v := by
            unfold Graph.lookup0
            rw [hvm, lookup_of_mem hvK, Option.getD_some, idxOf_prefix hK hvK]
          have hpp : (ownPins pre ++ prev.map (fun v => (x.gid, v))) ++ [(x.gid, v)] <+: all := by
            refine List.IsPrefix.trans ?_ hall
            obtain ⟨r, hr⟩ := hpre
            obtain ⟨r', hr'⟩ := hprev
            refine ⟨r'.map (fun v => (x.gid, v)) ++ ownPins r, ?_⟩
            rw [← hr]
            unfold ownPins
            rw [List.flatMap_append, List.flatMap_append, List.flatMap_singleton, ← hr']
            simp
          have hlt := List.idxOf_lt_length_of_mem hxi
          rw [List.length_map] at hlt
          obtain ⟨f2, e2, hf2⟩ := putPin_inv hf hlt (x := K.idxOf v) (by
            have := room hn K hi hpp (fun u => (ps.getD u []).length) hps
            rw [List.length_map] at this
            exact this)
          refine ⟨(f2, _), ?_, ?_, rfl⟩
          · unfold pinStep
            simp only
            rw [eidx_eq hmap hxi, hlk]
            rw [e2, Outcome.bind_ok, hm]
            simp only [List.flatMap_append, List.flatMap_singleton, Outcome.pure_eq, List.append_assoc]
          · simp only
            rw [List.map_append, List.map_singleton, ← List.append_assoc, coded_snoc]
            exact hf2)
        (f, msg) ⟨by simpa using hf, by simpa using hm⟩
      refine ⟨_, e', ?_, ?_⟩
      · have : ownPins (pre ++ [x]) = ownPins pre ++ x.mine.map (fun v => (x.gid, v)) := by
          unfold ownPins; rw [List.flatMap_append, List.flatMap_singleton]
        rw [this]; exact h1
      · simp only at h2 ⊢
        rw [h2]
        unfold pinMsgs
        rw [List.flatMap_append, List.flatMap_singleton])
    ((e.pinDegree.take es.length, e.pinList), [])
    (by
      refine ⟨?_, rfl⟩
      constructor
      · simp [hpd, hpl, Mem.ofList]
      · intro u hu
        simp only [ownPins, List.flatMap_nil, coded, List.map_nil, bucket, List.filter_nil, List.length_nil, Nat.add_zero]
        rw [List.getElem?_take, if_pos hu, hpd, ← off_offs ps (by omega)]
        simp only [Mem.ofList, List.getElem?_map, List.getElem?_range (show u < ps.length + 1 by omega), Option.map_some]
      · rw [hpn]
        simp only [Mem.alloc, List.length_replicate]
        rw [← off_offs ps (by omega), ← hpl, off, List.take_length]
      · intro u hu k hk
        simp [ownPins, coded, bucket] at hk)
  simp only at h1 h2
  exact ⟨f, by rw [e', h2], h1⟩

/-! ## pins from the others -/

theorem finishPins_eq {t : Nat} {s : MGraph} {e : EType} (he : s.g.types[t]? = some (some e)) {ids : List Gid}
    (hn : ids.Nodup) (hN : e.numEdges = ids.length) (hmap : e.edgeMap = lookup ids)
    {ps : List (List Gid)} (hpl : ps.length = ids.length)
    (hpd : e.pinDegree = Mem.ofList ((List.range (ps.length + 1)).map (off ps)))
    {verts : List Gid} (hK0 : (verts ++ s.ghosts).Nodup) (hvm : s.g.vtxMap = lookup (verts ++ s.ghosts))
    (hnl : s.g.numLocal = verts.length) (hng : s.g.numGhost = s.ghosts.length)
    {own : Gid → Nat} (how : s.owns = s.ghosts.map (fun v => (own v : Int)))
    (msgs : List (Nat × (Gid × Gid))) (hmi : ∀ m ∈ msgs, m.2.1 ∈ ids) (hmo : ∀ m ∈ msgs, m.1 = own m.2.2)
    {own0 : List (Gid × Gid)} (hi0 : ∀ m ∈ own0, m.1 ∈ ids) (hk0 : ∀ m ∈ own0, m.2 ∈ verts ++ s.ghosts)
    (hps : ∀ u (h : u < ids.length), ps[u]'(by omega) = pinsOf ids[u] (own0 ++ msgs.map Prod.snd))
    {f : Mem Nat × Mem Nat}
    (hf : FillInv ids.length (fun u => (ps.getD u []).length)
        (coded ids (extend (verts ++ s.ghosts) (msgs.map (fun m => m.2.2))) own0) f.1 f.2) :
    ∃ gh, verts ++ gh = extend (verts ++ s.ghosts) (msgs.map (fun m => m.2.2)) ∧
      finishPins t s f msgs = .ok ⟨{ s.g with vtxMap := lookup (verts ++ gh), numGhost := gh.length, types := s.g.types.set t (some { e with pinList := Mem.ofList (ps.flatten.map (fun v => (verts ++ gh).idxOf v)) }) }, gh, gh.map (fun v => (own v : Int))⟩ := by
  unfold finishPins
  rw [Graph.slot_ok he, Outcome.bind_ok]
  set K := extend (verts ++ s.ghosts) (msgs.map (fun m => m.2.2)) with hKd
  have hall : ∀ a ∈ own0 ++ msgs.map Prod.snd, a.1 ∈ ids := by
    intro a ha
    rcases List.mem_append.mp ha with ha | ha
    · exact hi0 a ha
    · obtain ⟨b, hb, rfl⟩ := List.mem_map.mp ha
      exact hmi b hb
  have hcl : ∀ u (h : u < ids.length), (ps.getD u []).length = (pinsOf ids[u] (own0 ++ msgs.map Prod.snd)).length := by
    intro u hu
    rw [← hps u hu, List.getD_eq_getElem?_getD, List.getElem?_eq_getElem (by omega), Option.getD_some]
  obtain ⟨⟨s1, f1⟩, e1, gh, hgh, hs1, hf1⟩ := foldlM_inv (recvPin e)
    (fun pre (r : MGraph × (Mem Nat × Mem Nat)) => ∃ gh, verts ++ gh = extend (verts ++ s.ghosts) (pre.map (fun m => m.2.2)) ∧
      r.1 = ⟨{ s.g with vtxMap := lookup (verts ++ gh), numGhost := gh.length }, gh, gh.map (fun v => (own v : Int))⟩ ∧
      FillInv ids.length (fun u => (ps.getD u []).length) (coded ids K (own0 ++ pre.map Prod.snd)) r.2.1 r.2.2)
    msgs
    (by
      rintro pre ⟨q, x, v⟩ ⟨s1, f1⟩ hpre ⟨gh, hgh, hs1, hf1⟩
      simp only at hs1 hf1
      have hmem : (q, x, v) ∈ msgs := hpre.subset (by simp)
      have hx : x ∈ ids := hmi _ hmem
      have hq : q = own v := hmo _ hmem
      have hnd : (verts ++ gh).Nodup := by rw [hgh]; exact nodup_extend _ hK0
      have hext : extend (verts ++ s.ghosts) ((pre ++ [(q, x, v)]).map (fun m => m.2.2)) =
          if v ∈ verts ++ gh then verts ++ gh else (verts ++ gh) ++ [v] := by
        rw [List.map_append, List.map_singleton, extend_snoc, ← hgh]
      -- the local number
      have hr : ∃ gh', verts ++ gh' = extend (verts ++ s.ghosts) ((pre ++ [(q, x, v)]).map (fun m => m.2.2)) ∧
          ghostFor s1 q v = (⟨{ s.g with vtxMap := lookup (verts ++ gh'), numGhost := gh'.length }, gh', gh'.map (fun v => (own v : Int))⟩, (verts ++ gh').idxOf v) ∧ v ∈ verts ++ gh' := by
        rw [hext]
        unfold ghostFor
        by_cases hv : v ∈ verts ++ gh
        · refine ⟨gh, by rw [if_pos hv], ?_, hv⟩
          rw [hs1]
          simp only
          rw [lookup_of_mem hv]
        · refine ⟨gh ++ [v], by rw [if_neg hv, List.append_assoc], ?_, by simp⟩
          rw [hs1]
          simp only
          rw [lookup_of_not_mem hv]
          simp only
          have hl : s.g.numLocal + gh.length = (verts ++ gh).length := by rw [hnl, List.length_append]
          rw [hl, lookup_snoc hv, ← List.append_assoc, List.idxOf_append_of_notMem hv, hq]
          simp
      obtain ⟨gh', hgh', hrr, hvm'⟩ := hr
      have hKp : verts ++ gh' <+: K := by
        rw [hgh', hKd]
        obtain ⟨r, hr⟩ := hpre
        rw [← hr, List.map_append (l₁ := pre ++ [(q, x, v)]), extend_append]
        exact extend_prefix _ _
      have hidx : (verts ++ gh').idxOf v = K.idxOf v := (idxOf_prefix hKp hvm').symm
      have hlt := List.idxOf_lt_length_of_mem hx
      have hpp : (own0 ++ pre.map Prod.snd) ++ [(x, v)] <+: own0 ++ msgs.map Prod.snd := by
        obtain ⟨r, hr⟩ := hpre
        refine ⟨r.map Prod.snd, ?_⟩
        rw [← hr]
        simp
      obtain ⟨f2, e2, hf2⟩ := putPin_inv hf1 hlt (x := K.idxOf v)
        (room hn K hall hpp (fun u => (ps.getD u []).length) hcl)
      refine ⟨(⟨{ s.g with vtxMap := lookup (verts ++ gh'), numGhost := gh'.length }, gh', gh'.map (fun v => (own v : Int))⟩, f2), ?_, gh', hgh', rfl, ?_⟩
      · unfold recvPin
        simp only
        rw [eidx_eq hmap hx, hrr]
        simp only
        rw [hidx, e2, Outcome.bind_ok]
        rfl
      · simp only
        rw [List.map_append, List.map_singleton, ← List.append_assoc, coded_snoc]
        exact hf2)
    (s, f)
    ⟨s.ghosts, by simp [extend], by
      simp only
      rw [← hvm, ← how, ← hng], by simpa using hf⟩
  rw [e1, Outcome.bind_ok]
  refine ⟨gh, hgh, ?_⟩
  simp only at hs1 hf1 ⊢
  have hb : ∀ u (h : u < ids.length), bucket u (coded ids K (own0 ++ msgs.map Prod.snd)) =
      (ps[u]'(by omega)).map (fun v => K.idxOf v) := by
    intro u hu
    rw [bucket_coded hn K hall hu, hps u hu]
  have hchk : (List.range' 0 e.numEdges).foldlM (pinCheck f1.1 e.pinDegree) () = .ok () := by
    obtain ⟨u, e', -⟩ := range_inv (pinCheck f1.1 e.pinDegree) (fun _ _ => True) 0 e.numEdges
      (by
        intro i s hi _
        rw [hN] at hi
        refine ⟨(), ?_, trivial⟩
        unfold pinCheck
        rw [Nat.zero_add, Mem.load_ok (hf1.temp_eq i hi), Outcome.bind_ok, hpd, Mem.load_ofList (by simp; omega),
          Outcome.bind_ok]
        simp only [List.getElem_map, List.getElem_range]
        rw [hb i hi, List.length_map, off_offs ps (by omega), offs_succ, if_pos]
        rw [List.getD_eq_getElem?_getD, List.getElem?_eq_getElem (by omega), Option.getD_some])
      () trivial
    exact e'
  rw [hchk, Outcome.bind_ok, hs1]
  have hpl2 : f1.2 = Mem.ofList (ps.flatten.map (fun v => K.idxOf v)) := by
    have hflen : offs (fun u => (ps.getD u []).length) ids.length = ps.flatten.length := by
      rw [← off_offs ps (by omega), ← hpl, off, List.take_length]
    apply ofList_of_get
    · rw [hf1.list_len, List.length_map, hflen]
    · intro i hi
      rw [List.length_map, ← hflen] at hi
      obtain ⟨u, k, hu, hk, rfl⟩ := edge_index_split _ _ hi
      have hk' : k < (ps[u]'(by omega)).length := by
        simpa [List.getD_eq_getElem?_getD, List.getElem?_eq_getElem (show u < ps.length by omega)] using hk
      have hl := hf1.list_eq u hu k (by rw [hb u hu, List.length_map]; exact hk')
      rw [hl]
      congr 2
      have hfg := flatten_get ps (show u < ps.length by omega) hk'
      rw [off_offs ps (by omega)] at hfg
      obtain ⟨h1, h2⟩ := List.getElem?_eq_some_iff.mp hfg
      simp only [List.getElem_map, h2]
      simp only [hb u hu, List.getElem_map]
  rw [hpl2, hgh]
  rfl

end Verif.Mesh
