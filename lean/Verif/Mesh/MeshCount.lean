import Verif.Mesh.MeshLoops
/-!
# Counting the pins of a mesh graph on one part
-/
namespace Verif.Mesh
open Verif.Agi

theorem eidx_eq {e : EType} {ids : List Gid} (h : e.edgeMap = lookup ids) {x : Gid} (hx : x ∈ ids) :
    eidx e x = ids.idxOf x := by
  unfold eidx
  rw [h, lookup_of_mem hx, Option.getD_some]

theorem off_offs {α : Type} (l : List (List α)) {k : Nat} (h : k ≤ l.length) :
    off l k = offs (fun u => (l.getD u []).length) k := by
  induction k with
  | zero => rfl
  | succ k ih =>
    rw [off_succ l (by omega), offs_succ, ih (by omega), List.getD_eq_getElem?_getD, List.getElem?_eq_getElem (by omega),
      Option.getD_some]

/-- the messages with the counts -/
def countMsgs (self : Nat) (l : List Ent) : List (Part × (Gid × Nat)) :=
  l.flatMap (fun x => if x.shared then (others self x).map (fun q : Nat => ((q : Int), (x.gid, x.mine.length))) else [])

/-- the local counts -/
theorem countPins_eq {dof : Bool} {t self : Nat} {m : MeshPart} {s : MGraph} {e : EType}
    (he : s.g.types[t]? = some (some e)) (ht : t < m.ents.length)
    (hn : ((m.entsOf t).map Ent.gid).Nodup) (hN : e.numEdges = (m.entsOf t).length)
    (hmap : e.edgeMap = lookup ((m.entsOf t).map Ent.gid)) :
    ∃ pdl : Mem Nat, countPins dof t self m s = .ok (pdl, countMsgs self (m.entsOf t)) ∧
      pdl.length = (m.entsOf t).length + 1 ∧ pdl[0]? = some (some 0) ∧
      ∀ k (h : k < (m.entsOf t).length), pdl[k + 1]? = some (some (m.entsOf t)[k].mine.length) := by
  unfold countPins
  have hes : m.ents[t] = m.entsOf t := by
    unfold MeshPart.entsOf
    rw [List.getD_eq_getElem?_getD, List.getElem?_eq_getElem ht, Option.getD_some]
  rw [Graph.slot_ok he, Outcome.bind_ok, rd_ok ht, Outcome.bind_ok, hes, hN]
  set es := m.entsOf t with hesd
  have hinit : ∃ pdl : Mem Nat, pdlInit dof es.length = .ok pdl ∧ pdl.length = es.length + 1 ∧ pdl[0]? = some (some 0) ∧
      (dof = true → ∀ k, k < es.length → pdl[k + 1]? = some (some 0)) := by
    unfold pdlInit
    cases dof
    · rw [if_neg (by simp), Mem.store_ok _ (by simp [Mem.alloc])]
      exact ⟨_, rfl, by simp [Mem.alloc], by simp [Mem.alloc], by simp⟩
    · rw [if_pos rfl]
      refine ⟨_, rfl, by simp [Mem.ofList], by simp [Mem.ofList], fun _ k hk => ?_⟩
      simp only [Mem.ofList, List.map_replicate, List.getElem?_replicate]
      rw [if_pos (by omega)]
  obtain ⟨p0, e0, hl0, hz0, hd0⟩ := hinit
  rw [e0, Outcome.bind_ok]
  obtain ⟨⟨pdl, ms⟩, e', hl, hz, hv, -, hm⟩ := foldlM_inv (countStep dof self e)
    (fun pre (s : Mem Nat × List (Part × (Gid × Nat))) => s.1.length = es.length + 1 ∧ s.1[0]? = some (some 0) ∧
      (∀ k (h : k < pre.length), s.1[k + 1]? = some (some pre[k].mine.length)) ∧
      (dof = true → ∀ k, pre.length ≤ k → k < es.length → s.1[k + 1]? = some (some 0)) ∧ s.2 = countMsgs self pre)
    es
    (by
      rintro pre x ⟨pdl, ms⟩ hpre ⟨hl, hz, hv, hd, hm⟩
      simp only at hl hz hv hd hm
      have hle := hpre.length_le
      rw [List.length_append, List.length_singleton] at hle
      have hmem : x.gid ∈ es.map Ent.gid := List.mem_map.mpr ⟨x, hpre.subset (by simp), rfl⟩
      have hidx : eidx e x.gid = pre.length := by
        rw [eidx_eq hmap hmem]
        have hget : (es.map Ent.gid)[pre.length]'(by rw [List.length_map]; omega) = x.gid := by
          obtain ⟨r, hr⟩ := hpre
          simp [← hr]
        rw [← hget]
        exact hn.idxOf_getElem _ _
      have hchk : pdlCheck dof pdl (pre.length + 1) = .ok () := by
        unfold pdlCheck
        cases hdof : dof
        · rfl
        · rw [if_pos rfl, Mem.load_ok (hd hdof pre.length (Nat.le_refl _) (by omega)), Outcome.bind_ok, if_pos rfl]
      unfold countStep
      simp only
      rw [hidx, hchk, Outcome.bind_ok, Mem.store_ok _ (by omega), Outcome.bind_ok]
      refine ⟨_, rfl, by simpa using hl, ?_, ?_, ?_, ?_⟩
      · simp only
        rw [List.getElem?_set, if_neg (by omega)]; exact hz
      · intro k hk
        simp only
        rw [List.length_append, List.length_singleton] at hk
        rw [List.getElem?_set]
        by_cases h : pre.length = k
        · subst h
          rw [if_pos rfl, if_pos (by omega)]
          simp
        · rw [if_neg (by omega), hv k (by omega)]
          congr 3
          rw [List.getElem_append_left]
      · intro hdof k hk1 hk2
        rw [List.length_append, List.length_singleton] at hk1
        simp only
        rw [List.getElem?_set, if_neg (by omega)]
        exact hd hdof k (by omega) hk2
      · simp only
        rw [hm]
        unfold countMsgs
        simp)
    (p0, []) ⟨hl0, hz0, by simp, fun h k _ hk => hd0 h k hk, rfl⟩
  simp only at hl hz hv hm
  refine ⟨pdl, ?_, hl, hz, hv⟩
  rw [e', hm]

/-- the counts in the messages about an edge -/
def counted (msgs : List (Nat × (Gid × Nat))) (x : Gid) : Nat :=
  ((msgs.filter (fun m => decide (m.2.1 = x))).map (fun m => m.2.2)).sum

theorem recvCounts {e : EType} {ids : List Gid} (hn : ids.Nodup) (hmap : e.edgeMap = lookup ids)
    (a : Nat → Nat) (pdl : Mem Nat) (hl : pdl.length = ids.length + 1) (hz : pdl[0]? = some (some 0))
    (hv : ∀ k, k < ids.length → pdl[k + 1]? = some (some (a k)))
    (msgs : List (Nat × (Gid × Nat))) (hm : ∀ m ∈ msgs, m.2.1 ∈ ids) :
    ∃ pdl' : Mem Nat, msgs.foldlM (recvCount e) pdl = .ok pdl' ∧ pdl'.length = ids.length + 1 ∧ pdl'[0]? = some (some 0) ∧
      ∀ k (h : k < ids.length), pdl'[k + 1]? = some (some (a k + counted msgs ids[k])) := by
  obtain ⟨p', e', h1, h2, h3⟩ := foldlM_inv (recvCount e)
    (fun pre (pdl' : Mem Nat) => pdl'.length = ids.length + 1 ∧ pdl'[0]? = some (some 0) ∧
      ∀ k (h : k < ids.length), pdl'[k + 1]? = some (some (a k + counted pre ids[k])))
    msgs
    (by
      rintro pre ⟨q, x, c⟩ p hpre ⟨hl, hz, hv⟩
      have hx : x ∈ ids := hm (q, x, c) (hpre.subset (by simp))
      have hlt := List.idxOf_lt_length_of_mem hx
      unfold recvCount
      simp only
      rw [eidx_eq hmap hx, Mem.load_ok (hv _ hlt), Outcome.bind_ok, Mem.store_ok _ (by omega)]
      refine ⟨_, rfl, by simpa using hl, ?_, ?_⟩
      · rw [List.getElem?_set, if_neg (by omega)]; exact hz
      · intro k hk
        have hcount : counted (pre ++ [(q, x, c)]) ids[k] = counted pre ids[k] + if x = ids[k] then c else 0 := by
          unfold counted
          rw [List.filter_append, List.map_append, List.sum_append]
          by_cases h : x = ids[k]
          · simp [h]
          · simp [h]
        rw [List.getElem?_set, hcount]
        by_cases h : ids.idxOf x = k
        · subst h
          rw [if_pos rfl, if_pos (by omega), List.getElem_idxOf, if_pos rfl, Nat.add_assoc]
        · rw [if_neg (by omega), hv k hk, if_neg, Nat.add_zero]
          intro hx'
          apply h
          rw [hx']
          exact hn.idxOf_getElem _ _)
    pdl ⟨hl, hz, fun k hk => by rw [hv k hk]; simp [counted]⟩
  exact ⟨p', e', h1, h2, h3⟩

/-- the offsets -/
theorem prefix_from_two (c : Nat → Nat) (n : Nat) (m : Mem Nat) (hlen : m.length = n + 1)
    (h0 : m[0]? = some (some 0)) (hc : ∀ k, k < n → m[k + 1]? = some (some (c k))) :
    ∃ m', (List.range' 2 (n - 1)).foldlM prefixStep m = .ok m' ∧ m'.length = n + 1 ∧
      ∀ k, k ≤ n → m'[k]? = some (some (offs c k)) := by
  cases n with
  | zero =>
    refine ⟨m, rfl, hlen, fun k hk => ?_⟩
    rw [Nat.le_zero.mp hk]; exact h0
  | succ n =>
    obtain ⟨m', e, h1, h2⟩ := prefix_loop c (n + 1) m hlen h0 hc
    refine ⟨m', ?_, h1, h2⟩
    rw [List.range'_succ, List.foldlM_cons] at e
    have hstep : prefixStep m 1 = .ok m := by
      unfold prefixStep
      rw [Mem.load_ok (hc 0 (by omega)), Outcome.bind_ok, Mem.load_ok h0, Outcome.bind_ok, Mem.store_ok _ (by omega)]
      congr 1
      have h := hc 0 (by omega)
      obtain ⟨hlt, hg⟩ := List.getElem?_eq_some_iff.mp h
      simp only [Nat.zero_add] at hg hlt
      rw [Nat.add_zero, ← hg]
      exact List.set_getElem_self hlt
    rw [hstep, Outcome.bind_ok] at e
    exact e

theorem finishCounts_eq {t : Nat} {s : MGraph} {e : EType} (he : s.g.types[t]? = some (some e)) {ids : List Gid}
    (hn : ids.Nodup) (hN : e.numEdges = ids.length) (hmap : e.edgeMap = lookup ids)
    (a : Nat → Nat) (pdl : Mem Nat) (hl : pdl.length = ids.length + 1) (hz : pdl[0]? = some (some 0))
    (hv : ∀ k, k < ids.length → pdl[k + 1]? = some (some (a k)))
    (msgs : List (Nat × (Gid × Nat))) (hm : ∀ m ∈ msgs, m.2.1 ∈ ids)
    (ps : List (List Gid)) (hpl : ps.length = ids.length)
    (hps : ∀ k (h : k < ids.length), (ps[k]'(by omega)).length = a k + counted msgs ids[k]) :
    finishCounts t s pdl msgs = .ok { s with g := { s.g with types := s.g.types.set t (some { e with pinDegree := Mem.ofList ((List.range (ps.length + 1)).map (off ps)), numPins := ps.flatten.length, pinList := Mem.alloc ps.flatten.length }) } } := by
  unfold finishCounts
  rw [Graph.slot_ok he, Outcome.bind_ok]
  obtain ⟨p1, e1, hl1, hz1, hv1⟩ := recvCounts hn hmap a pdl hl hz hv msgs hm
  rw [e1, Outcome.bind_ok, hN]
  have hc : ∀ k, k < ids.length → p1[k + 1]? = some (some ((fun u => (ps.getD u []).length) k)) := by
    intro k hk
    rw [hv1 k hk, ← hps k hk]
    simp only
    rw [List.getD_eq_getElem?_getD, List.getElem?_eq_getElem (by omega), Option.getD_some]
  obtain ⟨p2, e2, hl2, hv2⟩ := prefix_from_two _ ids.length p1 hl1 hz1 hc
  have hp2 : p2 = Mem.ofList ((List.range (ps.length + 1)).map (off ps)) := by
    apply ofList_of_get
    · simp [hl2, hpl]
    · intro i hi
      simp only [List.length_map, List.length_range] at hi
      rw [hv2 i (by omega)]
      simp only [List.getElem_map, List.getElem_range]
      rw [off_offs ps (by omega)]
  rw [e2, Outcome.bind_ok, Mem.load_ok (hv2 _ (Nat.le_refl _)), Outcome.bind_ok, ← off_offs ps (by omega), hp2]
  have : off ps ids.length = ps.flatten.length := by
    unfold off
    rw [← hpl, List.take_length]
  rw [this]
  rfl

end Verif.Mesh
