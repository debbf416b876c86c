import Verif.Io.VcLemmas
import Verif.Io.VcSpec
import Verif.Agi.AnyLemmas
/-!
# The edges arrive: lines 57-94 of `binGraph::migrate`
-/
namespace Verif.Io
open Verif.Agi Verif.Part

/-! ## sending -/

theorem weight_in (g : Graph) {k : Nat} (h : k < g.numLocal) : g.weight (getVertex k) = g.weights.load k := by
  unfold Graph.weight
  rw [vidx_getVertex, Outcome.bind_ok, if_neg (show ¬ g.numLocal + g.numGhost ≤ k by omega), if_neg (show ¬ g.numLocal ≤ k by omega)]

theorem getD_in {α : Type} {l : List α} {i : Nat} (d : α) (h : i < l.length) : l.getD i d = l[i] := by
  simp [h]

theorem vcSend_eq {g : Graph} {F : List (Nat × Nat)} (hs : VcShows g F) (ht : g.numTypes = 1) (hh : g.isHyper = false) {x : Nat × Part}
    (hx : x.1 < F.length) : vcSend g x = .ok (x.2, ((F[x.1].1 : Int), (F[x.1].2 : Int))) := by
  obtain ⟨u, v, hu, hv, e1, e2, e3, e4⟩ := hs x.1 hx
  have hloc : ∀ {k : Nat} {z : Int}, k < g.numLocal → g.globalID (getVertex k) = .ok z → g.localUnmap.load k = .ok z := by
    intro k z hk h
    unfold Graph.globalID at h
    rw [vidx_getVertex, Outcome.bind_ok] at h
    rwa [if_neg (by omega)] at h
  have h1 := hloc hu e2
  have h2 := hloc hv e4
  unfold Graph.uEdge Graph.uOf at e1
  rw [decode_getEdge (by omega), Outcome.bind_ok] at e1
  simp only at e1
  unfold Graph.vOf at e3
  rw [hh, if_neg (by simp), if_neg (by have := getEdge_pos g x.1 0; omega), decode_getEdge (by omega), Outcome.bind_ok] at e3
  simp only at e3
  unfold vcSend
  cases hsl : g.slot 0 with
  | ub => rw [hsl] at e1; cases e1
  | fail => rw [hsl] at e1; cases e1
  | ok e =>
    rw [hsl, Outcome.bind_ok] at e1 e3
    rw [Outcome.bind_ok]
    cases hlp : uLoop e.degreeList x.1 (g.numLocal + 1) 0 g.numLocal with
    | ub => rw [hlp] at e1; cases e1
    | fail => rw [hlp] at e1; cases e1
    | ok r =>
      rw [hlp, Outcome.bind_ok, Outcome.pure_eq, Outcome.bind_ok] at e1
      cases r with
      | none => cases e1
      | some u' =>
        have hu' : u' = u := by
          have := Outcome.ok.inj e1
          simp only [getVertex] at this
          omega
        subst hu'
        rw [Outcome.bind_ok]
        simp only [deref, Outcome.ofOption_some]
        rw [Outcome.bind_ok, h1, Outcome.bind_ok]
        cases hd : e.edgeList.load x.1 with
        | ub => rw [hd] at e3; cases e3
        | fail => rw [hd] at e3; cases e3
        | ok d =>
          rw [hd, Outcome.bind_ok] at e3
          have hdv : d = v := by
            have := Outcome.ok.inj e3
            simp only [getVertex] at this
            omega
          subst hdv
          rw [Outcome.bind_ok, h2]
          rfl

/-- a part that was just built shows its edges -/
theorem shows_built {g : Graph} {et : EType} {me : Nat} {F : List (Nat × Nat)} (hn : g.numLocal = (vcIds me F).length)
    (ht : 0 < g.numTypes) (hh : g.isHyper = false)
    (hun : g.localUnmap = Mem.ofList (vcIds me F)) (h0 : g.types[0]? = some (some et))
    (hdeg : ∀ k, k ≤ (vcIds me F).length → et.degreeList[k]? =
        some (some (offs (fun u => (F.filter (fun e => (vcIds me F).idxOf (e.1 : Int) == u)).length) k)))
    (hel : et.edgeList = Mem.ofList ((vcOrder me F).map (fun e => (vcIds me F).idxOf (e.2 : Int)))) :
    VcShows g (vcOrder me F) := by
  intro l hl
  set B := fun u => F.filter (fun e => (vcIds me F).idxOf (e.1 : Int) == u) with hB
  have hlen : (vcOrder me F).length = offs (fun u => (B u).length) (vcIds me F).length := by
    unfold vcOrder offs
    rw [List.length_flatMap]
  obtain ⟨u, k, hu, hk, hlk⟩ := edge_index_split (fun u => (B u).length) (vcIds me F).length (by rw [← hlen]; exact hl)
  have hat : (vcOrder me F)[l]? = some (B u)[k] := by
    rw [hlk]
    exact flatMap_block B _ u hu k hk
  have hgl : (vcOrder me F)[l] = (B u)[k] := by
    rw [List.getElem?_eq_getElem hl] at hat
    exact Option.some.inj hat
  have hmemB : (B u)[k] ∈ B u := List.getElem_mem hk
  have hmemF : (B u)[k] ∈ F := (List.mem_filter.mp hmemB).1
  have hidx : (vcIds me F).idxOf ((B u)[k].1 : Int) = u := by simpa using (List.mem_filter.mp hmemB).2
  have hin1 : ((B u)[k].1 : Int) ∈ vcIds me F := mem_vcIds.mpr ⟨_, mem_flat.mpr ⟨_, hmemF, Or.inl rfl⟩, rfl⟩
  have hin2 : ((B u)[k].2 : Int) ∈ vcIds me F := mem_vcIds.mpr ⟨_, mem_flat.mpr ⟨_, hmemF, Or.inr rfl⟩, rfl⟩
  have hgid : ∀ j (hj : j < (vcIds me F).length), g.globalID (getVertex j) = .ok (vcIds me F)[j] := by
    intro j hj
    unfold Graph.globalID
    rw [vidx_getVertex, Outcome.bind_ok]
    rw [if_neg (by omega), hun, Mem.load_ofList hj]
  have hv : (vcIds me F).idxOf ((B u)[k].2 : Int) < (vcIds me F).length := List.idxOf_lt_length_of_mem hin2
  refine ⟨u, (vcIds me F).idxOf ((B u)[k].2 : Int), by omega, by omega, ?_, ?_, ?_, ?_⟩
  · have hsu := offs_succ (fun u => (B u).length) u
    have hmo := offs_mono (fun u => (B u).length) (show u + 1 ≤ (vcIds me F).length by omega)
    obtain ⟨i, e1, h4, h5, h6, h7⟩ := uLoop_finds et.degreeList (offs (fun u => (B u).length)) (vcIds me F).length l hdeg
      ((vcIds me F).length + 1) 0 (vcIds me F).length (by omega) (Nat.le_refl _) (by simp [offs_zero]) (by omega) (by omega)
    have : i = u := offs_unique (fun u => (B u).length) h6 h7 (by omega) (by omega)
    subst this
    unfold Graph.uEdge Graph.uOf
    rw [decode_getEdge ht, Outcome.bind_ok]
    simp only
    rw [Graph.slot_ok h0, Outcome.bind_ok, hn, e1]
    rfl
  · rw [hgid u hu, hgl]
    congr 1
    rw [← List.getElem_idxOf (List.idxOf_lt_length_of_mem hin1)]
    congr 1
    exact hidx.symm
  · unfold Graph.vOf
    rw [hh, if_neg (by simp), if_neg (by have := getEdge_pos g l 0; omega), decode_getEdge ht, Outcome.bind_ok]
    simp only
    rw [Graph.slot_ok h0, Outcome.bind_ok, hel, Mem.load_ofList (by simpa using hl), List.getElem_map, hgl]
    rfl
  · rw [hgid _ hv, hgl, List.getElem_idxOf]

/-! ## no ghosts -/

theorem noGhost_tag {α : Type} (gs : List Graph) (h : ∀ g ∈ gs, g.numGhost = 0) (cb : Graph → Handle → Outcome α) (o1 o2 : Nat → List Nat) :
    createGhostTag gs cb o1 o2 = .ok (List.replicate gs.length []) := by
  unfold createGhostTag
  have hreq : gs.mapM Graph.ghostRequests = .ok (List.replicate gs.length []) := by
    rw [mapM_ok (g := fun _ => [])]
    · simp
    · intro g hg
      unfold Graph.ghostRequests
      have hy := yields_ghosts g
      rw [h g hg] at hy
      rw [iterLoop_yields _ _ _ _ _ hy (by simp [Graph.bound]; omega)]
      rfl
  rw [hreq, Outcome.bind_ok, exchange_ok _ (by intro o ho m hm; rw [(List.mem_replicate.mp ho).2] at hm; simp at hm),
    Outcome.bind_ok]
  have hin : ∀ {M : Type} (o : Nat → List Nat), (List.range (List.replicate gs.length ([] : List (Part × M))).length).map
      (fun q => inbox (List.replicate gs.length ([] : List (Part × M))) (o q) q) =
      List.replicate gs.length [] := by
    intro M o
    apply List.ext_getElem
    · simp
    · intro k h1 h2
      simp only [List.getElem_map, List.getElem_range, List.getElem_replicate]
      unfold inbox
      rw [List.flatMap_eq_nil_iff]
      intro p _
      rw [List.getD_eq_getElem?_getD, List.getElem?_replicate]
      split <;> rfl
  rw [hin]
  have hrep2 : (gs.zip (List.replicate gs.length [])).mapM (fun p => p.1.ghostReplies cb p.2) =
      .ok (List.replicate gs.length []) := by
    rw [mapM_ok (g := fun _ => [])]
    · simp
    · intro x hx
      have := (List.of_mem_zip hx).2
      rw [(List.mem_replicate.mp this).2]; rfl
  rw [hrep2, Outcome.bind_ok, exchange_ok _ (by intro o ho m hm; rw [(List.mem_replicate.mp ho).2] at hm; simp at hm),
    Outcome.bind_ok, hin]
  rw [mapM_ok (g := fun _ => [])]
  · simp
  · intro x hx
    obtain ⟨hx1, hx2⟩ := List.of_mem_zip hx
    rw [(List.mem_replicate.mp hx2).2, h _ hx1]; rfl

/-! ## the move -/

/-- what arrives at part `q` -/
def arrived (Fs : List (List (Nat × Nat))) (maps : List (List (Nat × Part))) (o1 : Nat → List Nat) (q : Nat) : List (Nat × Nat) :=
  (o1 q).flatMap (fun p => ((maps.getD p []).filter (fun x => decide (x.2 = (q : Int)))).map
    (fun x => (Fs.getD p []).getD x.1 (0, 0)))

/-- the state of a part after the move -/
structure Moved (g : Graph) (me : Nat) (F : List (Nat × Nat)) (n : Nat) (m : Int) : Prop where
  count : g.numLocal = (vcIds me F).length
  ghosts : g.numGhost = 0
  total : g.globalVerts = (n : Int)
  unmap : g.localUnmap = Mem.ofList (vcIds me F)
  map : g.vtxMap = lookup (vcIds me F)
  edges : g.numLocalEdges 0 = .ok F.length
  gedges : g.numGlobalEdges 0 = .ok m
  shows_ : VcShows g (vcOrder me F)
  weight : ∀ k, k < g.numLocal → g.weight (getVertex k) = .ok 1

theorem vcMove_spec {gs : List Graph} {Fs : List (List (Nat × Nat))} {maps : List (List (Nat × Part))} {n : Nat}
    (h : VcStart gs Fs maps n) {o1 : Nat → List Nat} (ho1 : Orders gs.length o1) (o2 o3 : Nat → List Nat) :
    ∃ gs', vcMove gs maps o1 o2 o3 = .ok gs' ∧ gs'.length = gs.length ∧ ∀ q (hq : q < gs'.length),
      Moved gs'[q] q (arrived Fs maps o1 q) n (((List.range gs.length).map (fun q => ((arrived Fs maps o1 q).length : Int))).sum) := by
  unfold vcMove
  -- sending
  obtain ⟨outs, eo, hol, ho⟩ := mapM_idx (f := fun p : Graph × List (Nat × Part) => p.2.mapM (vcSend p.1))
    (fun p b => b = (maps.getD p []).map (fun x => (x.2, ((((Fs.getD p []).getD x.1 (0, 0)).1 : Int), (((Fs.getD p []).getD x.1 (0, 0)).2 : Int)))))
    (gs.zip maps) (by
      intro p hp
      have hpg : p < gs.length := by simp at hp; omega
      have hpm : p < maps.length := by simp at hp; omega
      refine ⟨_, ?_, rfl⟩
      rw [List.getElem_zip]
      have hm : maps.getD p [] = maps[p] := by simp [hpm]
      rw [hm]
      refine mapM_ok ?_
      intro x hx
      obtain ⟨h1, -, -⟩ := h.keys p hpg x (by rw [hm]; exact hx)
      have hne : Fs.getD p [] ≠ [] := by
        intro hc
        rw [hc] at h1
        simp at h1
      have := vcSend_eq (h.shows_ p hpg) (h.one p hpg hne) (h.trad _ (List.getElem_mem hpg)).1 h1
      rw [this, getD_in (0, 0) h1])
  have hlo : outs.length = gs.length := by
    rw [hol, List.length_zip, h.lenM]
    omega
  have houts : outs = (List.range gs.length).map (fun p => (maps.getD p []).map (fun x => (x.2, ((((Fs.getD p []).getD x.1 (0, 0)).1 : Int), (((Fs.getD p []).getD x.1 (0, 0)).2 : Int))))) := by
    apply List.ext_getElem
    · simp [hlo]
    · intro k h1 h2
      rw [ho k h1]
      simp
  rw [eo, Outcome.bind_ok]
  have hdest : ∀ o ∈ outs, ∀ m ∈ o, 0 ≤ m.1 ∧ m.1 < (outs.length : Int) := by
    intro o hoo m hm
    obtain ⟨p, hp, rfl⟩ := List.mem_iff_getElem.mp hoo
    rw [ho p hp] at hm
    obtain ⟨x, hx, rfl⟩ := List.mem_map.mp hm
    have := h.keys p (by omega) x hx
    rw [hlo]
    exact ⟨this.2.1, this.2.2⟩
  rw [exchange_ok _ hdest, Outcome.bind_ok]
  set ins := (List.range outs.length).map (fun q => inbox outs (o1 q) q) with hins
  have hil : ins.length = gs.length := by rw [hins, List.length_map, List.length_range, hlo]
  have hrecv : ∀ q (hq : q < gs.length), ((inbox outs (o1 q) q).map (·.2)) =
      (arrived Fs maps o1 q).map (fun e => ((e.1 : Int), (e.2 : Int))) := by
    intro q hq
    unfold inbox arrived
    rw [List.map_flatMap, List.map_flatMap]
    apply List.flatMap_congr
    intro p hp
    have hpr : p < gs.length := by
      have := (ho1 q hq).mem_iff.mp hp
      exact List.mem_range.mp this
    have hg : outs.getD p [] = (maps.getD p []).map (fun x => (x.2, ((((Fs.getD p []).getD x.1 (0, 0)).1 : Int), (((Fs.getD p []).getD x.1 (0, 0)).2 : Int)))) := by
      rw [houts, List.getD_eq_getElem?_getD, List.getElem?_map, List.getElem?_range hpr]
      rfl
    rw [hg, List.filter_map, List.map_map, List.map_map, List.map_map]
    rfl
  have hlens : ∀ q (hq : q < gs.length), (inbox outs (o1 q) q).length = (arrived Fs maps o1 q).length := by
    intro q hq
    have := congrArg List.length (hrecv q hq)
    simpa using this
  have hsum : (ins.map (fun r => (r.length : Int))).sum = ((List.range gs.length).map (fun q => ((arrived Fs maps o1 q).length : Int))).sum := by
    rw [hins, List.map_map, hlo]
    congr 1
    apply List.map_congr_left
    intro q hq
    show ((inbox outs (o1 q) q).length : Int) = _
    rw [hlens q (List.mem_range.mp hq)]
  simp only
  rw [h.total, hsum, Int.toNat_natCast]
  set m : Int := ((List.range gs.length).map (fun q => ((arrived Fs maps o1 q).length : Int))).sum
  have hids : ∀ q, q < gs.length → ∀ e ∈ arrived Fs maps o1 q, e.1 < n ∧ e.2 < n := by
    intro q hq e he
    unfold arrived at he
    obtain ⟨p, hp, he⟩ := List.mem_flatMap.mp he
    have hpr : p < gs.length := List.mem_range.mp ((ho1 q hq).mem_iff.mp hp)
    obtain ⟨x, hx, rfl⟩ := List.mem_map.mp he
    obtain ⟨h1, -, -⟩ := h.keys p hpr x (List.mem_filter.mp hx).1
    have hF : Fs.getD p [] = Fs[p]'(by rw [h.lenF]; exact hpr) := by simp [h.lenF, hpr]
    refine h.ids (Fs.getD p []) (by rw [hF]; exact List.getElem_mem _) _ ?_
    rw [getD_in (0, 0) h1]
    exact List.getElem_mem h1
  obtain ⟨gs', eg, hgl, hg⟩ := mapM_idx (f := fun q => do
      let g ← rd gs q
      let r ← rd ins q
      vcBuild g q n m (r.map (·.2)))
    (fun q g => Moved g q (arrived Fs maps o1 q) n m) (List.range gs.length) (by
      intro q hq
      have hq' : q < gs.length := by simpa using hq
      simp only [List.getElem_range]
      rw [rd_ok hq', Outcome.bind_ok, rd_some (show ins[q]? = some (inbox outs (o1 q) q) by
        rw [hins, List.getElem?_map, List.getElem?_range (by omega)]; rfl), Outcome.bind_ok, hrecv q hq']
      obtain ⟨hh, hng, hnt, htl⟩ := h.trad _ (List.getElem_mem hq')
      obtain ⟨g', et, e, a1, a2, a3, a4, a5, a6, a7, a8, a9, a10, a11, a12, a13, a14⟩ := vcBuild_spec gs[q] q m (hids q hq') (by rw [htl]; decide)
      have hnt' : 0 < g'.numTypes := by rw [a5]; split <;> omega
      refine ⟨g', e, ?_⟩
      exact {
        count := a1
        ghosts := by rw [a2, hng]
        total := a6
        unmap := a7
        map := a8
        edges := by unfold Graph.numLocalEdges; rw [Graph.slot_ok a10, Outcome.bind_ok, a11]; rfl
        gedges := by unfold Graph.numGlobalEdges; rw [Graph.slot_ok a10, Outcome.bind_ok, a12]; rfl
        shows_ := shows_built a1 hnt' (by rw [a3, hh]) a7 a10 a13 a14
        weight := by
          intro k hk
          rw [weight_in _ hk, a9]
          apply Mem.load_ok
          rw [List.getElem?_replicate, if_pos (by omega)] })
  rw [List.length_range] at hgl
  rw [eg, Outcome.bind_ok]
  by_cases h1 : 1 < gs.length
  · rw [if_pos h1, noGhost_tag gs' (by
      intro g hg'
      obtain ⟨q, hq, rfl⟩ := List.mem_iff_getElem.mp hg'
      exact (hg q hq).ghosts), Outcome.bind_ok]
    refine ⟨_, rfl, by simp [hgl], ?_⟩
    intro q hq
    have hq' : q < gs'.length := by simpa using hq
    simp only [List.getElem_map, List.getElem_zip, List.getElem_replicate]
    have hm := hg q hq'
    exact { count := hm.count, ghosts := hm.ghosts, total := hm.total, unmap := hm.unmap, map := hm.map, edges := hm.edges, gedges := hm.gedges, shows_ := hm.shows_, weight := by
              intro k hk
              have := hm.weight k hk
              have hk' : k < gs'[q].numLocal := hk
              rw [weight_in _ hk'] at this
              exact (weight_in _ hk).trans this }
  · rw [if_neg h1]
    exact ⟨gs', rfl, hgl, hg⟩

end Verif.Io
