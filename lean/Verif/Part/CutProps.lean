import Verif.Part.CutLemmas
import Mathlib.Algebra.BigOperators.Group.List.Basic
import Mathlib.Algebra.Order.Ring.Rat
/-!
# Property C63: the edge partitioner is given every edge once, under its vertex
-/
namespace Verif.Part
open Verif.Agi Verif.Io

/-! ## specification -/

/-- every edge of type 0 starts at a vertex of the part -/
def OutOnly (i : Input) (e : EdgeInput) : Prop := ∀ x ∈ e.pins, ∃ u ∈ i.verts, x[0]? = some u

section
variable {g : Graph} {hyper : Bool} {verts ghosts : List Gid} {types : List EdgeInput} {zid : Gid → Int}

/-! ## lists -/

theorem cutLists_eq (h : CRep g hyper verts ghosts types) (ht : 0 < types.length) (spare : Nat) :
    cutLists g zid spare = if 0 < spare ∧ (offs (cdeg hyper verts types[0]) verts.length = types[0].pins.length ∨
        (verts = [])) then
      .ok ((List.range verts.length).map (fun u => (zid (verts.getD u 0),
        (List.range' (offs (cdeg hyper verts types[0]) u) (cdeg hyper verts types[0] u)).map (fun k : Nat => (k : Int))))) else .ub := by
  unfold cutLists
  rw [cutFill_eq h ht]
  by_cases hs : 0 < spare
  · by_cases hle : offs (cdeg hyper verts types[0]) verts.length ≤ types[0].pins.length
    · rw [if_pos ⟨hs, hle⟩, Outcome.bind_ok]
      have hvl : (cutState zid hyper verts types[0] spare verts.length).vtx.length = verts.length := by
        unfold cutState
        exact filled_length (by simp) (Nat.le_refl _)
      rw [hvl, show (cutState zid hyper verts types[0] spare verts.length).vtx = filled (verts.map zid) verts.length verts.length from rfl,
        readArr_filled (by simp), Outcome.bind_ok]
      by_cases hE : offs (cdeg hyper verts types[0]) verts.length = types[0].pins.length ∨ verts = []
      · rw [if_pos ⟨hs, hE⟩, mapM_ok (g := fun u => (List.range' (offs (cdeg hyper verts types[0]) u) (cdeg hyper verts types[0] u)).map
          (fun k : Nat => (k : Int))) (by
            intro u hu
            rcases hE with hE | hE
            · exact cutRow_eq hs (by simpa using hu) hE
            · rw [hE] at hu; simp at hu), Outcome.bind_ok]
        simp only [Outcome.pure_eq]
        congr 1
        apply List.ext_getElem
        · simp
        · intro k h1 h2
          have hk : k < verts.length := by simpa using h2
          simp [hk]
      · rw [if_neg (by tauto)]
        have hne : verts ≠ [] := fun hc => hE (Or.inr hc)
        have hpos : 0 < verts.length := by cases verts with | nil => exact absurd rfl hne | cons a l => simp
        have hlt : offs (cdeg hyper verts types[0]) verts.length < types[0].pins.length := by
          have : offs (cdeg hyper verts types[0]) verts.length ≠ types[0].pins.length := fun hc => hE (Or.inl hc)
          omega
        obtain ⟨m, hm⟩ : ∃ m, verts.length = m + 1 := ⟨verts.length - 1, by omega⟩
        have hrows : (List.range verts.length).mapM (cutRow (cutState zid hyper verts types[0] spare verts.length)) = .ub := by
          have hub := cutRow_ub (zid := zid) (e := types[0]) hs (u := m) hm.symm hlt
          rw [hm, List.range_succ, List.mapM_append, List.mapM_cons]
          rw [hm] at hub
          have hok : ∀ l : List Nat, (∀ u ∈ l, u < m) → ∃ L, l.mapM (cutRow (cutState zid hyper verts types[0] spare (m + 1))) = .ok L := by
            intro l
            induction l with
            | nil => intro _; exact ⟨[], rfl⟩
            | cons a l ih =>
              intro hl
              obtain ⟨L, hL⟩ := ih (fun u hu => hl u (by simp [hu]))
              have ha : ∃ r, cutRow (cutState zid hyper verts types[0] spare (m + 1)) a = .ok r := by
                have ham := hl a (by simp)
                have hsl := starts_length (hyper := hyper) (verts := verts) types[0]
                have hmo := offs_mono (cdeg hyper verts types[0]) (show a + 1 ≤ verts.length by omega)
                unfold cutRow cutState
                simp only
                rw [filled_load (by omega) (by omega), starts_get, Outcome.bind_ok, filled_length (by simp; omega) (by omega),
                  if_pos (by omega), filled_load (by omega) (by omega), starts_get, Outcome.bind_ok]
                refine ⟨_, mapM_ok (g := fun k : Nat => (k : Int)) ?_⟩
                intro k hk
                rw [List.mem_range'_1] at hk
                rw [filled_load (by rw [upTo_length, ← hm]; omega) (by rw [← hm]; omega), upTo_get]
              obtain ⟨r, hr⟩ := ha
              refine ⟨r :: L, ?_⟩
              rw [List.mapM_cons, hr, Outcome.bind_ok, hL]
              rfl
          obtain ⟨L, hL⟩ := hok (List.range m) (fun u hu => List.mem_range.mp hu)
          rw [hL, Outcome.bind_ok, hub]
          rfl
        rw [hrows]
        rfl
    · rw [if_neg (by tauto)]
      rw [if_neg (by
        rintro ⟨-, hE | hE⟩
        · omega
        · apply hle
          rw [hE]
          simp [offs_zero])]
      rfl
  · rw [if_neg (by tauto), if_neg (by tauto)]
    rfl

/-! ## weights -/

/-- the arrays of `hg_ew` after `k` vertices -/
def ewState (zid : Gid → Int) (hyper : Bool) (verts : List Gid) (e : EdgeInput) : Nat → CutWgts
  | 0 => ⟨Mem.alloc verts.length, Mem.alloc verts.length, Mem.alloc verts.length, 0⟩
  | k + 1 => ⟨(Mem.alloc verts.length).set 0 (some (zid (verts.getD k 0))), (Mem.alloc verts.length).set 0 (some 0),
      (Mem.alloc verts.length).set 0 (some (invWeight (cdeg hyper verts e k))), 0⟩

theorem ewState_fill (h : CRep g hyper verts ghosts types) (ht : 0 < types.length) :
    iterLoop g.iterVertex (cutEw g zid) g.bound vertexBegin
      ⟨Mem.alloc verts.length, Mem.alloc verts.length, Mem.alloc verts.length, 0⟩ =
    .ok (ewState zid hyper verts types[0] verts.length) := by
  have hy := yields_vertices g
  rw [h.v.nl] at hy
  have := iterLoop_states (body := cutEw g zid) (fuel := g.bound) hy (by simpa using bound_verts h)
    (ewState zid hyper verts types[0]) (by
      intro k hk
      have hk' : k < verts.length := by simpa using hk
      simp only [List.getElem_map, List.getElem_range]
      unfold cutEw
      rw [globalID_idx h.v (by simp; omega), Outcome.bind_ok, List.getElem_append_left hk']
      have hi : (ewState zid hyper verts types[0] k).i = 0 := by cases k <;> rfl
      have hst : ∀ {α : Type} (x : Option α) (y : α), Mem.store ((Mem.alloc verts.length : Mem α).set 0 x) 0 y = .ok ((Mem.alloc verts.length).set 0 (some y)) := by
        intro α x y
        rw [Mem.store_ok _ (by simp [Mem.alloc]; omega), List.set_set]
      have hs0 : ∀ {α : Type} (y : α), (Mem.alloc verts.length : Mem α).store 0 y = .ok ((Mem.alloc verts.length).set 0 (some y)) := by
        intro α y
        rw [Mem.store_ok _ (by simp [Mem.alloc]; omega)]
      rw [hi, cdeg_eq h ht hk']
      have hg : verts.getD k 0 = verts[k] := getD_at hk'
      cases k with
      | zero =>
        simp only [ewState]
        rw [hs0, Outcome.bind_ok, hs0, Outcome.bind_ok, Outcome.bind_ok, hs0, hg]
        rfl
      | succ k =>
        simp only [ewState]
        rw [hst, Outcome.bind_ok, hst, Outcome.bind_ok, Outcome.bind_ok, hst, hg]
        rfl)
  rw [List.length_map, List.length_range] at this
  exact this

theorem cutWeights_eq (h : CRep g hyper verts ghosts types) (ht : 0 < types.length) :
    cutWeights g zid = if verts.length ≤ 1 then
      .ok (verts.map (fun v => (zid v, 0, invWeight (degOf hyper types[0].pins v)))) else .ub := by
  unfold cutWeights
  rw [h.v.nl, ewState_fill h ht, Outcome.bind_ok]
  match verts with
  | [] => rfl
  | [v] => rfl
  | v :: w :: l =>
    rw [if_neg (by simp)]
    have hr : readArr (ewState zid hyper (v :: w :: l) types[0] (v :: w :: l).length).gids = .ub := by
      unfold readArr
      have hlen : (ewState zid hyper (v :: w :: l) types[0] (v :: w :: l).length).gids.length = l.length + 2 := by
        simp [ewState, Mem.alloc]
      rw [hlen, List.range_eq_range', List.range'_succ, List.mapM_cons, List.range'_succ, List.mapM_cons]
      rfl
    rw [hr]
    rfl

end

/-! ## C63 -/

theorem out_total {i : Input} {e : EdgeInput} (hnd : i.verts.Nodup) (ho : OutOnly i e) :
    offs (cdeg false i.verts e) i.verts.length = e.pins.length := by
  have hD : ∀ verts : List Gid, offs (cdeg false verts e) verts.length = (verts.map (fun v => degOf false e.pins v)).sum := by
    intro verts
    unfold offs cdeg
    congr 1
    apply List.ext_getElem
    · simp
    · intro k h1 h2
      have hk : k < verts.length := by simpa using h2
      simp [hk]
  rw [hD]
  unfold degOf
  simp only [Bool.false_eq_true, if_false]
  unfold OutOnly at ho
  generalize e.pins = L at ho
  induction L with
  | nil => simp
  | cons x L ih =>
    have ih' := ih (fun y hy => ho y (by simp [hy]))
    obtain ⟨u, hu, hx⟩ := ho x (by simp)
    simp only [List.countP_cons, hx, List.length_cons]
    rw [List.sum_map_add, ih']
    congr 1
    obtain ⟨a, b, hab⟩ := List.mem_iff_append.mp hu
    rw [hab] at hnd ⊢
    have h1 := List.nodup_append.mp hnd
    have hz : ∀ l : List Gid, u ∉ l → (l.map (fun v => if (some u == some v) = true then 1 else 0)).sum = 0 := by
      intro l hl
      induction l with
      | nil => rfl
      | cons y l ihl =>
        rw [List.map_cons, List.sum_cons, ihl (fun hc => hl (by simp [hc])), if_neg]
        simp only [beq_iff_eq, Option.some.injEq]
        intro hc
        exact hl (by simp [hc])
    rw [List.map_append, List.sum_append, hz a (fun hc => h1.2.2 u hc u (by simp) rfl), List.map_cons, List.sum_cons,
      hz b (List.nodup_cons.mp h1.2.1).1]
    simp

/-- C63 (objects and lists): in a traditional graph whose edges start on the part, the objects are the edges, numbered
0, 1, …, and the list of a vertex holds the numbers of exactly the edges that `edges(v,0)` visits, in that order; every
edge is in exactly one list.  Partial: the weights are never right, see `c63_run_ub`. -/
theorem c63_lists_partial (me : Part) (peers : Nat) (total : Int) (i : Input) (hwf : i.WF) (hh : i.hyper = false)
    (ht : 0 < i.types.length) (ho : OutOnly i i.types[0]) (zid : Gid → Int) :
    ∃ (g : Graph) (rows : List (List Nat)), build me peers total i = .ok g ∧
      cutObjects g = .ok ((List.range i.types[0].pins.length).map (fun k : Nat => (k : Int)),
        (List.range i.types[0].pins.length).map (fun k : Nat => (k : Int))) ∧
      (∀ spare, 0 < spare → cutLists g zid spare =
        .ok ((i.verts.map zid).zip (rows.map (fun r : List Nat => r.map (fun k : Nat => (k : Int)))))) ∧
      rows.length = i.verts.length ∧ rows.flatten = List.range i.types[0].pins.length ∧
      ∀ u (_ : u < i.verts.length) (hu : u < rows.length), ∃ hv, g.findGID i.verts[u] = .ok hv ∧
        YieldsFrom (g.edges hv 0) g.iterEdge (rows[u].map (fun l => g.getEdge l 0)) ∧
        ∀ l ∈ rows[u], g.uEdge (g.getEdge l 0) = .ok hv := by
  obtain ⟨g, ghosts, e, hr⟩ := build_spec me peers total i hwf
  have hc := hr.core hwf
  rw [hh] at hc
  have htot := out_total (List.nodup_append.mp hc.v.nodup).1 ho
  refine ⟨g, (List.range i.verts.length).map (fun u => List.range' (offs (cdeg false i.verts i.types[0]) u)
    (cdeg false i.verts i.types[0] u)), e, cutObjects_eq hc ht, ?_, by simp, ?_, ?_⟩
  · intro spare hs
    rw [cutLists_eq hc ht, if_pos ⟨hs, Or.inl htot⟩]
    congr 1
    apply List.ext_getElem
    · simp
    · intro k h1 h2
      have hk : k < i.verts.length := by simpa using h1
      simp [hk]
  · rw [← List.flatMap_def]
    rw [← htot]
    clear htot
    generalize i.verts.length = n
    induction n with
    | zero => rfl
    | succ n ih =>
      rw [List.range_succ, List.flatMap_append, ih, offs_succ, List.flatMap_singleton, List.range_eq_range',
        List.range_eq_range', ← List.range'_append_1, Nat.zero_add]
  · intro u hu hu'
    refine ⟨_, findGID_local hc.v hu, ?_, ?_⟩
    · have := yields_edges_trad hc ht hu
      simp only [List.getElem_map, List.getElem_range]
      rw [show cdeg false i.verts i.types[0] u = degOf false i.types[0].pins i.verts[u] by rw [cdeg, getD_at hu]]
      exact this
    · intro l hl
      simp only [List.getElem_map, List.getElem_range] at hl
      rw [List.mem_range'_1] at hl
      obtain ⟨k, rfl⟩ : ∃ k, l = offs (cdeg false i.verts i.types[0]) u + k := ⟨l - offs (cdeg false i.verts i.types[0]) u, by omega⟩
      refine uEdge_eq hc ht hu ?_
      have : cdeg false i.verts i.types[0] u = degOf false i.types[0].pins i.verts[u] := by rw [cdeg, getD_at hu]
      omega

/-- C63 is false of the code: on every part with two or more vertices, whatever the graph, the run is undefined: `hg_ew`
fills only the first entry of the arrays Zoltan reads, or `hg_data` has written or read outside its arrays before that. -/
theorem c63_run_ub (me : Part) (peers : Nat) (total : Int) (i : Input) (hwf : i.WF) (ht : 0 < i.types.length)
    (h2 : 2 ≤ i.verts.length) (zid : Gid → Int) (spare : Nat) :
    ∃ g, build me peers total i = .ok g ∧ cutRun g zid spare = .ub := by
  obtain ⟨g, ghosts, e, hr⟩ := build_spec me peers total i hwf
  have hc := hr.core hwf
  refine ⟨g, e, ?_⟩
  unfold cutRun
  rw [cutObjects_eq hc ht, Outcome.bind_ok, cutLists_eq hc ht, cutWeights_eq hc ht, if_neg (show ¬ i.verts.length ≤ 1 by omega)]
  split_ifs <;> rfl

/-- C63 for the only parts where the run is defined: at most one vertex.  The hyperedge of the vertex has the weight
1/degree (infinite without edges). -/
theorem c63_one_vertex_partial (me : Part) (peers : Nat) (total : Int) (i : Input) (hwf : i.WF) (hh : i.hyper = false)
    (ht : 0 < i.types.length) (ho : OutOnly i i.types[0]) (v : Gid) (h1 : i.verts = [v]) (zid : Gid → Int) (spare : Nat)
    (hs : 0 < spare) :
    let ids := (List.range i.types[0].pins.length).map (fun k : Nat => (k : Int))
    ∃ g, build me peers total i = .ok g ∧ cutRun g zid spare = .ok ((ids, ids), [(zid v, ids)],
      [(zid v, 0, if i.types[0].pins.length = 0 then none else some (1 / (i.types[0].pins.length : Rat)))]) := by
  obtain ⟨g, ghosts, e, hr⟩ := build_spec me peers total i hwf
  have hc := hr.core hwf
  rw [hh] at hc
  have htot := out_total (List.nodup_append.mp hc.v.nodup).1 ho
  refine ⟨g, e, ?_⟩
  unfold cutRun
  rw [cutObjects_eq hc ht, Outcome.bind_ok, cutLists_eq hc ht, if_pos ⟨hs, Or.inl htot⟩, Outcome.bind_ok,
    cutWeights_eq hc ht, if_pos (by rw [h1]; simp), Outcome.bind_ok]
  rw [h1] at htot ⊢
  have hd : cdeg false [v] i.types[0] 0 = i.types[0].pins.length := by
    rw [← htot]
    simp [offs]
  have hd' : degOf false i.types[0].pins v = i.types[0].pins.length := by
    rw [← hd]; rfl
  refine congrArg Outcome.ok (Prod.ext rfl (Prod.ext ?_ ?_))
  · show [(zid v, _)] = _
    rw [offs_zero, hd, List.range_eq_range']
  · show [(zid v, (0 : Int), invWeight _)] = _
    rw [hd', invWeight]
    simp only [Int.natCast_eq_zero, Int.cast_natCast]
    rfl

/-- `vtxedge_ptr` as documented, with one entry per list, is always overrun -/
theorem c63_documented_size_ub (me : Part) (peers : Nat) (total : Int) (i : Input) (hwf : i.WF) (ht : 0 < i.types.length)
    (zid : Gid → Int) : ∃ g, build me peers total i = .ok g ∧ cutLists g zid 0 = .ub := by
  obtain ⟨g, ghosts, e, hr⟩ := build_spec me peers total i hwf
  have hc := hr.core hwf
  exact ⟨g, e, by rw [cutLists_eq hc ht, if_neg (by omega)]⟩

/-- in a hypergraph the lists are undefined unless the edges have on average exactly one pin on the part -/
theorem c63_hypergraph_ub (me : Part) (peers : Nat) (total : Int) (i : Input) (hwf : i.WF) (hh : i.hyper = true)
    (ht : 0 < i.types.length) (hv : i.verts ≠ []) (zid : Gid → Int) (spare : Nat)
    (hp : (i.types[0].pins.map (fun p => p.countP (fun v => v ∈ i.verts))).sum ≠ i.types[0].pins.length) :
    ∃ g, build me peers total i = .ok g ∧ cutLists g zid spare = .ub := by
  obtain ⟨g, ghosts, e, hr⟩ := build_spec me peers total i hwf
  have hc := hr.core hwf
  refine ⟨g, e, ?_⟩
  rw [cutLists_eq hc ht, if_neg]
  rintro ⟨-, hE | hE⟩
  · apply hp
    rw [← hE, hh]
    have := rowOff_total (e := i.types[0]) (List.nodup_append.mp hc.v.nodup).1
    unfold rowOff at this
    unfold cdeg
    rw [this]
    rw [List.countP_flatten]
  · exact hv hE

/-- C63 (the answer): every edge Zoltan assigned gets the part it was assigned, the others keep what they had -/
theorem c63_partition (ex : List (Nat × Int)) (hn : (ex.map (·.1)).Nodup) (ptn : Nat → Option Int) :
    (∀ x ∈ ex, cutPtn ex ptn x.1 = some x.2) ∧ ∀ l, l ∉ ex.map (·.1) → cutPtn ex ptn l = ptn l := by
  induction ex generalizing ptn with
  | nil => exact ⟨by simp, fun _ _ => rfl⟩
  | cons y ex ih =>
    rw [List.map_cons, List.nodup_cons] at hn
    obtain ⟨h1, h2⟩ := ih hn.2 (fun l => if l = y.1 then some y.2 else ptn l)
    constructor
    · intro x hx
      rcases List.mem_cons.mp hx with rfl | hx
      · show cutPtn ex _ x.1 = _
        rw [h2 _ hn.1, if_pos rfl]
      · exact h1 x hx
    · intro l hl
      rw [List.map_cons, List.mem_cons, not_or] at hl
      show cutPtn ex _ l = _
      rw [h2 l hl.2, if_neg hl.1]

/-! ## concrete cases -/

/-- two vertices, three edges out of them -/
def cutSample : Input := ⟨false, [10, 20], [1, 1], [⟨[0, 1, 2], [[20, 10], [10, 20], [10, 30]], []⟩]⟩

example : cutSample.WF ∧ OutOnly cutSample ⟨[0, 1, 2], [[20, 10], [10, 20], [10, 30]], []⟩ := by
  refine ⟨⟨by decide, by decide, ?_⟩, by unfold OutOnly; decide⟩
  intro e he
  simp only [cutSample, List.mem_cons, List.not_mem_nil, or_false] at he
  subst he
  exact ⟨by decide, by decide, by decide⟩

/-- the lists are right, the weights are not there -/
example : (do
    let g ← build 0 1 3 cutSample
    let o ← cutObjects g
    let l ← cutLists g id 1
    return (o.1, l)) = Outcome.ok ([0, 1, 2], [(10, [0, 1]), (20, [2])]) := by decide +kernel

theorem c63_two_vertices : (do let g ← build 0 1 3 cutSample; cutWeights g id) = Outcome.ub := by decide +kernel

/-- a star: one vertex with two edges -/
example : (do
    let g ← build 0 1 3 ⟨false, [10], [1], [⟨[0, 1], [[10, 20], [10, 30]], []⟩]⟩
    let r ← cutRun g id 1
    return (r.1.1, r.2.1, r.2.2 == [(10, 0, some (1 / 2))])) = Outcome.ok ([0, 1], [(10, [0, 1])], true) := by decide +kernel

/-- in a hypergraph where the lists are defined they need not be the edges of the vertices: the only edge of vertex 10
is number 1, its list says 0 -/
theorem c63_hypergraph_wrong : (do
    let g ← build 0 2 4 ⟨true, [10, 20], [1, 1], [⟨[0, 1], [[20, 30], [10, 30]], []⟩]⟩
    let l ← cutLists g id 1
    let it ← g.edges (getVertex 0) 0
    let (e, _) ← g.iterEdge it
    let (_, k) ← g.decodeEdge e
    return (l, k)) = Outcome.ok ([(10, [0]), (20, [1])], 1) := by decide +kernel

example : cutPtn [(1, 5), (0, 2)] (fun _ => none) 0 = some 2 := by decide

end Verif.Part
