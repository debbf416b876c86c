import Verif.Part.ParmetisTrad
import Verif.Agi.TradProps
/-!
# C44 for traditional graphs
-/
namespace Verif.Part
open Verif.Agi Verif.Io

/-! ## specification -/

/-- the edges of type `t` of all parts -/
def arcsOf (ins : List Input) (t : Nat) : List HEdge := ins.flatMap (fun i => ((i.types[t]?).map EdgeInput.edges).getD [])

/-- there is an edge from `v` to `w` -/
def Arc (ins : List Input) (t : Nat) (v w : Gid) : Prop := ∃ e ∈ arcsOf ins t, e.pins = [v, w]

/-- the weight of the edges from `v` to `w` together -/
def arcWeight (ins : List Input) (t : Nat) (wt : HEdge → Int) (v w : Gid) : Int :=
  ((arcsOf ins t).map (fun e => if e.pins = [v, w] then wt e else 0)).sum

/-- a traditional graph: every part passes its own vertices and the edges that leave them; there are no loops; every vertex
an edge reaches is passed by the part that owns it -/
structure TradDist (ins : List Input) (own : Gid → Nat) (T : Nat) : Prop where
  dist : Dist ins own
  uniform : Uniform ins false T
  sources : ∀ i ∈ ins, SourcesLocal i

/-- no weight is given to the wrong edge (see C08): on every part the edges of type `t` are listed by source in the order
of the vertices, or all have the same weight -/
def WeightsKept (ins : List Input) (t : Nat) : Prop :=
  ∀ i ∈ ins, ∀ e, i.types[t]? = some e → e.pins.Pairwise (fun p q => srcIdx i.verts p ≤ srcIdx i.verts q) ∨
    ∀ x ∈ e.edges, ∀ y ∈ e.edges, x.w = y.w

/-! ## proof -/

section
variable {ins : List Input} {own : Gid → Nat} {T t : Nat}

theorem arcsOf_split {p : Nat} (hp : p < ins.length) (htp : t < ins[p].types.length) :
    arcsOf ins t = arcsOf (ins.take p) t ++ (ins[p].types[t].edges ++ arcsOf (ins.drop (p + 1)) t) := by
  conv_lhs => rw [← List.take_append_drop p ins, List.drop_eq_getElem_cons hp]
  unfold arcsOf
  rw [List.flatMap_append, List.flatMap_cons, List.getElem?_eq_getElem htp]
  rfl

theorem edge_pins_mem {e : EdgeInput} {x : HEdge} (h : x ∈ e.edges) : x.pins ∈ e.pins := by
  unfold EdgeInput.edges at h
  obtain ⟨y, hy, rfl⟩ := List.mem_map.mp h
  have := List.of_mem_zip hy
  exact (List.of_mem_zip this.2).1

/-- an edge of another part does not leave a vertex of part `p` -/
theorem foreign (hd : TradDist ins own T) {p q : Nat} (hp : p < ins.length) (hq : q < ins.length) (hne : q ≠ p) {x : HEdge}
    (hx : x ∈ ((ins[q].types[t]?).map EdgeInput.edges).getD []) {v w : Gid} (hv : v ∈ ins[p].verts) : x.pins ≠ [v, w] := by
  intro hc
  cases he : ins[q].types[t]? with
  | none => simp [he] at hx
  | some e =>
    rw [he] at hx
    have hm := edge_pins_mem hx
    obtain ⟨u, hu, w', -, he'⟩ := hd.sources _ (List.getElem_mem hq) e (List.mem_of_getElem? he) _ hm
    rw [hc] at he'
    simp only [List.cons.injEq] at he'
    rw [← he'.1] at hu
    exact hne ((hd.dist.verts q hq v hu).symm.trans (hd.dist.verts p hp v hv))

theorem arc_part (hd : TradDist ins own T) {p : Nat} (hp : p < ins.length) (htp : t < ins[p].types.length) {v : Gid} (hv : v ∈ ins[p].verts)
    (w : Gid) : Arc ins t v w ↔ [v, w] ∈ ins[p].types[t].pins := by
  have hwf := (hd.dist.wf _ (List.getElem_mem hp)).edges _ (List.getElem_mem htp)
  constructor
  · rintro ⟨x, hx, he⟩
    obtain ⟨i, hi, hx⟩ := List.mem_flatMap.mp hx
    obtain ⟨q, hq, rfl⟩ := List.mem_iff_getElem.mp hi
    by_cases hne : q = p
    · subst hne
      rw [List.getElem?_eq_getElem htp] at hx
      rw [← he]
      exact edge_pins_mem hx
    · exact absurd he (foreign hd hp hq hne hx hv)
  · intro h
    rw [← edges_pins hwf] at h
    obtain ⟨x, hx, he⟩ := List.mem_map.mp h
    refine ⟨x, ?_, he⟩
    rw [arcsOf_split hp htp]
    simp [hx]

theorem arcWeight_part (hd : TradDist ins own T) {p : Nat} (hp : p < ins.length) (htp : t < ins[p].types.length) {v : Gid} (hv : v ∈ ins[p].verts)
    (w : Gid) (wt : HEdge → Int) :
    arcWeight ins t wt v w = ((ins[p].types[t].pins.zip (ins[p].types[t].edges.map wt)).map (fun e => if e.1 = [v, w] then e.2 else 0)).sum := by
  have hwf := (hd.dist.wf _ (List.getElem_mem hp)).edges _ (List.getElem_mem htp)
  rw [(edges_zip htp hwf wt).1, List.map_map]
  unfold arcWeight
  rw [arcsOf_split hp htp, List.map_append, List.sum_append, List.map_append, List.sum_append]
  have hz : ∀ (L : List HEdge), (∀ x ∈ L, x.pins ≠ [v, w]) → (L.map (fun e => if e.pins = [v, w] then wt e else 0)).sum = 0 := by
    intro L hL
    apply List.sum_eq_zero
    intro y hy
    obtain ⟨x, hx, rfl⟩ := List.mem_map.mp hy
    rw [if_neg (hL x hx)]
  rw [hz (arcsOf (ins.take p) t) (by
      intro x hx
      obtain ⟨i, hi, hx⟩ := List.mem_flatMap.mp hx
      obtain ⟨q, hq, rfl⟩ := List.mem_take_iff_getElem.mp hi
      exact foreign hd hp (by omega) (by omega) hx hv),
    hz (arcsOf (ins.drop (p + 1)) t) (by
      intro x hx
      obtain ⟨i, hi, hx⟩ := List.mem_flatMap.mp hx
      obtain ⟨q, hq, rfl⟩ := List.mem_drop_iff_getElem.mp hi
      exact foreign hd hp (by omega) (by omega) hx hv)]
  simp only [Int.zero_add, Int.add_zero]
  rfl

theorem kept_zip {i : Input} (hnd : i.verts.Nodup) {e : EdgeInput} (hwf : e.WF false) (hs : ArcsOn i.verts e.pins)
    (hk : e.pins.Pairwise (fun p q => srcIdx i.verts p ≤ srcIdx i.verts q) ∨ ∀ x ∈ e.edges, ∀ y ∈ e.edges, x.w = y.w)
    {W : List Int} (hW : e.weights.map truncD = W) :
    ((grouped i.verts e.pins).zip W).Perm (e.pins.zip W) := by
  rcases hk with hk | hk
  · rw [grouped_sorted hnd hs hk]
  · have hperm := grouped_perm hnd hs
    have hl1 := weights_length hwf
    have hWl : W.length = e.pins.length := by rw [← hl1, ← hW, List.length_map]
    have hi := hwf.ids_len
    have hx : ∀ k (hk : k < e.pins.length), (⟨e.ids[k]'(by omega), e.pins[k], e.weights[k]'(by omega)⟩ : HEdge) ∈ e.edges := by
      intro k hk
      unfold EdgeInput.edges
      refine List.mem_map.mpr ⟨(e.ids[k]'(by omega), e.pins[k], e.weights[k]'(by omega)), ?_, rfl⟩
      refine List.mem_iff_getElem.mpr ⟨k, by simp; omega, ?_⟩
      simp
    obtain ⟨c, hc⟩ : ∃ c, W = List.replicate e.pins.length c := by
      by_cases h0 : 0 < e.pins.length
      · refine ⟨W[0]'(by omega), ?_⟩
        rw [List.eq_replicate_iff]
        refine ⟨hWl, fun b hb => ?_⟩
        obtain ⟨k, hk', rfl⟩ := List.mem_iff_getElem.mp hb
        have := hk _ (hx k (by omega)) _ (hx 0 h0)
        simp only [← hW, List.getElem_map]
        exact congrArg truncD this
      · refine ⟨0, ?_⟩
        have : e.pins.length = 0 := by omega
        rw [this]
        simp only [List.replicate_zero]
        exact List.length_eq_zero_iff.mp (by omega)
    have hz : ∀ L : List (List Gid), L.length = e.pins.length → L.zip W = L.map (fun x => (x, c)) := by
      intro L hL
      apply List.ext_getElem
      · simp [hL, hWl]
      · intro k h1 h2
        simp [hc]
    rw [hz _ hperm.length_eq, hz _ rfl]
    exact hperm.map _

theorem pmWorld_trad (hd : TradDist ins own T) {gs' : List Graph} (hw : World gs' ins own) (ht : t < T)
    (hts : TruncSafe ((arcsOf ins t).map HEdge.w)) (hk : WeightsKept ins t) :
    PmWorld gs' ins own t (Arc ins t) (arcWeight ins t (fun e => truncD e.w)) := by
  refine ⟨hw.1, fun p hp hg => ?_⟩
  obtain ⟨ghosts, hr⟩ := hw.2 p hg hp
  have htp : t < ins[p].types.length := by rw [hd.uniform.types _ (List.getElem_mem hp)]; exact ht
  have hh := hd.uniform.hyper _ (List.getElem_mem hp)
  have hc := hr.core
  rw [hh] at hc
  have hwfi := hd.dist.wf _ (List.getElem_mem hp)
  have hwf := hwfi.edges _ (List.getElem_mem htp)
  rw [hh] at hwf
  have hs : ArcsOn ins[p].verts ins[p].types[t].pins := hd.sources _ (List.getElem_mem hp) _ (List.getElem_mem htp)
  obtain ⟨-, hwz⟩ := edges_zip htp hwf (fun e => truncD e.w)
  have hint : ins[p].types[t].weights.map truncD = ins[p].types[t].edges.map (fun e => truncD e.w) := by
    rw [← hwz, List.map_map]; rfl
  have hlen : (ins[p].types[t].edges.map (fun e => truncD e.w)).length = ins[p].types[t].pins.length := by
    rw [← edges_pins hwf, List.length_map, List.length_map]
  have hsafe : TruncSafe ins[p].types[t].weights := by
    apply hts.of_subset
    intro w hw
    rw [← hwz] at hw
    obtain ⟨e, he, rfl⟩ := List.mem_map.mp hw
    exact List.mem_map.mpr ⟨e, by rw [arcsOf_split hp htp]; simp [he], rfl⟩
  have hkn : ∀ {v w : Gid}, [v, w] ∈ ins[p].types[t].pins → w ∈ ins[p].verts ++ ghosts := fun he =>
    hc.pins t htp _ (List.mem_flatten.mpr ⟨_, he, by simp⟩)
  have hne : ∀ v w, [v, w] ∈ ins[p].types[t].pins → v ≠ w := by
    intro v w he
    obtain ⟨a, -, b, hab, hx⟩ := hs _ he
    simp only [List.cons.injEq, and_true] at hx
    rw [hx.1, hx.2]; exact hab
  refine ⟨ghosts, wrOf gs'[p], runT gs'[p] ins[p].verts (ins[p].verts ++ ghosts) t ins[p].types[t].pins, hr, ?_, hc.v.nl, ?_, ?_, ?_, ?_⟩
  · refine pmFacts_trad hc htp hs (own := fun v => (own v : Int)) hr.owners hr.rank ?_ ?_ hr.weights (vertWeights_length _ _) (weights_length hwf)
    · intro v hv
      rw [hd.dist.verts p hp v hv]
    · intro v hv hc
      exact (ghosts_owner hd.dist hp hr hv).1 (by exact_mod_cast hc)
  · intro u hu k
    rw [mem_others_trad hc htp hs hu]
    constructor
    · rintro ⟨w, h1, ⟨h2, h3⟩, h4⟩
      exact ⟨w, h1, (arc_part hd hp htp (List.getElem_mem hu) w).mpr h3, h4⟩
    · rintro ⟨w, h1, h2, h4⟩
      have h3 := (arc_part hd hp htp (List.getElem_mem hu) w).mp h2
      exact ⟨w, h1, ⟨hne _ _ h3, h3⟩, h4⟩
  · intro u hu w h
    exact hkn ((arc_part hd hp htp (List.getElem_mem hu) w).mp h)
  · rintro v w ⟨x, hx, he⟩
    obtain ⟨i, hi, hx⟩ := List.mem_flatMap.mp hx
    cases he' : i.types[t]? with
    | none => simp [he'] at hx
    | some e =>
      rw [he'] at hx
      have hm := edge_pins_mem hx
      obtain ⟨a, -, b, hab, hx⟩ := hd.sources i hi e (List.mem_of_getElem? he') _ hm
      rw [he] at hx
      simp only [List.cons.injEq, and_true] at hx
      rw [hx.1, hx.2]; exact Ne.symm hab
  · intro u hu w h
    have h3 := (arc_part hd hp htp (List.getElem_mem hu) w).mp h
    rw [nbrAcc_trad hc htp hs hsafe hint hlen hu (hkn h3) (hne _ _ h3),
      arcWeight_part hd hp htp (List.getElem_mem hu) w (fun e => truncD e.w)]
    exact int_sum_perm ((kept_zip hwfi.nodup hwf hs (hk _ (List.getElem_mem hp) _ (List.getElem?_eq_getElem htp)) hint).map _)

end

/-- **C44 for traditional graphs**: for every distribution of a traditional graph in which each edge comes with its reverse
and the edge weights are integers or not negative, and given to the right edges by the construction, whatever the order of messages and map
iterations, every part hands to the partitioner the offsets of the numbering `pmNum` and, for each of its vertices `v`,
exactly the vertices that an edge from `v` reaches, each once, under the number `pmNum` gives it, with the total weight of
the edges to it.  No array is read or written out of bounds, and none has a cell left unwritten. -/
theorem c44_arcs (ins : List Input) (own : Gid → Nat) (T : Nat) (hd : TradDist ins own T)
    (owns : List (GMap Part)) (ho : OwnMaps ins own owns) (o1 o2 o3 : Nat → List Nat) (ho1 : Orders ins.length o1)
    (ho2 : Orders ins.length o2) (ho3 : Orders ins.length o3)
    (ord : Nat → Nat → List (Handle × Int) → List (Handle × Int)) (hord : ∀ p i l, (ord p i l).Perm l)
    (t : Nat) (ht : t < T) (hts : TruncSafe ((arcsOf ins t).map HEdge.w)) (hk : WeightsKept ins t)
    (hsym : ∀ v w, Arc ins t v w → Arc ins t w v) :
    ∃ gs gs' As, buildAll ins = .ok gs ∧ constructGhosts gs owns o1 o2 = .ok gs' ∧
      parmetisAll gs' t o3 ord = .ok As ∧ As.length = ins.length ∧
      ∀ p (hp : p < ins.length) (hA : p < As.length),
        As[p].vtxdist = (List.range (ins.length + 1)).map (fun q => (vertsBefore ins q : Int)) ∧
        CsrOf As[p] ins[p].verts (Arc ins t) (fun v => (pmNum ins own v : Int)) (arcWeight ins t (fun e => truncD e.w))
          (fun v => truncD (weightOf ins own v)) := by
  obtain ⟨gs, e1, hb⟩ := buildAll_spec ins hd.dist.wf
  obtain ⟨gs', e2, hw, -⟩ := constructGhosts_spec hb hd.dist hd.uniform ho ho1 ho2
  obtain ⟨As, e3, h⟩ := csr_gen hd.dist (pmWorld_trad hd hw ht hts hk) hsym o3 ho3 ord hord
  exact ⟨gs, gs', As, e1, e2, e3, h⟩

/-- **C44 for traditional graphs, a local split**: the graph of the vertices of the part only; here the reverse edges are
not needed. -/
theorem c44_local_arcs (ins : List Input) (own : Gid → Nat) (T : Nat) (hd : TradDist ins own T)
    (owns : List (GMap Part)) (ho : OwnMaps ins own owns) (o1 o2 : Nat → List Nat) (ho1 : Orders ins.length o1)
    (ho2 : Orders ins.length o2) (o3 : Nat → List Nat) (ho3 : Orders 1 o3)
    (ord : Nat → List (Handle × Int) → List (Handle × Int)) (hord : ∀ i l, (ord i l).Perm l)
    (t : Nat) (ht : t < T) (hts : TruncSafe ((arcsOf ins t).map HEdge.w)) (hk : WeightsKept ins t) :
    ∃ gs gs', buildAll ins = .ok gs ∧ constructGhosts gs owns o1 o2 = .ok gs' ∧ gs'.length = ins.length ∧
      ∀ p (hp : p < ins.length) (hg : p < gs'.length), ∃ A, parmetisLocal gs'[p] (p : Int) t o3 ord = .ok A ∧
        A.vtxdist = [0, (ins[p].verts.length : Int)] ∧
        CsrOf A ins[p].verts (fun v w => Arc ins t v w ∧ w ∈ ins[p].verts) (fun v => (ins[p].verts.idxOf v : Int))
          (arcWeight ins t (fun e => truncD e.w)) (fun v => truncD (weightOf ins own v)) := by
  obtain ⟨gs, e1, hb⟩ := buildAll_spec ins hd.dist.wf
  obtain ⟨gs', e2, hw, -⟩ := constructGhosts_spec hb hd.dist hd.uniform ho ho1 ho2
  exact ⟨gs, gs', e1, e2, hw.1, fun p hp hg => local_gen hd.dist (pmWorld_trad hd hw ht hts hk) o3 ho3 ord hord p hp hg⟩

/-! ## a case -/

/-- a path 1 - 2 - 3 with both directions of each edge; part 0 has 1 and 2, part 1 has 3; the edges between 2 and 3 weigh 5 -/
def pathWorld : List Input :=
  [{ hyper := false, verts := [1, 2], wgts := [], types := [⟨[0, 1, 2], [[1, 2], [2, 1], [2, 3]], [1, 1, 5]⟩] },
   { hyper := false, verts := [3], wgts := [], types := [⟨[3], [[3, 2]], [5]⟩] }]

def pathOwn (v : Gid) : Nat := if v = 3 then 1 else 0

theorem pathWorld_dist : TradDist pathWorld pathOwn 1 := by
  refine ⟨⟨?_, by decide, by decide⟩, ⟨by decide, by decide⟩, ?_⟩
  · intro i hi
    simp only [pathWorld, List.mem_cons, List.not_mem_nil, or_false] at hi
    rcases hi with rfl | rfl
    all_goals
      refine ⟨by decide, by decide, ?_⟩
      intro e he
      simp only [List.mem_cons, List.not_mem_nil, or_false] at he
      subst he; exact ⟨by decide, by decide, by decide⟩
  · intro i hi e he x hx
    simp only [pathWorld, List.mem_cons, List.not_mem_nil, or_false] at hi
    rcases hi with rfl | rfl
    all_goals
      simp only [List.mem_cons, List.not_mem_nil, or_false] at he
      subst he
      simp only [List.mem_cons, List.not_mem_nil, or_false] at hx
    · rcases hx with rfl | rfl | rfl
      · exact ⟨1, by decide, 2, by decide, rfl⟩
      · exact ⟨2, by decide, 1, by decide, rfl⟩
      · exact ⟨2, by decide, 3, by decide, rfl⟩
    · subst hx
      exact ⟨3, by decide, 2, by decide, rfl⟩

/-- the hypotheses of `c44_arcs` are met, and vertex 2 has the neighbours 0 and 2 -/
example : TradDist pathWorld pathOwn 1 ∧ (∀ e ∈ arcsOf pathWorld 0, e.w = ((e.w.num : Int) : Rat)) ∧ WeightsKept pathWorld 0 ∧
    (∀ v w, Arc pathWorld 0 v w → Arc pathWorld 0 w v) ∧
    parmetisOf pathWorld pathOwn 0 =
      .ok [[[0, 2, 3], [0, 1, 3], [1, 0, 2], [1, 1], [1, 1, 5]], [[0, 2, 3], [0, 1], [1], [1], [5]]] := by
  refine ⟨pathWorld_dist, by decide +kernel, ?_, ?_, by decide +kernel⟩
  · intro i hi e he
    simp only [pathWorld, List.mem_cons, List.not_mem_nil, or_false] at hi
    rcases hi with rfl | rfl
    all_goals
      simp only [List.getElem?_cons_zero, Option.some.injEq] at he
      subst he
      left
      decide
  · rintro v w ⟨e, he, hp⟩
    have h : arcsOf pathWorld 0 = [⟨0, [1, 2], 1⟩, ⟨1, [2, 1], 1⟩, ⟨2, [2, 3], 5⟩, ⟨3, [3, 2], 5⟩] := by decide +kernel
    rw [h] at he
    unfold Arc
    rw [h]
    simp only [List.mem_cons, List.not_mem_nil, or_false] at he
    rcases he with rfl | rfl | rfl | rfl <;>
      (simp only [List.cons.injEq, and_true] at hp
       obtain ⟨rfl, rfl⟩ := hp
       simp)

end Verif.Part
