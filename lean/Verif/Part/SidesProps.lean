import Verif.Part.SidesLemmas
/-!
# Property C34: sides
-/
namespace Verif.Part
open Verif.Agi

/-! ## specification -/

/-- hyperedge `e` has a pin owned by part `q` -/
def Touches (own : Gid → Nat) (q : Int) (e : HEdge) : Prop := ∃ v ∈ e.pins, (own v : Int) = q

instance (own : Gid → Nat) (q : Int) (e : HEdge) : Decidable (Touches own q e) := by
  unfold Touches; infer_instance

/-- hyperedge `e` has a pin owned by a part other than `p` -/
def TouchesOther (own : Gid → Nat) (p : Int) (e : HEdge) : Prop := ∃ v ∈ e.pins, (own v : Int) ≠ p

instance (own : Gid → Nat) (q : Int) (e : HEdge) : Decidable (TouchesOther own q e) := by
  unfold TouchesOther; infer_instance

/-- the total weight of the hyperedges that parts `p` and `q` share -/
def sharedWeight (es : List HEdge) (own : Gid → Nat) (w : HEdge → Int) (p q : Int) : Int :=
  ((es.filter (fun e => decide (Touches own p e ∧ Touches own q e))).map w).sum

/-- the total weight of the hyperedges of part `p` that are cut -/
def cutWeight (es : List HEdge) (own : Gid → Nat) (w : HEdge → Int) (p : Int) : Int :=
  ((es.filter (fun e => decide (Touches own p e ∧ TouchesOther own p e))).map w).sum

/-- the sides `s` of part `p` are those of the hyperedges `es` -/
structure SidesOf (es : List HEdge) (own : Gid → Nat) (w : HEdge → Int) (p : Int) (s : Cont Int) : Prop where
  keys : (s.d.map Prod.fst).Nodup
  side : ∀ q v, s.find q = some v ↔
    q ≠ p ∧ (∃ e ∈ es, Touches own p e ∧ Touches own q e) ∧ v = sharedWeight es own w p q
  total : s.total = cutWeight es own w p

theorem wsum_filter_map (P : List Gid → Prop) [DecidablePred P] (Q R : HEdge → Prop) [DecidablePred Q]
    [DecidablePred R] (es : List HEdge) (w : HEdge → Int) (h : ∀ e ∈ es, R e ↔ Q e ∧ P e.pins) :
    wsum P ((es.filter (fun e => decide (Q e))).map (fun e => (e.pins, w e))) =
      ((es.filter (fun e => decide (R e))).map w).sum := by
  unfold wsum
  rw [List.filter_map, List.map_map, List.filter_filter]
  congr 1
  rw [show (Prod.snd ∘ fun e : HEdge => (e.pins, w e)) = w from rfl]
  congr 1
  apply List.filter_congr
  intro e he
  simp only [Function.comp]
  rw [Bool.eq_iff_iff]
  simp [h e he, and_comm]

theorem edges_zip {i : Input} {hyper : Bool} {t : Nat} (ht : t < i.types.length) (hwf : (i.types[t]).WF hyper)
    (w : HEdge → Int) :
    i.types[t].pins.zip (i.types[t].edges.map w) = i.types[t].edges.map (fun e => (e.pins, w e)) ∧
    i.types[t].edges.map HEdge.w = i.types[t].weights := by
  have h1 := hwf.ids_len
  have h2 := weights_length hwf
  constructor
  · apply List.ext_getElem
    · simp [EdgeInput.edges]; try omega
    · intro k h3 h4
      simp [EdgeInput.edges]
  · apply List.ext_getElem
    · simp [EdgeInput.edges]; omega
    · intro k h3 h4
      simp [EdgeInput.edges]

theorem sidesOf_part {H : List (List HEdge)} {ins : List Input} {own : Gid → Nat} (hd : HDist H ins own)
    {g : Graph} {p n : Nat} (hp : p < ins.length) {ghosts : List Gid} (hr : PartRep g p n ins[p] own ghosts)
    {t : Nat} (ht : t < H.length) {w : HEdge → Int} (hw : ∀ e ∈ H[t], e.w = (w e : Rat)) :
    ∃ s, sides g t = .ok s ∧ SidesOf H[t] own w p s := by
  have hh := hd.hyper _ (List.getElem_mem hp)
  have hc := hr.core
  rw [hh] at hc
  have htp : t < ins[p].types.length := by rw [hd.types p hp]; exact ht
  have hwf := (hd.wf _ (List.getElem_mem hp)).edges _ (List.getElem_mem htp)
  have hperm := hd.edges p hp t htp ht
  obtain ⟨hz, hwz⟩ := edges_zip htp hwf w
  have hint : ins[p].types[t].weights = (ins[p].types[t].edges.map w).map (fun n : Int => (n : Rat)) := by
    rw [← hwz, List.map_map]
    apply List.map_congr_left
    intro e he
    exact hw e (List.mem_filter.mp (hperm.mem_iff.mp he)).1
  obtain ⟨s, e1, hs⟩ := sides_hyper hc hr.owners htp hint (weights_length hwf)
  refine ⟨s, e1, ?_⟩
  rw [hz] at hs
  have hs' := hs.perm (hperm.map _)
  have hown : ownerOf g.self ins[p].verts (fun v => (own v : Int)) = fun v => (own v : Int) := by
    funext v
    unfold ownerOf
    split
    · rename_i hv
      rw [hr.rank, hd.verts p hp v hv]
    · rfl
  rw [hown, hr.rank] at hs'
  have hon : ∀ e : HEdge, (∃ v ∈ e.pins, own v = p) ↔ Touches own p e := by
    intro e; unfold Touches; simp
  have hct : ∀ (q : Int) (e : HEdge), q ≠ (p : Int) →
      ((∃ v ∈ e.pins, own v = p) ∧ CutTo (fun v => (own v : Int)) q e.pins ↔ Touches own p e ∧ Touches own q e) := by
    intro q e hq
    rw [hon]
    constructor
    · rintro ⟨h1, -, h2⟩; exact ⟨h1, h2⟩
    · rintro ⟨h1, h2⟩
      refine ⟨h1, ?_, h2⟩
      obtain ⟨a, ha, ea⟩ := h1
      obtain ⟨b, hb, eb⟩ := h2
      exact ⟨a, ha, b, hb, by show (own a : Int) ≠ (own b : Int); rw [ea, eb]; exact Ne.symm hq⟩
  refine ⟨hs'.keys, ?_, ?_⟩
  · intro q v
    rw [hs'.side q v]
    by_cases hq : q = (p : Int)
    · simp [hq]
    · have h2 : wsum (CutTo (fun v => (own v : Int)) q)
          ((H[t].filter (fun e => decide (∃ v ∈ e.pins, own v = p))).map (fun e => (e.pins, w e))) =
          sharedWeight H[t] own w p q :=
        wsum_filter_map _ _ _ _ _ (fun e _ => (hct q e hq).symm)
      rw [h2]
      have h3 : (∃ e ∈ (H[t].filter (fun e => decide (∃ v ∈ e.pins, own v = p))).map (fun e => (e.pins, w e)),
          CutTo (fun v => (own v : Int)) q e.1) ↔ ∃ e ∈ H[t], Touches own p e ∧ Touches own q e := by
        constructor
        · rintro ⟨x, hx, hx'⟩
          obtain ⟨e, he, rfl⟩ := List.mem_map.mp hx
          rw [List.mem_filter, decide_eq_true_iff] at he
          exact ⟨e, he.1, (hct q e hq).mp ⟨he.2, hx'⟩⟩
        · rintro ⟨e, he, h⟩
          have h' := (hct q e hq).mpr h
          exact ⟨_, List.mem_map.mpr ⟨e, List.mem_filter.mpr ⟨he, by simpa using h'.1⟩, rfl⟩, h'.2⟩
      rw [h3]
  · rw [hs'.total]
    refine wsum_filter_map _ _ _ _ _ (fun e _ => ?_)
    rw [hon]
    constructor
    · rintro ⟨⟨a, ha, ea⟩, b, hb, eb⟩
      exact ⟨⟨a, ha, ea⟩, a, ha, b, hb, by show (own a : Int) ≠ (own b : Int); rw [ea]; exact Ne.symm eb⟩
    · rintro ⟨h1, a, ha, b, hb, hab⟩
      refine ⟨h1, ?_⟩
      by_cases e1 : (own a : Int) = p
      · exact ⟨b, hb, by rw [← e1]; exact Ne.symm hab⟩
      · exact ⟨a, ha, e1⟩

/-- **C34**, hypergraphs with integer edge weights: for every distribution of a hypergraph over the parts,
on every part `p` and for every edge type, `Sides` has an entry for exactly the other parts `q` that share a
hyperedge with `p`, its value is the total weight of the shared hyperedges, and the total is the weight of
the hyperedges of `p` that reach another part, each counted once. -/
theorem c34_sides_hyper (H : List (List HEdge)) (ins : List Input) (own : Gid → Nat) (hd : HDist H ins own)
    (owns : List (GMap Part)) (ho : OwnMaps ins own owns) (o1 o2 : Nat → List Nat)
    (ho1 : Orders ins.length o1) (ho2 : Orders ins.length o2) :
    ∃ gs gs', buildAll ins = .ok gs ∧ constructGhosts gs owns o1 o2 = .ok gs' ∧ gs'.length = ins.length ∧
      ∀ t (_ : t < H.length) (w : HEdge → Int), (∀ e ∈ H[t], e.w = (w e : Rat)) →
      ∀ p (_ : p < gs'.length), ∃ s, sides gs'[p] t = .ok s ∧ SidesOf H[t] own w p s := by
  obtain ⟨gs, e, hb⟩ := buildAll_spec ins hd.wf
  obtain ⟨gs', e', hw, -⟩ := constructGhosts_spec hb hd.dist (hdist_uniform hd) ho ho1 ho2
  refine ⟨gs, gs', e, e', hw.1, fun t ht w hwt p hp => ?_⟩
  have hp' : p < ins.length := by rw [← hw.1]; exact hp
  obtain ⟨ghosts, hr⟩ := hw.2 p hp hp'
  exact sidesOf_part hd hp' hr ht hwt

/-- consequence: sides are symmetric -/
theorem c34_symmetric (es : List HEdge) (own : Gid → Nat) (w : HEdge → Int) (p q : Int) (hpq : p ≠ q)
    (s s' : Cont Int) (hs : SidesOf es own w p s) (hs' : SidesOf es own w q s') : s.find q = s'.find p := by
  have hsym : sharedWeight es own w p q = sharedWeight es own w q p := by
    unfold sharedWeight; simp only [and_comm]
  apply Option.ext
  intro v
  rw [hs.side, hs'.side, hsym]
  constructor
  · rintro ⟨-, ⟨e, h1, h2, h3⟩, h4⟩; exact ⟨hpq, ⟨e, h1, h3, h2⟩, h4⟩
  · rintro ⟨-, ⟨e, h1, h2, h3⟩, h4⟩; exact ⟨Ne.symm hpq, ⟨e, h1, h3, h2⟩, h4⟩

/-- the sample world: each of the two parts has a side of weight 1 with the other -/
example : HDist sampleHG sampleWorld sampleOwn ∧
    (do let gs ← buildAll sampleWorld
        let gs ← constructGhosts gs [fun v => some (sampleOwn v : Int), fun v => some (sampleOwn v : Int)]
          (fun _ => [0, 1]) (fun _ => [0, 1])
        let ss ← gs.mapM (fun g => sides g 0)
        return ss.map (fun s => (s.d, s.total)) : Outcome _) = .ok [([(1, 1)], 1), ([(0, 1)], 1)] :=
  ⟨sampleWorld_dist, by decide +kernel⟩

/-- **C34** for traditional graphs whose edges all start at local vertices and all have the same weight
`w`: for every part.  Missing compared to C34: different edge weights, for which `weight(edge)` is wrong
(`c08_traditional_weights_permuted`), so that the sides are wrong as well
(`c34_traditional_weights_wrong`). -/
theorem c34_sides_trad_partial (me : Part) (peers : Nat) (total : Int) (i : Input) (hwf : i.WF)
    (hh : i.hyper = false) (owns : GMap Part) :
    ∃ g g', build me peers total i = .ok g ∧ g.fillOwners owns = .ok g' ∧
      ∀ t (ht : t < i.types.length) (w : Int), (∀ p ∈ i.types[t].pins, p.getD 0 0 ∈ i.verts) →
        (∀ x ∈ i.types[t].weights, x = (w : Rat)) →
        ∃ s, sides g' t = .ok s ∧ (s.d.map Prod.fst).Nodup ∧
          (∀ q v, s.find q = some v ↔ q ≠ me ∧
            v = w * ((i.types[t].pins.filter (fun p => decide (∃ x ∈ p, x ∉ i.verts ∧ (owns x).getD 0 = q))).length : Int) ∧
            ∃ p ∈ i.types[t].pins, ∃ x ∈ p, x ∉ i.verts ∧ (owns x).getD 0 = q) ∧
          s.total = w *
            ((i.types[t].pins.filter (fun p => decide (∃ x ∈ p, x ∉ i.verts ∧ (owns x).getD 0 ≠ me))).length : Int) := by
  obtain ⟨g, ghosts, e, hr⟩ := build_spec me peers total i hwf
  have hc := hr.core hwf
  rw [hh] at hc
  obtain ⟨g', e', ho, hg⟩ := fillOwners_spec hc.v owns
  have hs : g'.self = me := by rw [hg]; exact hr.rank
  have hc' := hc.of_eq hg
  refine ⟨g, g', e, e', fun t ht w hsrc hW => ?_⟩
  have hwft := hc.wf _ (List.getElem_mem ht)
  obtain ⟨s, e1, h1⟩ := sides_trad hc' ho ht hsrc hwf.nodup hW (weights_length hwft)
  rw [hs] at h1
  refine ⟨s, e1, h1.keys, ?_, ?_⟩
  all_goals
    have key : ∀ (P : List Gid → Prop) [DecidablePred P], wsum P (i.types[t].pins.map (fun p => (p, w))) =
        w * ((i.types[t].pins.filter (fun p => decide (P p))).length : Int) := by
      intro P _
      unfold wsum
      rw [List.filter_map, List.map_map]
      have : ∀ l : List (List Gid), (l.map (Prod.snd ∘ fun p => (p, w))).sum = w * (l.length : Int) := by
        intro l
        induction l with
        | nil => simp
        | cons a l ih => rw [List.map_cons, List.sum_cons, ih]; simp; ring
      rw [this]
      rfl
    have hcut : ∀ p ∈ i.types[t].pins, ∀ q, q ≠ me →
        (CutTo (ownerOf me i.verts (fun x => (owns x).getD 0)) q p ↔
          ∃ x ∈ p, x ∉ i.verts ∧ (owns x).getD 0 = q) := by
      intro p hp q hq
      have h2 := hwft.two rfl p hp
      have h3 := hsrc p hp
      match p, h2 with
      | [a, b], _ =>
        simp only [List.getD_cons_zero] at h3
        by_cases hb : b ∈ i.verts
        · simp [CutTo, CutE, ownerOf, h3, hb]
        · simp [CutTo, CutE, ownerOf, h3, hb]
          constructor
          · rintro ⟨-, h | h⟩
            · exact absurd h.symm hq
            · exact h
          · intro h
            subst h
            exact ⟨by simp [Ne.symm hq], .inr rfl⟩
  · intro q v
    rw [h1.side q v, key]
    by_cases hq : q = me
    · simp [hq]
    · have h3 : (i.types[t].pins.filter (fun p => decide (CutTo (ownerOf me i.verts (fun x => (owns x).getD 0)) q p))) =
          i.types[t].pins.filter (fun p => decide (∃ x ∈ p, x ∉ i.verts ∧ (owns x).getD 0 = q)) := by
        apply List.filter_congr
        intro p hp
        simp [hcut p hp q hq]
      rw [h3]
      constructor
      · rintro ⟨h4, ⟨x, hx, h5⟩, h6⟩
        obtain ⟨p, hp, rfl⟩ := List.mem_map.mp hx
        exact ⟨h4, h6, p, hp, (hcut p hp q hq).mp h5⟩
      · rintro ⟨h4, h6, p, hp, h5⟩
        exact ⟨h4, ⟨_, List.mem_map.mpr ⟨p, hp, rfl⟩, (hcut p hp q hq).mpr h5⟩, h6⟩
  · rw [h1.total, key]
    congr 2
    congr 1
    apply List.filter_congr
    intro p hp
    have h2 := hwft.two rfl p hp
    have h3 := hsrc p hp
    match p, h2 with
    | [a, b], _ =>
      simp only [List.getD_cons_zero] at h3
      by_cases hb : b ∈ i.verts
      · simp [CutE, ownerOf, h3, hb]
      · simp [CutE, ownerOf, h3, hb, eq_comm]

/-- a part with the edges 1→2 and 2→1 (local), 1→99 and 1→98 -/
def sampleT34 : Input :=
  { hyper := false, verts := [1, 2], wgts := [], types := [⟨[0, 1, 2, 3], [[2, 1], [1, 99], [1, 98], [1, 2]], []⟩] }

theorem sampleT34_wf : sampleT34.WF := by
  refine ⟨by decide, by decide, ?_⟩
  intro e he
  simp only [sampleT34, List.mem_cons, List.not_mem_nil, or_false] at he
  subst he; exact ⟨by decide, by decide, by decide⟩

/-- the hypotheses of `c34_sides_trad_partial` are met, and the sides computed are these -/
example : sampleT34.WF ∧ sampleT34.hyper = false ∧
    (∀ p ∈ (sampleT34.types.getD 0 ⟨[], [], []⟩).pins, p.getD 0 0 ∈ sampleT34.verts) ∧
    (∀ x ∈ (sampleT34.types.getD 0 ⟨[], [], []⟩).weights, x = ((1 : Int) : Rat)) ∧
    (do let g ← build 0 3 2 sampleT34
        let g ← g.fillOwners (fun v => if v = 99 then some 1 else some 2)
        let s ← sides g 0
        return (s.d, s.total) : Outcome _) = .ok ([(1, 1), (2, 1)], 2) :=
  ⟨sampleT34_wf, rfl, by decide, by decide +kernel, by decide +kernel⟩

/-- **Defect** (C34): sides are `int`, edge weights `double`: each addition is truncated.  Two parts share
two hyperedges of weight 1/2 each; both sides and the total come out as 0. -/
theorem c34_fractional_weights_lost :
    (do let gs ← buildAll [
          { hyper := true, verts := [1], wgts := [], types := [⟨[100, 101], [[1, 2], [1, 2]], [1/2, 1/2]⟩] },
          { hyper := true, verts := [2], wgts := [], types := [⟨[100, 101], [[1, 2], [1, 2]], [1/2, 1/2]⟩] }]
        let gs ← constructGhosts gs [fun v => some (sampleOwn v : Int), fun v => some (sampleOwn v : Int)]
          (fun _ => [0, 1]) (fun _ => [0, 1])
        let ss ← gs.mapM (fun g => sides g 0)
        return ss.map (fun s => (s.d, s.total)) : Outcome _) = .ok [([(1, 0)], 0), ([(0, 0)], 0)] := by
  decide +kernel

/-- **Defect** (C34, through C08): in a traditional graph with the edges 2→1 of weight 5 and 1→99 of weight
7, the latter leading to part 1, the side with part 1 is 5, not 7. -/
theorem c34_traditional_weights_wrong :
    (do let g ← build 0 2 2 ⟨false, [1, 2], [], [⟨[0, 1], [[2, 1], [1, 99]], [5, 7]⟩]⟩
        let g ← g.fillOwners (fun _ => some 1)
        let s ← sides g 0
        return (s.d, s.total) : Outcome _) = .ok ([(1, 5)], 5) := by
  decide +kernel

end Verif.Part
