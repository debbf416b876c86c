import Verif.Part.CompLemmas
import Verif.Part.SidesProps
/-!
# C40: the number of disconnected components

Specification: the vertices of the part modulo "are joined by an edge of type 0" are its connected components;
`Quot` identifies along the generated equivalence.
-/
namespace Verif.Part
open Verif.Agi

/-! ## specification -/

/-- two vertices of a part are joined: they are pins of one edge of type 0 -/
def JoinedBy (pins : List (List Gid)) (verts : List Gid) (a b : {v // v ∈ verts}) : Prop :=
  ∃ ps ∈ pins, a.1 ∈ ps ∧ b.1 ∈ ps

/-- the number of connected components of a part -/
noncomputable def components (pins : List (List Gid)) (verts : List Gid) : Nat := Nat.card (Quot (JoinedBy pins verts))

/-! ## proof -/

section
variable {g : Graph} {verts ghosts : List Gid} {types : List EdgeInput}

/-- `adjacent` of a traditional graph: the far ends of the edges of the vertex -/
theorem yields_adj_trad (h : CRep g false verts ghosts types) {t : Nat} (ht : t < types.length) {u : Nat}
    (hu : u < verts.length) :
    YieldsFrom (g.adjacent (getVertex u) t) g.iterAdj
      ((adjOf false (verts ++ ghosts) types[t].pins verts[u]).map getVertex) := by
  obtain ⟨eitr, he, hy⟩ := yields_edges_trad h ht hu
  unfold Graph.adjacent
  rw [he, Outcome.bind_ok]
  refine ⟨_, rfl, ?_⟩
  have H : ∀ (ls : List Nat) (ds : List Nat) (it : AdjIt), it.isH = false → ls.length = ds.length →
      (∀ k (h1 : k < ls.length) (h2 : k < ds.length), g.vOf (g.getEdge ls[k] t) = .ok (getVertex ds[k])) →
      Yields g.iterEdge it.eitr (ls.map (fun l => g.getEdge l t)) → Yields g.iterAdj it (ds.map getVertex) := by
    intro ls
    induction ls with
    | nil =>
      intro ds it hH hlen _ hy
      have : ds = [] := by cases ds with | nil => rfl | cons a b => simp at hlen
      subst this
      obtain ⟨it', hs⟩ := hy
      refine ⟨{ it with eitr := it', edge := 0 }, ?_⟩
      unfold Graph.iterAdj
      rw [if_neg (by simp [hH]), hs, Outcome.bind_ok]
      simp only [Graph.vOf, h.hyp]
      rfl
    | cons l ls ih =>
      intro ds it hH hlen hv hy
      cases ds with
      | nil => simp at hlen
      | cons d ds =>
        obtain ⟨-, it', hs, hy'⟩ := hy
        refine ⟨by simp [getVertex], { it with eitr := it', edge := g.getEdge l t }, ?_, ?_⟩
        · unfold Graph.iterAdj
          rw [if_neg (by simp [hH]), hs, Outcome.bind_ok]
          dsimp only
          have := hv 0 (by simp) (by simp)
          simp only [List.getElem_cons_zero] at this
          rw [this]
          rfl
        · refine ih ds _ hH (by simpa using hlen) ?_ hy'
          intro k h1 h2
          have := hv (k + 1) (by simpa using h1) (by simpa using h2)
          simpa using this
  refine H _ _ _ h.hyp ?_ ?_ hy
  · rw [List.length_range', adjOf_length]
  · intro k h1 h2
    rw [List.getElem_range', Nat.one_mul]
    exact vOf_eq h ht hu h2

end

section
variable {ins : List Input} {own : Gid → Nat} {g : Graph} {p n : Nat} {ghosts : List Gid}

theorem owner_part (hd : Dist ins own) (hp : p < ins.length) (hr : PartRep g p n ins[p] own ghosts) {w : Nat}
    (hw : w < (ins[p].verts ++ ghosts).length) :
    ∃ o, g.owner (getVertex w) = .ok o ∧ (o = g.self ↔ w < g.numLocal) := by
  have hv := hr.core.v
  have hmem : (ins[p].verts ++ ghosts)[w] ∈ ins[p].verts ++ ghosts := List.getElem_mem hw
  have := owner_eq hv hr.owners hmem
  rw [hv.nodup.idxOf_getElem] at this
  refine ⟨_, this, ?_⟩
  rw [hv.nl]
  unfold ownerOf
  by_cases hl : w < ins[p].verts.length
  · rw [List.getElem_append_left hl, if_pos (List.getElem_mem hl)]
    exact ⟨fun _ => hl, fun _ => rfl⟩
  · have hg : (ins[p].verts ++ ghosts)[w] ∈ ghosts := by
      rw [List.getElem_append_right (by omega)]
      exact List.getElem_mem _
    obtain ⟨h1, h2⟩ := (hr.mem_ghosts _).mp hg
    rw [if_neg h2, hr.rank]
    constructor
    · intro h
      exfalso
      obtain ⟨h3, h4⟩ := hd.pins p hp _ h1
      have h' : own (ins[p].verts ++ ghosts)[w] = p := by
        have h0 : (own (ins[p].verts ++ ghosts)[w] : Int) = (p : Int) := h
        exact_mod_cast h0
      simp only [h'] at h4
      exact h2 h4
    · intro h; exact absurd h hl

/-- from local indices to vertices -/
theorem components_eq {nb : Nat → List Nat} (hp : p < ins.length) (hr : PartRep g p n ins[p] own ghosts) {little : Bool}
    (hf : BfsFacts g nb) {pins : List (List Gid)}
    (hnb1 : ∀ a b (ha : a < ins[p].verts.length) (hb : b < ins[p].verts.length),
      b ∈ nb a → ∃ ps ∈ pins, ins[p].verts[a] ∈ ps ∧ ins[p].verts[b] ∈ ps)
    (hnb2 : ∀ a b (ha : a < ins[p].verts.length) (hb : b < ins[p].verts.length),
      (∃ ps ∈ pins, ins[p].verts[a] ∈ ps ∧ ins[p].verts[b] ∈ ps) → b ∈ nb a ∨ a = b) :
    countDisconnected g little = .ok ((components pins ins[p].verts : Int) - 1) := by
  have hnl := hr.core.v.nl
  have hnd : ins[p].verts.Nodup := (List.nodup_append.mp hr.core.v.nodup).1
  obtain ⟨reps, e, h1, h2, h3⟩ := count_spec (little := little) hf (by
    intro a ha b hb hab
    rw [hnl] at ha hb
    obtain ⟨ps, hps, q1, q2⟩ := hnb1 a b ha hb hab
    rcases hnb2 b a hb ha ⟨ps, hps, q2, q1⟩ with h | h
    · exact h
    · rw [h] at hab ⊢; exact hab)
  rw [e]
  -- the same relation on vertices
  let f : {l // l < ins[p].verts.length} → {v // v ∈ ins[p].verts} := fun l => ⟨ins[p].verts[l.1]'l.2, List.getElem_mem l.2⟩
  have hfrom : ∀ x y : {v // v ∈ ins[p].verts}, Relation.EqvGen (JoinedBy pins ins[p].verts) x y →
      Relation.EqvGen (fun a b => b ∈ nb a ∧ a < g.numLocal ∧ b < g.numLocal) (ins[p].verts.idxOf x.1) (ins[p].verts.idxOf y.1) := by
    intro x y h
    induction h with
    | rel x y h =>
      have hx := List.idxOf_lt_length_of_mem x.2
      have hy := List.idxOf_lt_length_of_mem y.2
      obtain ⟨ps, hps, q1, q2⟩ := h
      rcases hnb2 _ _ hx hy ⟨ps, hps, by rw [List.getElem_idxOf]; exact q1, by rw [List.getElem_idxOf]; exact q2⟩ with h | h
      · exact Relation.EqvGen.rel _ _ ⟨h, by rw [hnl]; exact hx, by rw [hnl]; exact hy⟩
      · rw [h]; exact Relation.EqvGen.refl _
    | refl x => exact Relation.EqvGen.refl _
    | symm x y _ ih => exact Relation.EqvGen.symm _ _ ih
    | trans x y z _ _ ih1 ih2 => exact Relation.EqvGen.trans _ _ _ ih1 ih2
  have hto : ∀ a b, Relation.EqvGen (fun a b => b ∈ nb a ∧ a < g.numLocal ∧ b < g.numLocal) a b →
      ∀ (ha : a < ins[p].verts.length) (hb : b < ins[p].verts.length),
        Relation.EqvGen (JoinedBy pins ins[p].verts) (f ⟨a, ha⟩) (f ⟨b, hb⟩) := by
    intro a b h
    have hlt : ∀ a b, Relation.EqvGen (fun a b => b ∈ nb a ∧ a < g.numLocal ∧ b < g.numLocal) a b →
        (a < ins[p].verts.length ↔ b < ins[p].verts.length) := by
      intro a b h
      induction h with
      | rel a b h => rw [← hnl]; exact ⟨fun _ => h.2.2, fun _ => h.2.1⟩
      | refl a => exact Iff.rfl
      | symm a b _ ih => exact ih.symm
      | trans a b c _ _ ih1 ih2 => exact ih1.trans ih2
    induction h with
    | rel a b h =>
      intro ha hb
      exact Relation.EqvGen.rel _ _ (hnb1 a b ha hb h.1)
    | refl a => intro ha hb; exact Relation.EqvGen.refl _
    | symm a b h ih => intro ha hb; exact Relation.EqvGen.symm _ _ (ih hb ha)
    | trans a b c h1 h2 ih1 ih2 =>
      intro ha hc
      have hb := (hlt a b h1).mp ha
      exact Relation.EqvGen.trans _ _ _ (ih1 ha hb) (ih2 hb hc)
  have hcard := card_quot (JoinedBy pins ins[p].verts) (reps.attach.map (fun l => f ⟨l.1, by rw [← hnl]; exact h1 l.1 l.2⟩))
    (by
      rw [List.pairwise_map, List.pairwise_iff_getElem]
      intro i j hi hj hij he
      rw [List.length_attach] at hi hj
      refine List.pairwise_iff_getElem.mp h2 i j hi hj hij ?_
      have := hfrom _ _ he
      simp only [f, List.getElem_attach, hnd.idxOf_getElem] at this
      exact this) (by
      intro x
      have hx := List.idxOf_lt_length_of_mem x.2
      obtain ⟨b, hb, hbe⟩ := h3 _ (by rw [hnl]; exact hx)
      refine ⟨_, List.mem_map.mpr ⟨⟨b, hb⟩, List.mem_attach _ _, rfl⟩, ?_⟩
      have := hto _ _ hbe (by rw [← hnl]; exact h1 b hb) hx
      have he : f ⟨ins[p].verts.idxOf x.1, hx⟩ = x := Subtype.ext (List.getElem_idxOf hx)
      rw [he] at this
      exact this)
  unfold components
  rw [hcard]
  simp

/-- counting on a part of a hypergraph -/
theorem count_hyper (hd : Dist ins own) (hp : p < ins.length) (hr : PartRep g p n ins[p] own ghosts) (hh : ins[p].hyper = true)
    (ht : 0 < ins[p].types.length) (hne : ∀ ps ∈ ins[p].types[0].pins, ps ≠ []) (little : Bool) :
    countDisconnected g little = .ok ((components ins[p].types[0].pins ins[p].verts : Int) - 1) := by
  have hc := hr.core
  rw [hh] at hc
  have hnl := hc.v.nl
  have hknown : ∀ ps ∈ ins[p].types[0].pins, ∀ v ∈ ps, v ∈ ins[p].verts ++ ghosts := fun ps hps v hv =>
    hc.pins 0 ht v (List.mem_flatten.mpr ⟨_, hps, hv⟩)
  have hmem : ∀ a (ha : a < ins[p].verts.length) w,
      w ∈ (adjOf true (ins[p].verts ++ ghosts) ins[p].types[0].pins ins[p].verts[a]).flatMap
        (fun i => (ins[p].types[0].pins.getD i []).map (fun v => (ins[p].verts ++ ghosts).idxOf v)) ↔
      ∃ ps ∈ ins[p].types[0].pins, ins[p].verts[a] ∈ ps ∧ ∃ v ∈ ps, w = (ins[p].verts ++ ghosts).idxOf v := by
    intro a ha w
    rw [List.mem_flatMap]
    constructor
    · rintro ⟨i, hi, hw⟩
      obtain ⟨hil, hia⟩ := mem_adjOf_hyper.mp hi
      rw [List.getD_eq_getElem?_getD, List.getElem?_eq_getElem hil] at hw
      obtain ⟨v, hv, rfl⟩ := List.mem_map.mp hw
      exact ⟨_, List.getElem_mem hil, hia, v, hv, rfl⟩
    · rintro ⟨ps, hps, hia, v, hv, rfl⟩
      obtain ⟨i, hil, rfl⟩ := List.mem_iff_getElem.mp hps
      refine ⟨i, mem_adjOf_hyper.mpr ⟨hil, hia⟩, ?_⟩
      rw [List.getD_eq_getElem?_getD, List.getElem?_eq_getElem hil]
      exact List.mem_map.mpr ⟨v, hv, rfl⟩
  have hidx : ∀ b (hb : b < ins[p].verts.length), (ins[p].verts ++ ghosts).idxOf ins[p].verts[b] = b := fun b hb =>
    (idxOf_eq_iff hc.v.nodup (by simp) hb).mpr rfl
  refine components_eq (nb := fun a => (adjOf true (ins[p].verts ++ ghosts) ins[p].types[0].pins (ins[p].verts.getD a 0)).flatMap
        (fun i => (ins[p].types[0].pins.getD i []).map (fun v => (ins[p].verts ++ ghosts).idxOf v))) hp hr ⟨?_, ?_⟩ ?_ ?_
  · intro u hu'
    rw [hnl] at hu'
    obtain ⟨it, eit, hrun⟩ := adjRun_vertex hc ht hne hu'
    have hfu := adjRun_fuel hc ht ins[p].verts[u]
    have hgd : ins[p].verts.getD u 0 = ins[p].verts[u] := by
      rw [List.getD_eq_getElem?_getD, List.getElem?_eq_getElem hu']; rfl
    rw [hgd]
    refine ⟨⟨it, eit, ?_⟩, ?_⟩
    · have hy := hrun.yields
      rw [List.map_flatMap] at hy ⊢
      simp only [pinRun, List.map_map] at hy ⊢
      exact hy
    · rw [List.length_flatMap] at hfu ⊢
      simp only [pinRun, List.length_map] at hfu ⊢
      exact hfu
  · intro u hu' w hw'
    rw [hnl] at hu'
    have hgd : ins[p].verts.getD u 0 = ins[p].verts[u] := by
      rw [List.getD_eq_getElem?_getD, List.getElem?_eq_getElem hu']; rfl
    rw [hgd] at hw'
    obtain ⟨ps, hps, -, v, hv, rfl⟩ := (hmem u hu' w).mp hw'
    exact owner_part hd hp hr (List.idxOf_lt_length_of_mem (hknown ps hps v hv))
  · intro a b ha hb hab
    have hgd : ins[p].verts.getD a 0 = ins[p].verts[a] := by
      rw [List.getD_eq_getElem?_getD, List.getElem?_eq_getElem ha]; rfl
    rw [hgd] at hab
    obtain ⟨ps, hps, h1, v, hv, hbv⟩ := (hmem a ha b).mp hab
    refine ⟨ps, hps, h1, ?_⟩
    have := List.getElem_idxOf (List.idxOf_lt_length_of_mem (hknown ps hps v hv))
    have h2 : (ins[p].verts ++ ghosts)[b]? = some v := by
      rw [hbv, List.getElem?_eq_getElem (List.idxOf_lt_length_of_mem (hknown ps hps v hv)), this]
    rw [List.getElem?_append_left hb, List.getElem?_eq_getElem hb] at h2
    have h3 : ins[p].verts[b] = v := by simpa using h2
    rw [h3]; exact hv
  · intro a b ha hb hab
    left
    have hgd : ins[p].verts.getD a 0 = ins[p].verts[a] := by
      rw [List.getD_eq_getElem?_getD, List.getElem?_eq_getElem ha]; rfl
    rw [hgd]
    obtain ⟨ps, hps, h1, h2⟩ := hab
    exact (hmem a ha b).mpr ⟨ps, hps, h1, _, h2, (hidx b hb).symm⟩

end

/-- **C40** for a hypergraph: every part of a distributed hypergraph whose edges of type 0 all have pins reports the number
of its connected components (through edges of type 0) minus one. -/
theorem c40_hyper (ins : List Input) (own : Gid → Nat) (hd : Dist ins own) (T : Nat) (hu : Uniform ins true T)
    (owns : List (GMap Part)) (ho : OwnMaps ins own owns) (o1 o2 : Nat → List Nat) (ho1 : Orders ins.length o1)
    (ho2 : Orders ins.length o2) (little : Bool) (p : Nat) (i : Input) (hi : ins[p]? = some i) (t0 : EdgeInput)
    (ht0 : i.types[0]? = some t0) (hne : ∀ ps ∈ t0.pins, ps ≠ []) :
    ∃ gs gs' g, buildAll ins = .ok gs ∧ constructGhosts gs owns o1 o2 = .ok gs' ∧ gs'[p]? = some g ∧
      countDisconnected g little = .ok ((components t0.pins i.verts : Int) - 1) := by
  obtain ⟨hp, rfl⟩ := List.getElem?_eq_some_iff.mp hi
  obtain ⟨ht, rfl⟩ := List.getElem?_eq_some_iff.mp ht0
  obtain ⟨gs, e1, hb⟩ := buildAll_spec ins hd.wf
  obtain ⟨gs', e2, hw, -⟩ := constructGhosts_spec hb hd hu ho ho1 ho2
  have hg : p < gs'.length := by rw [hw.1]; exact hp
  obtain ⟨ghosts, hr⟩ := hw.2 p hg hp
  refine ⟨gs, gs', gs'[p], e1, e2, List.getElem?_eq_getElem hg, ?_⟩
  exact count_hyper hd hp hr (hu.hyper _ (List.getElem_mem hp)) ht hne little

/-- **C40** for a traditional graph in which every edge of type 0 between two vertices of the part has its reverse. -/
theorem c40_trad_partial (ins : List Input) (own : Gid → Nat) (hd : Dist ins own) (T : Nat)
    (hu : Uniform ins false T) (owns : List (GMap Part)) (ho : OwnMaps ins own owns) (o1 o2 : Nat → List Nat)
    (ho1 : Orders ins.length o1) (ho2 : Orders ins.length o2) (little : Bool) (p : Nat) (i : Input)
    (hi : ins[p]? = some i) (t0 : EdgeInput) (ht0 : i.types[0]? = some t0)
    (hsym : ∀ a ∈ i.verts, ∀ b ∈ i.verts, [a, b] ∈ t0.pins → [b, a] ∈ t0.pins) :
    ∃ gs gs' g, buildAll ins = .ok gs ∧ constructGhosts gs owns o1 o2 = .ok gs' ∧ gs'[p]? = some g ∧
      countDisconnected g little = .ok ((components t0.pins i.verts : Int) - 1) := by
  obtain ⟨hp, rfl⟩ := List.getElem?_eq_some_iff.mp hi
  obtain ⟨ht, rfl⟩ := List.getElem?_eq_some_iff.mp ht0
  obtain ⟨gs, e1, hb⟩ := buildAll_spec ins hd.wf
  obtain ⟨gs', e2, hw, -⟩ := constructGhosts_spec hb hd hu ho ho1 ho2
  have hg : p < gs'.length := by rw [hw.1]; exact hp
  obtain ⟨ghosts, hr⟩ := hw.2 p hg hp
  refine ⟨gs, gs', gs'[p], e1, e2, List.getElem?_eq_getElem hg, ?_⟩
  have hc := hr.core
  rw [hu.hyper _ (List.getElem_mem hp)] at hc
  have hnl := hc.v.nl
  have htwo : ∀ ps ∈ ins[p].types[0].pins, ∃ a b, ps = [a, b] := by
    intro ps hps
    have hwf := (hd.wf _ (List.getElem_mem hp)).edges _ (List.getElem_mem ht)
    have h2 := hwf.two (hu.hyper _ (List.getElem_mem hp)) ps hps
    match ps, h2 with
    | [a, b], _ => exact ⟨a, b, rfl⟩
  have hknown : ∀ ps ∈ ins[p].types[0].pins, ∀ v ∈ ps, v ∈ ins[p].verts ++ ghosts := fun ps hps v hv =>
    hc.pins 0 ht v (List.mem_flatten.mpr ⟨_, hps, hv⟩)
  have hmem : ∀ (v : Gid) w, w ∈ adjOf false (ins[p].verts ++ ghosts) ins[p].types[0].pins v ↔
      ∃ u, [v, u] ∈ ins[p].types[0].pins ∧ w = (ins[p].verts ++ ghosts).idxOf u := by
    intro v w
    unfold adjOf
    rw [if_neg (by simp), List.mem_map]
    constructor
    · rintro ⟨ps, hps, rfl⟩
      obtain ⟨hps', h0⟩ := List.mem_filter.mp hps
      obtain ⟨a, b, rfl⟩ := htwo ps hps'
      have : a = v := by simpa using h0
      subst this
      exact ⟨b, hps', rfl⟩
    · rintro ⟨u, hu', rfl⟩
      exact ⟨[v, u], List.mem_filter.mpr ⟨hu', by simp⟩, rfl⟩
  have hidx : ∀ b (hb : b < ins[p].verts.length), (ins[p].verts ++ ghosts).idxOf ins[p].verts[b] = b := fun b hb =>
    (idxOf_eq_iff hc.v.nodup (by simp) hb).mpr rfl
  have hgd : ∀ u (hu' : u < ins[p].verts.length), ins[p].verts.getD u 0 = ins[p].verts[u] := by
    intro u hu'
    rw [List.getD_eq_getElem?_getD, List.getElem?_eq_getElem hu']; rfl
  refine components_eq (nb := fun a => adjOf false (ins[p].verts ++ ghosts) ins[p].types[0].pins (ins[p].verts.getD a 0))
    hp hr ⟨?_, ?_⟩ ?_ ?_
  · intro u hu'
    rw [hnl] at hu'
    rw [hgd u hu']
    refine ⟨yields_adj_trad hc ht hu', ?_⟩
    obtain ⟨et, het, hrt, -⟩ := hc.typ 0 ht
    have hb := bound_ge het
    have hne := hrt.numE
    rw [adjOf_length]
    have h1 : degOf false ins[p].types[0].pins ins[p].verts[u] ≤ ins[p].types[0].pins.length := by
      unfold degOf; rw [if_neg (by simp)]; exact List.countP_le_length
    unfold Graph.adjFuel
    have h2 : degOf false ins[p].types[0].pins ins[p].verts[u] < gs'[p].bound := by omega
    calc _ < gs'[p].bound := h2
      _ ≤ gs'[p].bound * gs'[p].bound := Nat.le_mul_of_pos_left _ (by omega)
  · intro u hu' w hw'
    rw [hnl] at hu'
    rw [hgd u hu'] at hw'
    obtain ⟨v, hv, rfl⟩ := (hmem _ w).mp hw'
    exact owner_part hd hp hr (List.idxOf_lt_length_of_mem (hknown _ hv v (by simp)))
  · intro a b ha hb hab
    rw [hgd a ha] at hab
    obtain ⟨v, hv, hbv⟩ := (hmem _ b).mp hab
    refine ⟨_, hv, by simp, ?_⟩
    have hvk := hknown _ hv v (by simp)
    have h2 : (ins[p].verts ++ ghosts)[b]? = some v := by
      rw [hbv, List.getElem?_eq_getElem (List.idxOf_lt_length_of_mem hvk), List.getElem_idxOf]
    rw [List.getElem?_append_left hb, List.getElem?_eq_getElem hb] at h2
    have h3 : ins[p].verts[b] = v := by simpa using h2
    rw [h3]; simp
  · rintro a b ha hb ⟨ps, hps, h1, h2⟩
    rw [hgd a ha]
    obtain ⟨x, y, rfl⟩ := htwo ps hps
    have hnd : ins[p].verts.Nodup := (List.nodup_append.mp hc.v.nodup).1
    simp only [List.mem_cons, List.not_mem_nil, or_false] at h1 h2
    rcases h1 with h1 | h1 <;> rcases h2 with h2 | h2
    · right; exact (hnd.getElem_inj_iff).mp (h1.trans h2.symm)
    · left; rw [← h1, ← h2] at hps
      exact (hmem _ b).mpr ⟨_, hps, (hidx b hb).symm⟩
    · left; rw [← h1, ← h2] at hps
      exact (hmem _ b).mpr ⟨_, hsym _ (List.getElem_mem hb) _ (List.getElem_mem ha) hps, (hidx b hb).symm⟩
    · right; exact (hnd.getElem_inj_iff).mp (h1.trans h2.symm)

/-- the count of part `p` -/
def disconnected (ins : List Input) (own : Gid → Nat) (p : Nat) : Outcome Int := do
  let gs ← buildAll ins
  let o := fun _ : Nat => List.range ins.length
  let gs ← constructGhosts gs (ins.map (fun _ => fun v => some (own v : Int))) o o
  let g ← rd gs p
  countDisconnected g true

/-- vertices 1 and 4 are joined through 5 of the other part only, 1 and 2 by an edge -/
def islands : List Input :=
  [{ hyper := true, verts := [1, 2, 3, 4], wgts := [], types := [⟨[0, 1, 2, 3], [[2, 1], [1, 5], [5, 4], [3]], []⟩] },
   { hyper := true, verts := [5], wgts := [], types := [⟨[1, 2], [[1, 5], [5, 4]], []⟩] }]
def islandsOwn : Gid → Nat := fun v => if v = 5 then 1 else 0

/-- the same as a traditional graph with every edge in both directions -/
def islandsT : List Input :=
  [{ hyper := false, verts := [1, 2, 3, 4], wgts := [], types := [⟨[0, 1, 2, 3], [[2, 1], [1, 5], [4, 5], [1, 2]], []⟩] },
   { hyper := false, verts := [5], wgts := [], types := [⟨[1, 2], [[5, 1], [5, 4]], []⟩] }]

theorem islands_dist : Dist islands islandsOwn ∧ Uniform islands true 1 := by
  refine ⟨⟨?_, by decide, by decide⟩, by decide, by decide⟩
  intro i hi
  simp only [islands, List.mem_cons, List.not_mem_nil, or_false] at hi
  rcases hi with rfl | rfl <;>
  · refine ⟨by decide, by decide, ?_⟩
    intro e he
    simp only [List.mem_cons, List.not_mem_nil, or_false] at he
    subst he; exact ⟨by decide, by decide, by decide⟩

theorem islandsT_dist : Dist islandsT islandsOwn ∧ Uniform islandsT false 1 := by
  refine ⟨⟨?_, by decide, by decide⟩, by decide, by decide⟩
  intro i hi
  simp only [islandsT, List.mem_cons, List.not_mem_nil, or_false] at hi
  rcases hi with rfl | rfl <;>
  · refine ⟨by decide, by decide, ?_⟩
    intro e he
    simp only [List.mem_cons, List.not_mem_nil, or_false] at he
    subst he; exact ⟨by decide, by decide, by decide⟩

/-- the hypotheses of C40 are met, and the part with vertices 1 to 4 has three components -/
example : Dist islands islandsOwn ∧ Uniform islands true 1 ∧
    (∀ ps ∈ ([[2, 1], [1, 5], [5, 4], [3]] : List (List Gid)), ps ≠ []) ∧ disconnected islands islandsOwn 0 = .ok 2 ∧
    disconnected islands islandsOwn 1 = .ok 0 :=
  ⟨islands_dist.1, islands_dist.2, by decide, by decide +kernel, by decide +kernel⟩

example : Dist islandsT islandsOwn ∧ Uniform islandsT false 1 ∧
    (∀ a ∈ ([1, 2, 3, 4] : List Gid), ∀ b ∈ ([1, 2, 3, 4] : List Gid), [a, b] ∈ ([[2, 1], [1, 5], [4, 5], [1, 2]] : List (List Gid)) →
      [b, a] ∈ ([[2, 1], [1, 5], [4, 5], [1, 2]] : List (List Gid))) ∧ disconnected islandsT islandsOwn 0 = .ok 2 :=
  ⟨islandsT_dist.1, islandsT_dist.2, by decide, by decide +kernel⟩

/-- a traditional part with the single edge 2 → 1 -/
def oneWay : List Input := [{ hyper := false, verts := [1, 2], wgts := [], types := [⟨[0], [[2, 1]], []⟩] }]

/-- C40 fails for a traditional graph with an edge in one direction only: the search from vertex 1 does not see the edge
2 → 1, and a connected part is reported with one disconnected component -/
theorem c40_one_direction : Dist oneWay (fun _ => 0) ∧ Uniform oneWay false 1 ∧ components [[2, 1]] [1, 2] = 1 ∧
    disconnected oneWay (fun _ => 0) 0 = .ok 1 := by
  refine ⟨⟨?_, by decide, by decide⟩, ⟨by decide, by decide⟩, ?_, by decide +kernel⟩
  · intro i hi
    simp only [oneWay, List.mem_cons, List.not_mem_nil, or_false] at hi
    subst hi
    refine ⟨by decide, by decide, ?_⟩
    intro e he
    simp only [List.mem_cons, List.not_mem_nil, or_false] at he
    subst he; exact ⟨by decide, by decide, by decide⟩
  · unfold components
    rw [card_quot _ [⟨1, by simp⟩] (List.pairwise_singleton _ _)]
    · rfl
    · rintro ⟨a, ha⟩
      refine ⟨_, List.mem_singleton.mpr rfl, Relation.EqvGen.rel _ _ ⟨[2, 1], by simp, by simp, ?_⟩⟩
      simp only [List.mem_cons, List.not_mem_nil, or_false] at ha ⊢
      exact ha.symm

end Verif.Part
