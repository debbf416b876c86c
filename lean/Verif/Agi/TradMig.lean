import Verif.Agi.TradPart
/-!
# Migration of traditional graphs: what is kept, sent, received, rebuilt
-/
namespace Verif.Agi
open Verif.Io (grouped grouped_perm grouped_length)

/-- the vectors of an edge type hold the edges `L` -/
structure EOk (a : EAcc) (L : List (List Gid)) : Prop where
  pins : a.pins = L.flatten
  degs : a.degs = L.map List.length
  ids : a.ids.length = L.length
  wgts : a.wgts.length = L.length

section
variable {g : Graph} {V ghosts ids : List Gid} {es : List (List Gid)} {wgts : List Wgt} {plan : Plan} {s : List Gid}
  {own' : Gid → Nat} {p : Nat}

theorem hasPlanned_at {known : List Gid} (hp : ∀ v ∈ known, g.planHas plan (vh known v) = .ok (decide (v ∈ s)))
    {e : Handle} {E : HEdge} (ha : EdgeAt g known e E) (hk : ∀ v ∈ E.pins, v ∈ known) (hf : E.pins.length < g.bound) :
    g.hasPlanned plan e = .ok (decide (∃ v ∈ E.pins, v ∈ s)) := by
  obtain ⟨it, hit, hy⟩ := ha.pins
  unfold Graph.hasPlanned
  rw [hit, Outcome.bind_ok, iterLoop_yields _ _ _ g.bound _ hy (by rw [List.length_map]; exact hf)]
  have key : ∀ (l : List Gid), (∀ v ∈ l, v ∈ known) →
      loopList (fun (_ : Bool) v => do
        let h ← g.planHas plan v
        return (h, h)) (l.map (vh known)) false = .ok (decide (∃ v ∈ l, v ∈ s)) := by
    intro l
    induction l with
    | nil => intro _; simp [loopList]
    | cons a l ih =>
      intro hl
      rw [List.map_cons, loopList, hp a (hl a (by simp))]
      simp only [Outcome.bind_ok, Outcome.pure_eq]
      by_cases ha : a ∈ s
      · simp [ha]
      · simp only [ha, decide_false, Bool.false_eq_true, if_false]
        have := ih (fun v hv => hl v (by simp [hv]))
        simp only [Outcome.pure_eq] at this
        rw [this]
        simp [ha]
  exact key E.pins hk

theorem keepPins_inv {known : List Gid} (hg : ∀ v ∈ known, g.globalID (vh known v) = .ok v) :
    ∀ (l : List Gid), (∀ v ∈ l, v ∈ known) → ∀ (acc r : List Gid × GMap Part),
      loopList g.keepPin (l.map (vh known)) acc = .ok r → r.1 = acc.1 ++ l := by
  intro l
  induction l with
  | nil =>
    intro _ acc r h
    have := Outcome.ok.inj h
    subst this
    simp
  | cons a l ih =>
    intro hl acc r h
    rw [List.map_cons, loopList] at h
    obtain ⟨⟨acc', b⟩, h1, h⟩ := bind_ok_iff.mp h
    unfold Graph.keepPin at h1
    rw [hg a (hl a (by simp)), Outcome.bind_ok] at h1
    obtain ⟨o, -, h1⟩ := bind_ok_iff.mp h1
    have := Outcome.ok.inj h1
    simp only [Prod.mk.injEq] at this
    obtain ⟨rfl, rfl⟩ := this
    simp only [Bool.false_eq_true, if_false] at h
    rw [ih (fun v hv => hl v (by simp [hv])) _ _ h]
    simp

theorem keepEdge_inv {known : List Gid} (hp : ∀ v ∈ known, g.planHas plan (vh known v) = .ok (decide (v ∈ s)))
    (hg : ∀ v ∈ known, g.globalID (vh known v) = .ok v)
    {e : Handle} {E : HEdge} (ha : EdgeAt g known e E) (hk : ∀ v ∈ E.pins, v ∈ known) (hf : E.pins.length < g.bound)
    {a : EAcc} {L : List (List Gid)} (hL : EOk a L) {r : EAcc × Bool} (h : g.keepEdge plan a e = .ok r) :
    r.2 = false ∧ EOk r.1 (L ++ if ∃ v ∈ E.pins, v ∈ s then [] else [E.pins]) := by
  unfold Graph.keepEdge at h
  rw [hasPlanned_at hp ha hk hf, Outcome.bind_ok] at h
  by_cases hpl : ∃ v ∈ E.pins, v ∈ s
  · simp only [hpl, decide_true, if_true] at h
    have := Outcome.ok.inj h
    subst this
    rw [if_pos hpl, List.append_nil]
    exact ⟨rfl, hL⟩
  · rw [if_neg hpl]
    simp only [hpl, decide_false, Bool.false_eq_true, if_false] at h
    obtain ⟨it, hit, hy⟩ := ha.pins
    rw [ha.id, Outcome.bind_ok, ha.w, Outcome.bind_ok, ha.deg, Outcome.bind_ok, hit, Outcome.bind_ok] at h
    obtain ⟨x, hx, h⟩ := bind_ok_iff.mp h
    rw [iterLoop_yields _ _ _ g.bound _ hy (by rw [List.length_map]; exact hf)] at hx
    have h1 := keepPins_inv hg _ hk _ _ hx
    have := Outcome.ok.inj h
    subst this
    refine ⟨rfl, ?_, ?_, ?_, ?_⟩
    · simp only [h1, hL.pins]; simp
    · simp only [hL.degs]; simp
    · simp [hL.ids]
    · simp [hL.wgts]

/-- what the lemmas need about the pins of a part -/
theorem trad_known (c : CRep g false V ghosts [⟨ids, es, wgts⟩]) {x : List Gid} (hx : x ∈ grouped V es) :
    (∀ v ∈ x, v ∈ V ++ ghosts) ∧ x.length < g.bound := by
  have hx' := mem_grouped hx
  obtain ⟨e, he, hr, -⟩ := c.typ 0 (by simp)
  have hb := bound_ge he
  have hn := hr.numP
  simp only [List.getElem_cons_zero] at hn
  have : x.length ≤ es.flatten.length := (List.sublist_flatten_of_mem hx').length_le
  refine ⟨fun v hv => ?_, by omega⟩
  have := c.pins 0 (by simp) v
  simp only [List.getElem_cons_zero] at this
  exact this (List.mem_flatten.mpr ⟨x, hx', hv⟩)

theorem grouped_fuel (c : CRep g false V ghosts [⟨ids, es, wgts⟩]) (hs : ArcsOn V es) : (grouped V es).length < g.bound := by
  obtain ⟨e, he, hr, -⟩ := c.typ 0 (by simp)
  have hb := bound_ge he
  have hn := hr.numE
  simp only [List.getElem_cons_zero] at hn
  rw [(grouped_perm (List.nodup_append.mp c.v.nodup).1 hs).length_eq]
  omega

theorem edgeBegin_trad (c : CRep g false V ghosts [⟨ids, es, wgts⟩]) (hs : ArcsOn V es) :
    YieldsFrom (g.edgeBegin 0) g.iterEdge ((List.range (grouped V es).length).map (fun l => g.getEdge l 0)) := by
  have := yields_edgeBegin (t := 0) c (by simp)
  simp only [List.getElem_cons_zero] at this
  rw [(grouped_perm (List.nodup_append.mp c.v.nodup).1 hs).length_eq]
  exact this

/-- **the edges that stay**: those without a planned pin -/
theorem keepEdges_trad (c : CRep g false V ghosts [⟨ids, es, wgts⟩]) (hs : ArcsOn V es)
    (hp : PlanTo V plan s own' p) {gm : GMap Part} {a : EAcc} (h : g.keepEdges plan gm 0 = .ok a) :
    EOk a ((grouped V es).filter (fun x => decide (¬ ∃ v ∈ x, v ∈ s))) := by
  obtain ⟨f, hpr, -, -⟩ := hp
  have hph : ∀ v ∈ V ++ ghosts, g.planHas plan (vh (V ++ ghosts) v) = .ok (decide (v ∈ s)) := fun v hv =>
    planHas_known c.v hpr hv
  have hgi : ∀ v ∈ V ++ ghosts, g.globalID (vh (V ++ ghosts) v) = .ok v := fun v hv => globalID_eq c.v hv
  obtain ⟨it, hit, hy⟩ := edgeBegin_trad c hs
  unfold Graph.keepEdges at h
  rw [hit, Outcome.bind_ok, iterLoop_yields _ _ _ g.bound _ hy (by simpa using grouped_fuel c hs)] at h
  have key : ∀ (l : List Nat), (∀ k ∈ l, k < (grouped V es).length) → ∀ (a r : EAcc) (L : List (List Gid)), EOk a L →
      loopList (g.keepEdge plan) (l.map (fun l => g.getEdge l 0)) a = .ok r →
      EOk r (L ++ (l.map (fun k => (grouped V es).getD k [])).filter (fun x => decide (¬ ∃ v ∈ x, v ∈ s))) := by
    intro l
    induction l with
    | nil =>
      intro _ a r L hL h
      have := Outcome.ok.inj h
      subst this
      simpa using hL
    | cons k l ih =>
      intro hl a r L hL h
      have hk := hl k (by simp)
      obtain ⟨E, hE, hat⟩ := arc_at c hs hk
      obtain ⟨hkn, hfu⟩ := trad_known c (List.getElem_mem hk)
      rw [← hE] at hkn hfu
      rw [List.map_cons, loopList] at h
      obtain ⟨⟨a', b⟩, h1, h⟩ := bind_ok_iff.mp h
      obtain ⟨h2, h3⟩ := keepEdge_inv hph hgi hat hkn hfu hL h1
      simp only at h2 h3
      subst h2
      simp only [Bool.false_eq_true, if_false] at h
      have h4 := ih (fun k hk => hl k (by simp [hk])) _ _ _ h3 h
      have hgd : (grouped V es).getD k [] = E.pins := by
        rw [hE, List.getD_eq_getElem?_getD, List.getElem?_eq_getElem hk, Option.getD_some]
      rw [List.map_cons, hgd]
      by_cases hpl : ∃ v ∈ E.pins, v ∈ s
      · rw [if_pos hpl, List.append_nil] at h4
        rw [List.filter_cons_of_neg (by simpa using hpl)]
        exact h4
      · rw [if_neg hpl, List.append_assoc] at h4
        rw [List.filter_cons_of_pos (by simpa using hpl)]
        exact h4
  have h5 := key (List.range (grouped V es).length) (fun k hk => List.mem_range.mp hk) _ _ [] ⟨rfl, rfl, rfl, rfl⟩ h
  rw [List.nil_append, ← list_range (grouped V es) []] at h5
  exact h5

/-! ## sending -/

theorem packTrad_inv (c : CRep g false V ghosts [⟨ids, es, wgts⟩]) (hs : ArcsOn V es)
    (hp : PlanTo V plan s own' p) {k : Nat} (hk : k < (grouped V es).length) (hsrc : src (grouped V es)[k] ∈ s)
    {r : EMsg × List Part} (h : g.packTrad plan (g.getEdge k 0) = .ok r) :
    r.1.pins = (grouped V es)[k] ∧ r.2 = [(own' (src (grouped V es)[k]) : Int)] := by
  obtain ⟨f, hpr, hf, hsm⟩ := hp
  obtain ⟨u, j, hu, -, -, -, hue, hve⟩ := arc_pos c hs hk
  have hsV := ((hsm _).mp hsrc).1
  obtain ⟨u', hu', w, hne, hx⟩ := hs _ (mem_grouped (List.getElem_mem hk))
  have hkn := (trad_known c (List.getElem_mem hk)).1
  have hdst : dst (grouped V es)[k] = w := by rw [hx]; rfl
  have hsrc' : src (grouped V es)[k] = u' := by rw [hx]; rfl
  rw [hsrc'] at hue hsrc hsV
  rw [hdst] at hve
  have hwk : w ∈ V ++ ghosts := hkn w (by rw [hx]; simp)
  unfold Graph.packTrad at h
  obtain ⟨w', -, h⟩ := bind_ok_iff.mp h
  obtain ⟨⟨t', l'⟩, -, h⟩ := bind_ok_iff.mp h
  simp only at h
  rw [hue, Outcome.bind_ok] at h
  have hgu : g.globalID (lh V u') = .ok u' := by
    have := globalID_eq c.v (List.mem_append_left ghosts hsV)
    rw [List.idxOf_append_of_mem hsV] at this
    exact this
  rw [hgu, Outcome.bind_ok, hve, Outcome.bind_ok] at h
  obtain ⟨od, -, h⟩ := bind_ok_iff.mp h
  have hgw : g.globalID (vh (V ++ ghosts) w) = .ok w := globalID_eq c.v hwk
  have hph := planHas_eq hpr c.v.nl hsV
  have hpg := planGet_eq hpr c.v.nl hsV
  have hfs := hf _ hsrc
  rw [hgw, Outcome.bind_ok, hph, Outcome.bind_ok, hfs] at h
  simp only [ne_eq, reduceCtorEq, not_false_eq_true, decide_true, if_true] at h
  rw [hpg, Outcome.bind_ok, hfs] at h
  have := Outcome.ok.inj h
  subst this
  rw [hx]
  exact ⟨rfl, rfl⟩

theorem sendEdges_trad (c : CRep g false V ghosts [⟨ids, es, wgts⟩]) (hs : ArcsOn V es)
    (hp : PlanTo V plan s own' p) : ∀ {K : List Nat} (_ : ∀ k ∈ K, ∃ hk : k < (grouped V es).length, src (grouped V es)[k] ∈ s)
    {out : List (Part × EMsg)} (_ : g.sendEdges plan (K.map (fun k => g.getEdge k 0)) = .ok out),
    out.map (fun m => (m.1, m.2.pins)) =
      K.map (fun k => ((own' (src ((grouped V es).getD k [])) : Int), (grouped V es).getD k [])) := by
  intro K hK out h
  unfold Graph.sendEdges at h
  obtain ⟨packs, hpk, h'⟩ := bind_ok_iff.mp h
  clear h
  have := Outcome.ok.inj h'
  clear h'
  subst this
  induction K generalizing packs with
  | nil =>
    rw [List.map_nil, List.mapM_nil] at hpk
    have := Outcome.ok.inj hpk
    subst this
    rfl
  | cons k K ih =>
    rw [List.map_cons, List.mapM_cons] at hpk
    obtain ⟨r, hr, hpk⟩ := bind_ok_iff.mp hpk
    obtain ⟨rs, hrs, hpk⟩ := bind_ok_iff.mp hpk
    have := Outcome.ok.inj hpk
    subst this
    have ih' := ih (fun k hk => hK k (by simp [hk])) rs hrs
    obtain ⟨hk, hsk⟩ := hK k (by simp)
    rw [c.hyp] at hr
    simp only [Bool.false_eq_true, if_false] at hr
    obtain ⟨h1, h2⟩ := packTrad_inv c hs hp hk hsk hr
    have hgd : (grouped V es).getD k [] = (grouped V es)[k] := by
      rw [List.getD_eq_getElem?_getD, List.getElem?_eq_getElem hk, Option.getD_some]
    rw [List.flatMap_cons, List.map_append, ih', List.map_cons, h2, hgd]
    simp [h1]

theorem getEdge_one (c : CRep g false V ghosts [⟨ids, es, wgts⟩]) (k : Nat) : g.getEdge k 0 = k + 1 := by
  unfold Graph.getEdge
  rw [c.numTypes]
  simp only [List.length_cons, List.length_nil]
  omega

/-- **the edges that are sent**, whatever the order of the set -/
theorem sent_trad (c : CRep g false V ghosts [⟨ids, es, wgts⟩]) (hs : ArcsOn V es) (hp : PlanTo V plan s own' p)
    {sh : List Handle → List Handle} (hsh : ∀ l, (sh l).Perm l) {out : List (Part × EMsg)}
    (h : (do
      let es ← g.affectedEdges (s.map (lh V))
      g.sendEdges plan (sh es)) = .ok out) :
    (out.map (fun m => (m.1, m.2.pins))).Perm
      (((grouped V es).filter (fun x => decide (src x ∈ s))).map (fun x => ((own' (src x) : Int), x))) := by
  have hsV : ∀ v ∈ s, v ∈ V := by obtain ⟨f, -, -, h⟩ := hp; intro v hv; exact ((h v).mp hv).1
  obtain ⟨ae, hae, hnd, hmem⟩ := affected_trad c hs hsV
  rw [hae, Outcome.bind_ok] at h
  have hone : ∀ e ∈ sh ae, g.getEdge (e - 1) 0 = e := by
    intro e he
    obtain ⟨k, -, rfl, -⟩ := (hmem e).mp ((hsh ae).mem_iff.mp he)
    rw [getEdge_one c, getEdge_one c]; rfl
  have hK : sh ae = ((sh ae).map (· - 1)).map (fun k => g.getEdge k 0) := by
    rw [List.map_map]
    conv_lhs => rw [← List.map_id (sh ae)]
    apply List.map_congr_left
    intro e he
    simp only [Function.comp, id]
    exact (hone e he).symm
  rw [hK] at h
  rw [sendEdges_trad c hs hp (by
    intro k hk
    obtain ⟨e, he, rfl⟩ := List.mem_map.mp hk
    obtain ⟨k, hk', rfl, h2⟩ := (hmem e).mp ((hsh ae).mem_iff.mp he)
    rw [getEdge_one c]
    exact ⟨hk', h2⟩) h]
  have h1 : ((sh ae).map (· - 1)).Perm
      ((List.range (grouped V es).length).filter (fun k => decide (src ((grouped V es).getD k []) ∈ s))) := by
    refine ((hsh ae).map _).trans ?_
    refine (List.perm_ext_iff_of_nodup ?_ (List.nodup_range.filter _)).mpr ?_
    · refine List.Nodup.map_on ?_ hnd
      intro a ha b hb hab
      obtain ⟨k, -, rfl, -⟩ := (hmem a).mp ha
      obtain ⟨k', -, rfl, -⟩ := (hmem b).mp hb
      rw [getEdge_one c, getEdge_one c] at *
      omega
    · intro k
      rw [List.mem_map, List.mem_filter, List.mem_range, decide_eq_true_iff]
      constructor
      · rintro ⟨e, he, rfl⟩
        obtain ⟨k, hk, rfl, h2⟩ := (hmem e).mp he
        rw [getEdge_one c, Nat.add_sub_cancel, List.getD_eq_getElem?_getD, List.getElem?_eq_getElem hk, Option.getD_some]
        exact ⟨hk, h2⟩
      · rintro ⟨hk, h2⟩
        rw [List.getD_eq_getElem?_getD, List.getElem?_eq_getElem hk, Option.getD_some] at h2
        exact ⟨g.getEdge k 0, (hmem _).mpr ⟨k, hk, rfl, h2⟩, by rw [getEdge_one c]; rfl⟩
  refine (h1.map _).trans ?_
  conv_rhs => rw [list_range (grouped V es) [], List.filter_map, List.map_map]
  exact List.Perm.refl _

/-! ## receiving -/

theorem recv_trad (me : Part) : ∀ (ms : List (Nat × EMsg)) {a : EAcc} {L : List (List Gid)}, EOk a L →
    EOk (ms.foldl (recvEdge me false) a) (L ++ ms.map (fun m => m.2.pins)) := by
  intro ms
  induction ms with
  | nil => intro a L h; simpa using h
  | cons m ms ih =>
    intro a L h
    rw [List.foldl_cons, List.map_cons]
    have : EOk (recvEdge me false a m) (L ++ [m.2.pins]) := by
      unfold recvEdge
      simp only [Bool.false_eq_true, false_and, if_false]
      exact ⟨by simp [h.pins], by simp [h.degs], by simp [h.ids], by simp [h.wgts]⟩
    have h2 := ih this
    rw [List.append_assoc] at h2
    exact h2

/-! ## rebuilding -/

theorem rebuild_trad {D : VD} {g' : Graph} {W : List Gid} (hW : W.Nodup) {a : EAcc} {L : List (List Gid)} (hL : EOk a L)
    (h2 : ∀ x ∈ L, x.length = 2) {cs : Option (List Coord)} {total : Int}
    (h : g.rebuild false (W.map D.record) [a] cs total = .ok g') :
    ∃ ghosts ids wgts, CRep g' false W ghosts [⟨ids, L, wgts⟩] := by
  let i : Input := ⟨false, W, W.map D.wt, [⟨a.ids, L, a.wgts⟩]⟩
  have hwf : i.WF := by
    refine ⟨hW, by simp [i, maxTypes], ?_⟩
    intro e he
    simp only [i, List.mem_cons, List.not_mem_nil, or_false] at he
    subst he
    exact ⟨hL.ids, .inr (by simp [hL.wgts, hL.ids]), fun _ => h2⟩
  obtain ⟨g1, ghosts, e, hr, hc⟩ := build_spec' g.self g.peers total i hwf
  rw [← buildA_eq _ _ _ _ hwf (.inr (by simp [i]))] at e
  have hb : (do
      let g ← constructVertsA g false (W.map D.record).length ((W.map D.record).map VRec.gid)
        (ptrOf ((W.map D.record).map VRec.w)) total
      [a].foldlM (fun g (e : EAcc) => constructEdgesA g e.ids e.degs e.pins (ptrOf e.wgts)) g) = .ok g1 := by
    rw [← e]
    unfold buildA
    simp only [i]
    have h1 : (W.map D.record).map VRec.gid = W := by
      rw [List.map_map]; exact List.map_id'' (fun v => rfl) W
    have h2 : (W.map D.record).map VRec.w = W.map D.wt := by rw [List.map_map]; rfl
    rw [h1, h2, List.length_map, ptrOf_eq]
    simp only [List.foldlM_cons, List.foldlM_nil, ptrOf_eq, hL.pins, hL.degs]
    rfl
  have hcore := hr.core hwf
  unfold Graph.rebuild at h
  obtain ⟨x, hx, h⟩ := bind_ok_iff.mp h
  rw [hx, Outcome.bind_ok] at hb
  rw [hb, Outcome.bind_ok] at h
  rcases cs with _ | cs
  · have := Outcome.ok.inj h
    subst this
    exact ⟨ghosts, a.ids, a.wgts, hcore⟩
  · simp only at h
    unfold Graph.setCoords at h
    obtain ⟨m, -, h⟩ := bind_ok_iff.mp h
    have := Outcome.ok.inj h
    subst this
    exact ⟨ghosts, a.ids, a.wgts, keepsC_with g1 g1.owners g1.ghostWeights g1.originalOwners (some m) hcore⟩

end
end Verif.Agi
