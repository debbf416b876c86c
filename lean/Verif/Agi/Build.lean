import Verif.Agi.Rep
/-!
# Building a graph: `constructVerts`, then `constructEdges` once per edge type
-/
namespace Verif.Agi

/-- what the user passes to one call of `constructEdges`: edge gids, pin lists, weights (empty: none) -/
structure EdgeInput where
  ids : List Gid
  pins : List (List Gid)
  wgts : List Wgt

/-- what the user passes on one part -/
structure Input where
  hyper : Bool
  verts : List Gid
  wgts : List Wgt
  types : List EdgeInput

/-- well-formed input of one `constructEdges` call -/
structure EdgeInput.WF (hyper : Bool) (i : EdgeInput) : Prop where
  ids_len : i.ids.length = i.pins.length
  wgts_len : i.wgts = [] ∨ i.wgts.length = i.ids.length
  two : hyper = false → ∀ p ∈ i.pins, p.length = 2

/-- well-formed input of a part: no gid twice, at most `MAX_TYPES` edge types, two pins per edge in a
traditional graph -/
structure Input.WF (i : Input) : Prop where
  nodup : i.verts.Nodup
  types_le : i.types.length ≤ maxTypes
  edges : ∀ e ∈ i.types, e.WF i.hyper

/-- the calls `constructVerts(isHG,verts,wgts)`, `constructEdges(ids,degs,pins,wgts)` for every type
(the vector versions) on part `self` of `peers`; `total` is the sum of the local vertex counts -/
def build (self : Part) (peers : Nat) (total : Int) (i : Input) : Outcome Graph := do
  let g ← constructVertsV (emptyGraph self peers) i.hyper i.verts i.wgts total
  i.types.foldlM (fun g e => constructEdgesV g e.ids (e.pins.map List.length) e.pins.flatten e.wgts) g

/-- the same through the array versions (weights `NULL` when the list is empty) -/
def buildA (self : Part) (peers : Nat) (total : Int) (i : Input) : Outcome Graph := do
  let g ← constructVertsA (emptyGraph self peers) i.hyper i.verts.length i.verts
    (if i.wgts = [] then none else some i.wgts) total
  i.types.foldlM (fun g e => constructEdgesA g e.ids (e.pins.map List.length) e.pins.flatten
    (if e.wgts = [] then none else some e.wgts)) g

/-- all pins of all types, in input order -/
def Input.allPins (i : Input) : List Gid := (i.types.map (fun e => e.pins.flatten)).flatten

/-- the weights of an edge type: 1 when none are supplied -/
def EdgeInput.weights (e : EdgeInput) : List Wgt :=
  if e.wgts = [] then List.replicate e.ids.length 1 else e.wgts

/-- the weights of the vertices: 1 where none is supplied -/
def vertWeights (verts : List Gid) (wgts : List Wgt) : List Wgt :=
  (List.range verts.length).map (fun i => if h : i < wgts.length then wgts[i] else 1)

theorem TRep.mono {hyper : Bool} {e : EType} {verts known known' ids : List Gid} {es : List (List Gid)}
    (h : TRep hyper e verts known ids es) (hp : known <+: known') (hm : ∀ v ∈ es.flatten, v ∈ known)
    (h2 : hyper = false → ∀ p ∈ es, p.length = 2) :
    TRep hyper e verts known' ids es := by
  have hadj : ∀ v, adjOf hyper known' es v = adjOf hyper known es v := by
    intro v
    unfold adjOf
    split
    · rfl
    · rename_i hh
      have hh' : hyper = false := by simpa using hh
      apply List.map_congr_left
      intro p hp'
      have hpe : p ∈ es := (List.mem_filter.mp hp').1
      have hl := h2 hh' p hpe
      apply idxOf_prefix hp
      apply hm
      rw [List.mem_flatten]
      refine ⟨p, hpe, ?_⟩
      rw [List.getD_eq_getElem?_getD, List.getElem?_eq_getElem (by omega)]
      exact List.getElem_mem _
  obtain ⟨a, b, c, d, f, g, i, j, k, l⟩ := h
  refine ⟨a, b, c, d, f, ?_, i, j, ?_, l⟩
  · rw [g]; congr 1
    apply List.map_congr_left
    intro v hv
    exact (idxOf_prefix hp (hm v hv)).symm
  · intro u hu m hm'
    simp only [hadj] at hm' ⊢
    exact k u hu m hm'

theorem constructVertsV_spec (g : Graph) (isHG : Bool) (verts : List Gid) (wgts : List Wgt) (total : Int)
    (hnd : verts.Nodup) :
    ∃ g', constructVertsV g isHG verts wgts total = .ok g' ∧ VRep g' verts [] ∧
      g' = { vertInit g isHG verts.length with
             localUnmap := g'.localUnmap, vtxMap := g'.vtxMap, globalVerts := total,
             weights := Mem.ofList (vertWeights verts wgts) } := by
  unfold constructVertsV
  dsimp only
  obtain ⟨g1, e1, h1⟩ := range_inv
    (vertStep verts (fun i => if i < wgts.length then rd wgts i else .ok 1))
    (fun k (s : Graph) => s.localUnmap.length = verts.length ∧ s.weights.length = verts.length ∧
      s.vtxMap = lookup (verts.take k) ∧
      (∀ j (_ : j < k) (h : j < verts.length), s.localUnmap[j]? = some (some verts[j])) ∧
      (∀ j (_ : j < k) (h : j < (vertWeights verts wgts).length),
        s.weights[j]? = some (some (vertWeights verts wgts)[j])) ∧
      s = { vertInit g isHG verts.length with
            localUnmap := s.localUnmap, vtxMap := s.vtxMap, weights := s.weights }) 0 verts.length
    (by
      intro k s hk ⟨hl, hw, hm, hlu, hws, hs⟩
      rw [Nat.zero_add]
      unfold vertStep
      rw [rd_ok hk, Outcome.bind_ok, Mem.store_ok _ (by omega), Outcome.bind_ok]
      have hwk : (fun i => if i < wgts.length then rd wgts i else .ok 1) k =
          Outcome.ok ((vertWeights verts wgts)[k]'(by simp [vertWeights, hk])) := by
        simp only
        split
        · rename_i h; rw [rd_ok h]; simp [vertWeights, h]
        · rename_i h; simp [vertWeights, h]
      rw [hwk, Outcome.bind_ok, Mem.store_ok _ (by omega), Outcome.bind_ok]
      refine ⟨_, rfl, by simpa using hl, by simpa using hw, ?_, ?_, ?_, ?_⟩
      · simp only
        rw [hm, List.take_succ_eq_append_getElem hk]
        have hnm : verts[k] ∉ verts.take k := by
          intro h
          obtain ⟨j, hj, e⟩ := List.mem_iff_getElem.mp h
          simp only [List.getElem_take] at e
          simp only [List.length_take] at hj
          have := (hnd.getElem_inj_iff).mp e
          omega
        have := lookup_snoc hnm
        rw [List.length_take, Nat.min_eq_left (by omega)] at this
        exact this
      · intro j hj h
        simp only
        rw [List.getElem?_set]
        by_cases he : k = j
        · subst he; rw [if_pos rfl, if_pos (by omega)]
        · rw [if_neg he]; exact hlu j (by omega) h
      · intro j hj h
        simp only
        rw [List.getElem?_set]
        by_cases he : k = j
        · subst he; rw [if_pos rfl, if_pos (by omega)]
        · rw [if_neg he]; exact hws j (by omega) h
      · simp only
        rw [hs])
    (vertInit g isHG verts.length)
    ⟨by simp [vertInit], by simp [vertInit],
      by simp only [vertInit, emptyGraph, List.take_zero]; funext x; simp [lookup, GMap.empty],
      by omega, by omega, rfl⟩
  obtain ⟨hl, hw, hm, hlu, hws, hs⟩ := h1
  rw [e1]
  have hwl : (vertWeights verts wgts).length = verts.length := by simp [vertWeights]
  refine ⟨_, rfl, ⟨?_, rfl, by simpa using hnd, ?_, ?_, ?_⟩, ?_⟩
  · simp only; rw [hs]; rfl
  · simp only; rw [hm, List.take_length, List.append_nil]
  · exact ofList_of_get hl (fun i hi => hlu i hi hi)
  · left; refine ⟨rfl, ?_⟩; simp only; rw [hs]; rfl
  · simp only
    have : g1.weights = Mem.ofList (vertWeights verts wgts) :=
      ofList_of_get (by omega) (fun i hi => hws i (by omega) hi)
    rw [hs]
    simp only [this]
    rfl

theorem edgeWeightsV_spec (e : EdgeInput) (h : e.wgts = [] ∨ e.wgts.length = e.ids.length) :
    edgeWeightsV e.ids.length e.wgts = .ok (Mem.ofList e.weights) := by
  have key : ∀ (n : Nat) (l : List Wgt) (f : Mem Wgt → Nat → Outcome (Mem Wgt)), l.length = n →
      (∀ m k (h : k < l.length), f m k = m.store k l[k]) →
      (List.range' 0 n).foldlM f (Mem.alloc n) = .ok (Mem.ofList l) := by
    intro n l f hl hf
    obtain ⟨m, e, h1, h2⟩ := range_inv f
      (fun k (m : Mem Wgt) => m.length = n ∧ ∀ j (_ : j < k) (h : j < l.length), m[j]? = some (some l[j]))
      0 n
      (by
        intro k m hk ⟨h1, h2⟩
        rw [Nat.zero_add, hf m k (by omega), Mem.store_ok _ (by omega)]
        refine ⟨_, rfl, by simpa using h1, ?_⟩
        intro j hj h
        rw [List.getElem?_set]
        by_cases he : k = j
        · subst he; rw [if_pos rfl, if_pos (by omega)]
        · rw [if_neg he]; exact h2 j (by omega) h)
      (Mem.alloc n) ⟨by simp, by omega⟩
    rw [e]; congr 1
    exact ofList_of_get (by omega) (fun i hi => h2 i (by omega) hi)
  unfold edgeWeightsV EdgeInput.weights
  by_cases hz : e.wgts = []
  · rw [if_pos (by simp [hz]), if_pos hz]
    exact key _ _ _ (by simp) (fun m k h => by simp)
  · rw [if_neg (by simpa using hz), if_neg hz]
    have hl : e.wgts.length = e.ids.length := by tauto
    rw [hl]
    exact key _ _ _ hl (fun m k h => by rw [rd_ok h]; rfl)

/-- everything construction establishes; `ghosts` are the ghost gids in index order -/
structure GRep (g : Graph) (me : Part) (peers : Nat) (total : Int) (i : Input) (ghosts : List Gid) : Prop where
  vrep : VRep g i.verts ghosts
  ghosts_eq : i.verts ++ ghosts = extend i.verts i.allPins
  hyper : g.isHyper = i.hyper
  rank : g.self = me
  peers : g.peers = peers
  total : g.globalVerts = total
  numTypes : g.numTypes = i.types.length
  weights : g.weights = Mem.ofList (vertWeights i.verts i.wgts)
  owners : g.owners = none
  orig : g.originalOwners = none
  ghostW : g.ghostWeights = none
  types_len : g.types.length = maxTypes
  types : ∀ t (h : t < i.types.length), ∃ e, g.types[t]? = some (some e) ∧
    TRep i.hyper e i.verts (i.verts ++ ghosts) i.types[t].ids i.types[t].pins ∧
    e.weights = Mem.ofList i.types[t].weights
  unused : ∀ t, i.types.length ≤ t → t < maxTypes → g.types[t]? = some none

theorem build_spec' (self : Part) (peers : Nat) (total : Int) (i : Input) (hwf : i.WF) :
    ∃ g ghosts, build self peers total i = .ok g ∧ GRep g self peers total i ghosts ∧ g.coords = none := by
  obtain ⟨hyper, verts, wgts, types⟩ := i
  obtain ⟨hnd, htl, hed⟩ := hwf
  simp only at hnd htl hed
  obtain ⟨g0, e0, hv0, hg0⟩ := constructVertsV_spec (emptyGraph self peers) hyper verts wgts total hnd
  unfold build
  simp only
  rw [e0, Outcome.bind_ok]
  have base : GRep g0 self peers total ⟨hyper, verts, wgts, []⟩ [] := by
    refine ⟨hv0, by simp [extend, Input.allPins], congrArg Graph.isHyper hg0, congrArg Graph.self hg0,
      congrArg Graph.peers hg0, congrArg Graph.globalVerts hg0, congrArg Graph.numTypes hg0,
      congrArg Graph.weights hg0, congrArg Graph.owners hg0,
      congrArg Graph.originalOwners hg0, congrArg Graph.ghostWeights hg0,
      congrArg (fun g => g.types.length) hg0, fun t h => by simp at h, fun t _ h => ?_⟩
    have := congrArg Graph.types hg0
    rw [this]; simp [vertInit, emptyGraph, h]
  obtain ⟨g', e', ⟨ghosts, h'⟩, hc'⟩ := foldlM_inv
    (fun g (e : EdgeInput) => constructEdgesV g e.ids (e.pins.map List.length) e.pins.flatten e.wgts)
    (fun pre g => (∃ ghosts, GRep g self peers total ⟨hyper, verts, wgts, pre⟩ ghosts) ∧ g.coords = none) types
    (by
      rintro pre x s hpre ⟨⟨ghosts, hr⟩, hco⟩
      have hx : x ∈ types := hpre.subset (by simp)
      have hlen : pre.length < maxTypes := by
        have := hpre.length_le; simp at this; omega
      have hxwf := hed x hx
      have hprewf : ∀ e ∈ pre, e.WF hyper := fun e he => hed e (hpre.subset (by simp [he]))
      obtain ⟨rv, rg, rh, rs, rp, rt, rn, rw_, ro, roo, rgw, rtl, rty, run⟩ := hr
      simp only at rh rn rty run rw_
      obtain ⟨g1, e, new, eb, hext, hv1, ht1, hg1, -⟩ := constructEdgesBody_spec rv
        (by omega) x.ids x.pins hxwf.ids_len (by rw [rh]; exact hxwf.two)
      refine ⟨{ g1 with types := g1.types.set s.numTypes (some { e with weights := Mem.ofList x.weights }) },
        ?_, ⟨ghosts ++ new, ?_⟩, by simp only; rw [hg1]; exact hco⟩
      · unfold constructEdgesV
        rw [eb, Outcome.bind_ok]
        simp only
        rw [edgeWeightsV_spec x hxwf.wgts_len]
        rfl
      · have hall : (Input.allPins ⟨hyper, verts, wgts, pre ++ [x]⟩) =
            Input.allPins ⟨hyper, verts, wgts, pre⟩ ++ x.pins.flatten := by
          simp [Input.allPins]
        have hty : g1.types = s.types := by rw [hg1]
        refine ⟨?_, ?_, ?_, ?_, ?_, ?_, ?_, ?_, ?_, ?_, ?_, ?_, ?_, ?_⟩
        · exact ⟨hv1.nl, hv1.ng, hv1.nodup, hv1.map, hv1.loc, hv1.gho⟩
        · rw [hall, extend_append]
          simp only at rg ⊢
          rw [← rg, hext, List.append_assoc]
        · simp only; rw [hg1]; exact rh
        · simp only; rw [hg1]; exact rs
        · simp only; rw [hg1]; exact rp
        · simp only; rw [hg1]; exact rt
        · simp only; rw [hg1]; simp only [rn, List.length_append, List.length_cons, List.length_nil]
        · simp only; rw [hg1]; exact rw_
        · simp only; rw [hg1]; exact ro
        · simp only; rw [hg1]; exact roo
        · simp only; rw [hg1]; exact rgw
        · simp only [List.length_set]; rw [hty]; exact rtl
        · intro t ht
          simp only at ht ⊢
          rw [List.getElem?_set]
          by_cases htp : t < pre.length
          · obtain ⟨e', h1, h2, h3⟩ := rty t htp
            rw [if_neg (by omega), hty]
            refine ⟨e', h1, ?_, ?_⟩
            · rw [List.getElem_append_left htp]
              have hprefix : verts ++ ghosts <+: verts ++ (ghosts ++ new) := ⟨new, by simp⟩
              refine h2.mono hprefix ?_ (fun hh p hp => (hprewf _ (List.getElem_mem htp)).two hh p hp)
              intro v hv
              simp only at rg
              rw [rg, mem_extend]
              right
              simp only [Input.allPins]
              rw [List.mem_flatten]
              exact ⟨_, List.mem_map.mpr ⟨_, List.getElem_mem htp, rfl⟩, hv⟩
            · rw [List.getElem_append_left htp]; exact h3
          · have hte : t = pre.length := by simp at ht; omega
            subst hte
            rw [if_pos rn, if_pos (by rw [hty, rtl]; omega)]
            refine ⟨_, rfl, ?_, ?_⟩
            · rw [List.getElem_append_right (by omega)]
              simp only [Nat.sub_self, List.getElem_cons_zero]
              rw [rh] at ht1
              obtain ⟨a, b, c, d, f, g, i, j, k, l⟩ := ht1
              exact ⟨a, b, c, d, f, g, i, j, k, l⟩
            · rw [List.getElem_append_right (by omega)]
              simp
        · intro t h1 h2
          simp only [List.length_append, List.length_cons, List.length_nil] at h1 ⊢
          rw [List.getElem?_set, if_neg (by omega), hty]
          exact run t (by omega) h2)
    g0 ⟨⟨[], base⟩, congrArg Graph.coords hg0⟩
  exact ⟨g', ghosts, e', h', hc'⟩

/-- **Construction succeeds on well-formed input** and establishes `GRep`. -/
theorem build_spec (self : Part) (peers : Nat) (total : Int) (i : Input) (hwf : i.WF) :
    ∃ g ghosts, build self peers total i = .ok g ∧ GRep g self peers total i ghosts := by
  obtain ⟨g, gh, h1, h2, -⟩ := build_spec' self peers total i hwf
  exact ⟨g, gh, h1, h2⟩

/-- the array versions do the same -/
theorem constructVertsA_eq (g : Graph) (isHG : Bool) (verts : List Gid) (wgts : List Wgt) (total : Int)
    (h : wgts = [] ∨ wgts.length = verts.length) :
    constructVertsA g isHG verts.length verts (if wgts = [] then none else some wgts) total =
      constructVertsV g isHG verts wgts total := by
  have hf : ∀ (l : List Nat), (∀ x ∈ l, x < verts.length) → ∀ s, l.foldlM (vertStep verts (weightAt (if wgts = [] then none else some wgts))) s =
      l.foldlM (vertStep verts (fun i => if i < wgts.length then rd wgts i else .ok 1)) s := by
    intro l
    induction l with
    | nil => intro _ s; rfl
    | cons a l ih =>
      intro hl s
      rw [List.foldlM_cons, List.foldlM_cons]
      have ha := hl a (by simp)
      have : vertStep verts (weightAt (if wgts = [] then none else some wgts)) s a =
          vertStep verts (fun i => if i < wgts.length then rd wgts i else .ok 1) s a := by
        unfold vertStep weightAt
        by_cases hz : wgts = []
        · simp [hz]
        · have : a < wgts.length := by
            rcases h with h | h
            · exact absurd h hz
            · omega
          simp [hz, this]
      rw [this]
      congr 1; funext s'
      exact ih (fun x hx => hl x (by simp [hx])) s'
  unfold constructVertsA constructVertsV
  dsimp only
  rw [hf (List.range' 0 verts.length) (by simp)]

theorem buildA_eq (self : Part) (peers : Nat) (total : Int) (i : Input) (hwf : i.WF)
    (hw : i.wgts = [] ∨ i.wgts.length = i.verts.length) :
    buildA self peers total i = build self peers total i := by
  unfold buildA build
  rw [constructVertsA_eq _ _ _ _ _ hw]
  congr 1; funext g
  have : ∀ (l : List EdgeInput), (∀ e ∈ l, e.WF i.hyper) → ∀ g,
      l.foldlM (fun g e => constructEdgesA g e.ids (e.pins.map List.length) e.pins.flatten
        (if e.wgts = [] then none else some e.wgts)) g =
      l.foldlM (fun g e => constructEdgesV g e.ids (e.pins.map List.length) e.pins.flatten e.wgts) g := by
    intro l
    induction l with
    | nil => intro _ g; rfl
    | cons a l ih =>
      intro hl g
      rw [List.foldlM_cons, List.foldlM_cons]
      have ha := hl a (by simp)
      have : constructEdgesA g a.ids (a.pins.map List.length) a.pins.flatten
          (if a.wgts = [] then none else some a.wgts) =
          constructEdgesV g a.ids (a.pins.map List.length) a.pins.flatten a.wgts := by
        unfold constructEdgesA constructEdgesV
        have hsum : ((a.pins.map List.length).take a.ids.length).sum = a.pins.flatten.length := by
          rw [List.take_of_length_le (by simp [ha.ids_len]), List.length_flatten]
        rw [hsum]
        have hwe : edgeWeightsA a.ids.length (if a.wgts = [] then none else some a.wgts) =
            edgeWeightsV a.ids.length a.wgts := by
          unfold edgeWeightsA edgeWeightsV
          by_cases hz : a.wgts = []
          · simp [hz]
          · have hl : a.wgts.length = a.ids.length := by
              rcases ha.wgts_len with h | h
              · exact absurd h hz
              · exact h
            simp only [hz, if_false, hl]
            rw [if_neg]
            rw [← hl]; simpa using hz
        rw [hwe]
      rw [this]
      congr 1; funext g'
      exact ih (fun e he => hl e (by simp [he])) g'
  exact this i.types hwf.edges g

end Verif.Agi
