import Verif.Agi.GhostCount
/-!
# Properties C12 and C15: ghosts and ghost tags
-/
namespace Verif.Agi

/-! ## counting -/

theorem sum_single (n m : Nat) (c : Int) (h : m < n) :
    ((List.range n).map (fun p => if p = m then c else 0)).sum = c := by
  induction n with
  | zero => omega
  | succ n ih =>
    rw [List.range_succ, List.map_append, List.sum_append]
    by_cases hm : m = n
    · subst hm
      have : ((List.range m).map (fun p => if p = m then c else 0)).sum = 0 := by
        have : (List.range m).map (fun p => if p = m then c else 0) = (List.range m).map (fun _ => (0 : Int)) := by
          apply List.map_congr_left
          intro p hp; rw [List.mem_range] at hp; rw [if_neg (by omega)]
        rw [this]; clear ih h this
        induction m with
        | zero => rfl
        | succ m ih => rw [List.range_succ, List.map_append, List.sum_append, ih]; rfl
      rw [this]; simp
    · rw [ih (by omega)]
      have : ¬ n = m := fun h => hm h.symm
      simp [this]

theorem sum_add (n : Nat) (f g : Nat → Int) : ((List.range n).map (fun p => f p + g p)).sum =
    ((List.range n).map f).sum + ((List.range n).map g).sum := by
  induction n with
  | zero => rfl
  | succ n ih => 
    simp only [List.range_succ, List.map_append, List.sum_append, ih, List.map_cons, List.map_nil,
      List.sum_cons, List.sum_nil]
    omega

/-- each element counted by exactly one `p`: the counts add up to the total -/
theorem sum_partition {α : Type} (n : Nat) (P : Nat → α → Bool) (f : α → Int) : ∀ (E : List α),
    (∀ e ∈ E, ∃ m, m < n ∧ ∀ p, p < n → (P p e = true ↔ p = m)) →
    ((List.range n).map (fun p => ((E.filter (P p)).map f).sum)).sum = (E.map f).sum := by
  intro E
  induction E with
  | nil =>
    intro _
    have : ∀ n, ((List.range n).map (fun p => ((([] : List α).filter (P p)).map f).sum)).sum = 0 := by
      intro n
      induction n with
      | zero => rfl
      | succ n ih => rw [List.range_succ, List.map_append, List.sum_append, ih]; rfl
    exact this n
  | cons e E ih =>
    intro h
    obtain ⟨m, hm, hp⟩ := h e (by simp)
    have ih' := ih (fun e he => h e (by simp [he]))
    have hcong : (List.range n).map (fun p => (((e :: E).filter (P p)).map f).sum) =
        (List.range n).map (fun p => (if p = m then f e else 0) + ((E.filter (P p)).map f).sum) := by
      apply List.map_congr_left
      intro p hpn
      rw [List.mem_range] at hpn
      rw [List.filter_cons]
      by_cases hpe : P p e = true
      · rw [if_pos hpe, if_pos ((hp p hpn).mp hpe)]; simp
      · rw [if_neg hpe, if_neg (fun h => hpe ((hp p hpn).mpr h))]; simp
    rw [hcong, sum_add, sum_single n m (f e) hm, ih']; simp

theorem int_sum_perm {l l' : List Int} (h : l.Perm l') : l.sum = l'.sum := by
  induction h with
  | nil => rfl
  | cons x _ ih => simp [ih]
  | swap x y l => simp only [List.sum_cons]; omega
  | trans _ _ ih1 ih2 => exact ih1.trans ih2

/-- the lowest owner of a nonempty pin list -/
theorem exists_min_owner (own : Gid → Nat) : ∀ (pins : List Gid), pins ≠ [] →
    ∃ v ∈ pins, ∀ w ∈ pins, own v ≤ own w := by
  intro pins
  induction pins with
  | nil => intro h; exact absurd rfl h
  | cons a pins ih =>
    intro _
    cases pins with
    | nil => exact ⟨a, by simp, by simp⟩
    | cons b pins =>
      obtain ⟨v, hv, hm⟩ := ih (by simp)
      rcases Nat.le_total (own a) (own v) with h | h
      · refine ⟨a, by simp, ?_⟩
        intro w hw
        rcases List.mem_cons.mp hw with rfl | hw
        · exact Nat.le_refl _
        · exact Nat.le_trans h (hm w hw)
      · refine ⟨v, by simp only [List.mem_cons] at hv ⊢; exact .inr hv, ?_⟩
        intro w hw
        rcases List.mem_cons.mp hw with rfl | hw
        · exact h
        · exact hm w hw

theorem hdist_total {H : List (List HEdge)} {ins : List Input} {own : Gid → Nat} (h : HDist H ins own)
    {t : Nat} (ht : t < H.length) (f : List Gid → Int) (F : Nat → Int)
    (hF : ∀ p (hp : p < ins.length) (ht' : t < ins[p].types.length),
      F p = ((ins[p].types[t].pins.filter (countedBy own p)).map f).sum) :
    ((List.range ins.length).map F).sum = (H[t].map (fun e => f e.pins)).sum := by
  rw [← sum_partition ins.length (fun p e => decide (∃ v ∈ e.pins, own v = p) && countedBy own p e.pins)
    (fun e => f e.pins) H[t]]
  · congr 1
    apply List.map_congr_left
    intro p hp
    rw [List.mem_range] at hp
    have ht' : t < ins[p].types.length := by rw [h.types p hp]; exact ht
    rw [hF p hp ht']
    have hwf := (h.wf _ (List.getElem_mem hp)).edges _ (List.getElem_mem ht')
    have hperm := h.edges p hp t ht' ht
    rw [← edges_pins hwf, List.filter_map, List.map_map]
    have := (hperm.filter (countedBy own p ∘ HEdge.pins)).map (f ∘ HEdge.pins)
    rw [int_sum_perm this, List.filter_filter]
    congr 2
    apply List.filter_congr
    intro e _
    simp [Bool.and_comm]
  · intro e he
    obtain ⟨v, hv, hmin⟩ := exists_min_owner own e.pins (h.nonempty _ (List.getElem_mem ht) e he)
    obtain ⟨hlt, -⟩ := h.pins _ (List.getElem_mem ht) e he v hv
    refine ⟨own v, hlt, fun p hp => ?_⟩
    unfold countedBy
    simp only [Bool.and_eq_true, decide_eq_true_iff]
    constructor
    · rintro ⟨⟨w, hw, rfl⟩, hall⟩
      have h1 := hall v hv
      have h2 := hmin w hw
      omega
    · rintro rfl
      exact ⟨⟨v, hv, rfl⟩, hmin⟩

theorem hdist_uniform {H : List (List HEdge)} {ins : List Input} {own : Gid → Nat} (h : HDist H ins own) :
    Uniform ins true H.length :=
  ⟨h.hyper, fun i hi => by obtain ⟨p, hp, rfl⟩ := List.mem_iff_getElem.mp hi; exact h.types p hp⟩

theorem hdist_edgeTotal {H : List (List HEdge)} {ins : List Input} {own : Gid → Nat} (h : HDist H ins own)
    {t : Nat} (ht : t < H.length) : edgeTotal ins own t = (H[t].length : Int) := by
  unfold edgeTotal
  rw [hdist_total h ht (fun _ => 1)]
  · simp
  · intro p hp ht'
    have hi : ins[p]? = some ins[p] := List.getElem?_eq_getElem _
    have hit : ins[p].types[t]? = some ins[p].types[t] := List.getElem?_eq_getElem _
    unfold contribution
    simp only [hi, hit, h.hyper _ (List.getElem_mem hp), if_true]
    simp

theorem cast_sum (l : List Nat) : ((l.sum : Nat) : Int) = (l.map (fun n : Nat => (n : Int))).sum := by
  induction l with
  | nil => rfl
  | cons a l ih => simp [ih]

theorem hdist_pinTotal {H : List (List HEdge)} {ins : List Input} {own : Gid → Nat} (h : HDist H ins own)
    {t : Nat} (ht : t < H.length) :
    pinTotal ins own t = (((H[t].map (fun e => e.pins.length)).sum : Nat) : Int) := by
  unfold pinTotal
  rw [hdist_total h ht (fun p => (p.length : Int))]
  · rw [cast_sum, List.map_map]; rfl
  · intro p hp ht'
    have hi : ins[p]? = some ins[p] := List.getElem?_eq_getElem _
    have hit : ins[p].types[t]? = some ins[p].types[t] := List.getElem?_eq_getElem _
    unfold contribution
    simp only [hi, hit, h.hyper _ (List.getElem_mem hp), if_true]
    rw [cast_sum, List.map_map]; rfl

/-! ## C12 -/

/-- **C12**, hypergraphs: the parts are given a distribution `ins` of a hypergraph `H` (hyperedges per
type; a part stores the hyperedges having a pin it owns, so a cut hyperedge is stored several times) and the
owners of their ghosts.  After `constructGhosts` on all parts - whatever the message delivery orders - every
part reports: the owner of every vertex it knows is the part owning it, `numGlobalEdges(t)` is the number of
hyperedges of `H`, `numGlobalPins(t)` the number of their pins, `numGlobalVtxs` the sum of the local counts,
and (with several parts) the weight of every ghost is the weight it has on its owner. -/
theorem c12_ghosts_hyper (H : List (List HEdge)) (ins : List Input) (own : Gid → Nat) (h : HDist H ins own)
    (owns : List (GMap Part)) (ho : OwnMaps ins own owns) (o1 o2 : Nat → List Nat)
    (ho1 : Orders ins.length o1) (ho2 : Orders ins.length o2) :
    ∃ gs gs', buildAll ins = .ok gs ∧ constructGhosts gs owns o1 o2 = .ok gs' ∧
      gs'.length = ins.length ∧ ∀ p (hp : p < ins.length) (hg : p < gs'.length),
      (∀ v, v ∈ ins[p].verts ∨ v ∈ ins[p].allPins → ∃ hv, gs'[p].findGID v = .ok hv ∧
        gs'[p].owner hv = .ok (own v : Int)) ∧
      (∀ t (ht : t < H.length), gs'[p].numGlobalEdges t = .ok (H[t].length : Int) ∧
        gs'[p].numGlobalPins t = .ok (((H[t].map (fun e => e.pins.length)).sum : Nat) : Int)) ∧
      gs'[p].globalVerts = (ins.map (fun i => (i.verts.length : Int))).sum ∧
      (1 < ins.length → ∀ v ∈ ins[p].allPins, ∃ hv hv' w, ∃ hq : own v < gs'.length,
        gs'[p].findGID v = .ok hv ∧ gs'[own v].findGID v = .ok hv' ∧
        gs'[own v].weight hv' = .ok w ∧ gs'[p].weight hv = .ok w) := by
  have hd := h.dist
  obtain ⟨gs, e, hb⟩ := buildAll_spec ins h.wf
  obtain ⟨gs', e', hw, hr⟩ := constructGhosts_spec hb hd (hdist_uniform h) ho ho1 ho2
  have hl := hw.1
  have hl0 := hb.1
  refine ⟨gs, gs', e, e', hl, fun p hp hg => ?_⟩
  obtain ⟨r1, r2, -, -, r3⟩ := hr p hg (by omega) hp
  obtain ⟨ghosts, hrep⟩ := hw.2 p hg hp
  have hmem : ∀ v, v ∈ ins[p].verts ∨ v ∈ ins[p].allPins → v ∈ ins[p].verts ++ ghosts := by
    intro v hv; rw [hrep.ghosts_eq, mem_extend]; exact hv
  refine ⟨?_, ?_, ?_, ?_⟩
  · intro v hv
    refine ⟨_, findGID_eq hrep.core.v (hmem v hv), ?_⟩
    rw [owner_eq hrep.core.v hrep.owners (hmem v hv)]
    unfold ownerOf
    split
    · rename_i hm; rw [hrep.rank, h.verts p hp v hm]
    · rfl
  · intro t ht
    obtain ⟨a, b⟩ := r1 t ht
    rw [a, b, if_pos rfl, hdist_edgeTotal h ht, hdist_pinTotal h ht]
    exact ⟨rfl, rfl⟩
  · rw [r2]
    obtain ⟨gh, hgr⟩ := hb.2 p (by omega) hp
    exact hgr.total
  · intro hn v hv
    have hwf : ∀ q (hq : q < gs'.length) (hi : q < ins.length), ∀ v ∈ ins[q].verts,
        ∃ hv, gs'[q].findGID v = .ok hv ∧ gs'[q].weight hv = .ok (weightOf ins own v) := by
      intro q hq hi v hv
      obtain ⟨gh, hgr⟩ := hw.2 q hq hi
      obtain ⟨u, hu, rfl⟩ := List.mem_iff_getElem.mp hv
      refine ⟨_, findGID_local hgr.core.v hu, ?_⟩
      rw [weight_local hgr.core.v hgr.weights hu (by rw [vertWeights_length]; exact hu)]
      congr 1
      unfold weightOf
      have hii : ins[q]? = some ins[q] := List.getElem?_eq_getElem _
      rw [hd.verts q hi _ hv, hii]
      simp only
      rw [((hd.wf _ (List.getElem_mem hi)).nodup).idxOf_getElem]
      rw [List.getD_eq_getElem?_getD, List.getElem?_eq_getElem (by rw [vertWeights_length]; exact hu)]
      rfl
    obtain ⟨hq, hvq⟩ := hd.pins p hp v hv
    obtain ⟨hv', e1, e2⟩ := hwf (own v) (by omega) hq v hvq
    by_cases hm : v ∈ ins[p].verts
    · obtain ⟨hv2, e3, e4⟩ := hwf p hg hp v hm
      exact ⟨hv2, hv', _, by omega, e3, e1, e2, e4⟩
    · obtain ⟨gh, hgr, hgw⟩ := r3 hn
      have hvg : v ∈ gh := (hgr.mem_ghosts v).mpr ⟨hv, hm⟩
      have hmem : v ∈ ins[p].verts ++ gh := by simp [hvg]
      refine ⟨_, hv', _, by omega, findGID_eq hgr.core.v hmem, e1, e2, ?_⟩
      have hlt := List.idxOf_lt_length_of_mem hvg
      have hidx : (ins[p].verts ++ gh).idxOf v = ins[p].verts.length + gh.idxOf v :=
        List.idxOf_append_of_notMem hm
      unfold Graph.weight
      rw [vidx_getVertex, Outcome.bind_ok, hgr.core.v.nl, hgr.core.v.ng, hidx, if_neg (by omega),
        if_pos (by omega), hgw]
      simp only [deref, Outcome.ofOption_some, Outcome.bind_ok]
      unfold Graph.getVtxTag
      rw [vidx_getVertex, Outcome.bind_ok, hgr.core.v.nl, if_pos (by omega), Nat.add_sub_cancel_left,
        Mem.load_ofList (by simpa using hlt)]
      rw [List.getElem_map, List.getElem_idxOf]

/-- two parts sharing one cut hyperedge {1,2} and each having a private one -/
def sampleWorld : List Input :=
  [{ hyper := true, verts := [1], wgts := [3], types := [⟨[100, 101], [[1, 2], [1]], []⟩] },
   { hyper := true, verts := [2, 3], wgts := [4, 5], types := [⟨[102, 100], [[2, 3], [1, 2]], []⟩] }]
def sampleOwn : Gid → Nat := fun v => if v = 1 then 0 else 1
def sampleHG : List (List HEdge) := [[⟨100, [1, 2], 1⟩, ⟨101, [1], 1⟩, ⟨102, [2, 3], 1⟩]]

theorem sampleWorld_dist : HDist sampleHG sampleWorld sampleOwn := by
  refine ⟨?_, by decide, ?_, ?_, by decide, ?_, ?_⟩
  · intro i hi
    simp only [sampleWorld, List.mem_cons, List.not_mem_nil, or_false] at hi
    rcases hi with rfl | rfl
    · refine ⟨by decide, by decide, ?_⟩
      intro e he
      simp only [List.mem_cons, List.not_mem_nil, or_false] at he
      subst he; exact ⟨by decide, by decide, by decide⟩
    · refine ⟨by decide, by decide, ?_⟩
      intro e he
      simp only [List.mem_cons, List.not_mem_nil, or_false] at he
      subst he; exact ⟨by decide, by decide, by decide⟩
  · decide
  · decide
  · decide
  · intro p hp t ht ht'
    have h1 : p = 0 ∨ p = 1 := by simp [sampleWorld] at hp; omega
    have h2 : t = 0 := by simp [sampleHG] at ht'; exact ht'
    subst h2
    rcases h1 with rfl | rfl
    · decide +revert
    · decide +revert

/-- the hypotheses of C12 are met -/
example : HDist sampleHG sampleWorld sampleOwn ∧
    OwnMaps sampleWorld sampleOwn [fun v => some (sampleOwn v : Int), fun v => some (sampleOwn v : Int)] ∧
    Orders sampleWorld.length (fun q => if q = 0 then [0, 1] else [1, 0]) := by
  refine ⟨sampleWorld_dist, ⟨rfl, ?_⟩, ?_⟩
  · intro p hp h' v _ _
    have h1 : p = 0 ∨ p = 1 := by simp [sampleWorld] at hp; omega
    rcases h1 with rfl | rfl <;> rfl
  · intro q hq
    have h1 : q = 0 ∨ q = 1 := by simp [sampleWorld] at hq; omega
    rcases h1 with rfl | rfl <;> decide

/-- **C12**, traditional graphs: every edge is stored once, on the part of its source, so the global edge
count is the sum of the parts' edge counts and there are two pins per edge. -/
theorem c12_ghosts_trad (ins : List Input) (own : Gid → Nat) (hd : Dist ins own) (T : Nat)
    (hu : Uniform ins false T) (owns : List (GMap Part)) (ho : OwnMaps ins own owns)
    (o1 o2 : Nat → List Nat) (ho1 : Orders ins.length o1) (ho2 : Orders ins.length o2) :
    ∃ gs gs', buildAll ins = .ok gs ∧ constructGhosts gs owns o1 o2 = .ok gs' ∧
      gs'.length = ins.length ∧ ∀ p (hp : p < ins.length) (hg : p < gs'.length),
      (∀ v, v ∈ ins[p].verts ∨ v ∈ ins[p].allPins → ∃ hv, gs'[p].findGID v = .ok hv ∧
        gs'[p].owner hv = .ok (own v : Int)) ∧
      (∀ t, t < T → gs'[p].numGlobalEdges t =
          .ok ((ins.map (fun i => (((i.types.map (fun e => e.pins.length)).getD t 0 : Nat) : Int))).sum) ∧
        gs'[p].numGlobalPins t =
          .ok (2 * (ins.map (fun i => (((i.types.map (fun e => e.pins.length)).getD t 0 : Nat) : Int))).sum)) := by
  obtain ⟨gs, e, hb⟩ := buildAll_spec ins hd.wf
  obtain ⟨gs', e', hw, hr⟩ := constructGhosts_spec hb hd hu ho ho1 ho2
  have hl := hw.1
  have hl0 := hb.1
  refine ⟨gs, gs', e, e', hl, fun p hp hg => ?_⟩
  obtain ⟨r1, -, -, -, -⟩ := hr p hg (by omega) hp
  obtain ⟨ghosts, hrep⟩ := hw.2 p hg hp
  constructor
  · intro v hv
    have hmem : v ∈ ins[p].verts ++ ghosts := by rw [hrep.ghosts_eq, mem_extend]; exact hv
    refine ⟨_, findGID_eq hrep.core.v hmem, ?_⟩
    rw [owner_eq hrep.core.v hrep.owners hmem]
    unfold ownerOf
    split
    · rename_i hm; rw [hrep.rank, hd.verts p hp v hm]
    · rfl
  · intro t ht
    have htot : edgeTotal ins own t =
        (ins.map (fun i => (((i.types.map (fun e => e.pins.length)).getD t 0 : Nat) : Int))).sum := by
      unfold edgeTotal
      congr 1
      apply List.ext_getElem
      · simp
      · intro k h1 h2
        simp only [List.length_map, List.length_range] at h1
        simp only [List.getElem_map, List.getElem_range]
        have hi : ins[k]? = some ins[k] := List.getElem?_eq_getElem _
        have hT : ins[k].types.length = T := hu.types _ (List.getElem_mem h1)
        have hit : ins[k].types[t]? = some (ins[k].types[t]'(by omega)) := List.getElem?_eq_getElem _
        unfold contribution
        simp only [hi, hit, hu.hyper _ (List.getElem_mem h1)]
        simp [List.getD_eq_getElem?_getD, hit]
    obtain ⟨a, b⟩ := r1 t ht
    rw [a, b, htot]
    exact ⟨rfl, rfl⟩

/-! ## C15 -/

/-- **C15**: once the ghost owners are set (`gs1` is the result of the first step of `constructGhosts`),
creating a ghost tag with a callback gives, on every part and for every ghost of it, the value the callback
computes for that vertex on the part that owns it - for every delivery order of the two message phases.
The callback may be any function that succeeds on the local vertices. -/
theorem c15_ghost_tags {α : Type} (ins : List Input) (own : Gid → Nat) (hd : Dist ins own)
    (owns : List (GMap Part)) (ho : OwnMaps ins own owns) :
    ∃ gs gs1, buildAll ins = .ok gs ∧ (gs.zip owns).mapM (fun p => p.1.fillOwners p.2) = .ok gs1 ∧
      gs1.length = ins.length ∧
      ∀ (cb : Graph → Handle → Outcome α) (o1 o2 : Nat → List Nat),
        Orders ins.length o1 → Orders ins.length o2 →
        (∀ q (h : q < gs1.length) (h' : q < ins.length), ∀ v ∈ ins[q].verts, ∀ hv,
          gs1[q].findGID v = .ok hv → ∃ a, cb gs1[q] hv = .ok a) →
        ∃ tags, createGhostTag gs1 cb o1 o2 = .ok tags ∧ tags.length = ins.length ∧
          ∀ p (hp : p < ins.length) (hg : p < gs1.length) (ht : p < tags.length),
            ∀ v ∈ ins[p].allPins, v ∉ ins[p].verts → ∃ hv hv' a, ∃ hq : own v < gs1.length,
              gs1[p].findGID v = .ok hv ∧ gs1[own v].findGID v = .ok hv' ∧
              cb gs1[own v] hv' = .ok a ∧ gs1[p].getVtxTag tags[p] hv = .ok a := by
  obtain ⟨gs, e, hb⟩ := buildAll_spec ins hd.wf
  obtain ⟨gs1, e1, hw, -⟩ := fillOwnersAll_spec hb hd.wf ho
  have hl := hw.1
  refine ⟨gs, gs1, e, e1, hl, ?_⟩
  intro cb o1 o2 ho1 ho2 hcb
  by_cases hne : Nonempty α
  swap
  · -- no vertex exists at all
    have hno : ∀ q (h : q < ins.length), ins[q].verts = [] := by
      intro q hq
      by_contra hc
      obtain ⟨v, hv⟩ := List.exists_mem_of_ne_nil _ hc
      obtain ⟨gh, hgr⟩ := hw.2 q (by omega) hq
      obtain ⟨a, -⟩ := hcb q (by omega) hq v hv _ (findGID_eq hgr.core.v (by simp [hv]))
      exact hne ⟨a⟩
    obtain ⟨tags, et, htl, htr⟩ := createGhostTag_spec (α := Unit) hw hd (fun _ _ => .ok ()) (fun _ => ())
      (by intros; rfl) (by rw [hl]; exact ho1) (by rw [hl]; exact ho2)
    -- there are no pins either
    have hnp : ∀ p (h : p < ins.length), ∀ v, v ∉ ins[p].allPins := by
      intro p hp v hv
      obtain ⟨hq, hvq⟩ := hd.pins p hp v hv
      rw [hno _ hq] at hvq; simp at hvq
    have hg0 : ∀ p (h : p < gs1.length), ∃ gh, PartRep gs1[p] p ins.length (ins[p]'(by omega)) own gh ∧ gh = [] := by
      intro p hp
      obtain ⟨gh, hgr⟩ := hw.2 p hp (by omega)
      refine ⟨gh, hgr, ?_⟩
      by_contra hc
      obtain ⟨v, hv⟩ := List.exists_mem_of_ne_nil _ hc
      exact hnp p (by omega) v ((hgr.mem_ghosts v).mp hv).1
    refine ⟨List.replicate gs1.length [], ?_, by simp [hl], fun p hp hg ht v hv => absurd hv (hnp p hp v)⟩
    unfold createGhostTag
    have hreq : gs1.mapM Graph.ghostRequests = .ok (List.replicate gs1.length []) := by
      rw [mapM_ok (g := fun _ => [])]
      · simp
      · intro g hg
        obtain ⟨p, hp, rfl⟩ := List.mem_iff_getElem.mp hg
        obtain ⟨gh, hgr, rfl⟩ := hg0 p hp
        rw [ghostRequests_eq hgr]; rfl
    rw [hreq, Outcome.bind_ok, exchange_ok _ (by intro o ho m hm; rw [(List.mem_replicate.mp ho).2] at hm; simp at hm),
      Outcome.bind_ok]
    have hin : ∀ {M : Type} (o : Nat → List Nat), (List.range (List.replicate gs1.length ([] : List (Part × M))).length).map
        (fun q => inbox (List.replicate gs1.length ([] : List (Part × M))) (o q) q) =
        List.replicate gs1.length [] := by
      intro M o
      apply List.ext_getElem
      · simp
      · intro k h1 h2
        simp only [List.getElem_map, List.getElem_range, List.getElem_replicate]
        unfold inbox
        rw [List.flatMap_eq_nil_iff]
        intro p _
        rw [List.getD_eq_getElem?_getD, List.getElem?_replicate]
        split <;> rfl
    rw [hin]
    have hrep2 : (gs1.zip (List.replicate gs1.length [])).mapM (fun p => p.1.ghostReplies cb p.2) =
        .ok (List.replicate gs1.length []) := by
      rw [mapM_ok (g := fun _ => [])]
      · simp
      · intro x hx
        have := (List.of_mem_zip hx).2
        rw [(List.mem_replicate.mp this).2]; rfl
    rw [hrep2, Outcome.bind_ok, exchange_ok _ (by intro o ho m hm; rw [(List.mem_replicate.mp ho).2] at hm; simp at hm),
      Outcome.bind_ok, hin]
    rw [mapM_ok (g := fun _ => [])]
    · simp
    · intro x hx
      obtain ⟨hx1, hx2⟩ := List.of_mem_zip hx
      rw [(List.mem_replicate.mp hx2).2]
      obtain ⟨p, hp, e⟩ := List.mem_iff_getElem.mp hx1
      obtain ⟨gh, hgr, hgh⟩ := hg0 p hp
      have := hgr.core.v.ng
      rw [hgh, e] at this
      rw [this]; rfl
  · obtain ⟨a0⟩ := hne
    classical
    let val : Gid → α := fun v => if h : own v < gs1.length then
      match gs1[own v].findGID v with
      | .ok hv => match cb gs1[own v] hv with | .ok a => a | _ => a0
      | _ => a0
      else a0
    have hval : ∀ q (h : q < gs1.length) (h' : q < ins.length), ∀ v ∈ ins[q].verts, ∀ hv,
        gs1[q].findGID v = .ok hv → cb gs1[q] hv = .ok (val v) := by
      intro q h h' v hv hh hf
      have hq := hd.verts q h' v hv
      subst hq
      obtain ⟨a, ha⟩ := hcb _ h h' v hv hh hf
      simp only [val, h, dif_pos, hf, ha]
    obtain ⟨tags, et, htl, htr⟩ := createGhostTag_spec hw hd cb val hval
      (by rw [hl]; exact ho1) (by rw [hl]; exact ho2)
    refine ⟨tags, et, by omega, fun p hp hg ht v hv hnv => ?_⟩
    obtain ⟨gh, hgr, htag⟩ := htr p ht hg hp
    have hvg : v ∈ gh := (hgr.mem_ghosts v).mpr ⟨hv, hnv⟩
    obtain ⟨hq, hvq⟩ := hd.pins p hp v hv
    obtain ⟨gq, hgq⟩ := hw.2 (own v) (by omega) hq
    have e2 := findGID_eq hgq.core.v (show v ∈ ins[own v].verts ++ gq by simp [hvq])
    refine ⟨_, _, val v, by omega, findGID_eq hgr.core.v (by simp [hvg]), e2,
      hval (own v) (by omega) hq v hvq _ e2, ?_⟩
    have hlt := List.idxOf_lt_length_of_mem hvg
    rw [List.idxOf_append_of_notMem hnv]
    unfold Graph.getVtxTag
    rw [vidx_getVertex, Outcome.bind_ok, hgr.core.v.nl, if_pos (by omega), Nat.add_sub_cancel_left, htag,
      Mem.load_ofList (by simpa using hlt), List.getElem_map, List.getElem_idxOf]

/-- a non-trivial case: the sample world, tagging each vertex with its global id, for both delivery orders -/
example : Dist sampleWorld sampleOwn := sampleWorld_dist.dist

example : (do
    let gs ← buildAll sampleWorld
    let gs ← (gs.zip [fun v => some (sampleOwn v : Int), fun v => some (sampleOwn v : Int)]).mapM
      (fun p => p.1.fillOwners p.2)
    createGhostTag gs (fun g h => g.globalID h) (fun _ => [1, 0]) (fun _ => [0, 1]) : Outcome _) =
    .ok [[some 2], [some 1]] := by decide +kernel

end Verif.Agi
