import Verif.Part.ParmetisPart
import Verif.Agi.MigSpec
/-!
# C44: the graph handed to the partitioner
-/
namespace Verif.Part
open Verif.Agi

/-! ## specification -/

/-- the number of vertices of the parts before part `p` -/
def vertsBefore (ins : List Input) (p : Nat) : Nat := ((ins.take p).map (fun i => i.verts.length)).sum

/-- the number of a vertex: the vertices of the parts before its part come first, then those before it in its part -/
def pmNum (ins : List Input) (own : Gid → Nat) (v : Gid) : Nat :=
  vertsBefore ins (own v) + ((ins.map Input.verts).getD (own v) []).idxOf v

/-! ## the numbering -/

theorem mapM_congr' {α β : Type} {f f' : α → Outcome β} {l : List α} (h : ∀ x ∈ l, f x = f' x) : l.mapM f = l.mapM f' := by
  induction l with
  | nil => rfl
  | cons a l ih => rw [List.mapM_cons, List.mapM_cons, h a (by simp), ih (fun x hx => h x (by simp [hx]))]

theorem vertsBefore_succ {ins : List Input} {p : Nat} (hp : p < ins.length) :
    vertsBefore ins (p + 1) = vertsBefore ins p + ins[p].verts.length := by
  unfold vertsBefore
  rw [List.take_add_one, List.map_append, List.sum_append, List.getElem?_eq_getElem hp]
  simp

theorem pmNum_eq {ins : List Input} {own : Gid → Nat} (hd : Dist ins own) {p : Nat} (hp : p < ins.length) {v : Gid}
    (hv : v ∈ ins[p].verts) : pmNum ins own v = vertsBefore ins p + ins[p].verts.idxOf v := by
  unfold pmNum
  rw [hd.verts p hp v hv]
  simp [List.getD_eq_getElem?_getD, hp]

theorem map_pmNum {ins : List Input} {own : Gid → Nat} (hd : Dist ins own) {p : Nat} (hp : p < ins.length) :
    ins[p].verts.map (pmNum ins own) = (List.range ins[p].verts.length).map (fun u => vertsBefore ins p + u) := by
  have hnd := (hd.wf _ (List.getElem_mem hp)).nodup
  apply List.ext_getElem
  · simp
  · intro u h1 h2
    have hu : u < ins[p].verts.length := by simpa using h1
    simp only [List.getElem_map, List.getElem_range]
    rw [pmNum_eq hd hp (List.getElem_mem hu), hnd.idxOf_getElem]

/-- **C44**, the numbering: it numbers the vertices of all parts 0, 1, 2, …, part after part, without a gap or
a repetition, whatever the sizes of the parts. -/
theorem c44_numbering (ins : List Input) (own : Gid → Nat) (hd : Dist ins own) :
    (allVerts ins).map (pmNum ins own) = List.range (allVerts ins).length := by
  have key : ∀ n, n ≤ ins.length → ((ins.take n).map Input.verts).flatten.map (pmNum ins own) = List.range (vertsBefore ins n) := by
    intro n
    induction n with
    | zero => intro _; simp [vertsBefore]
    | succ n ih =>
      intro hn
      have hn' : n < ins.length := by omega
      rw [List.take_add_one, List.map_append, List.flatten_append, List.map_append, ih (by omega),
        List.getElem?_eq_getElem hn', vertsBefore_succ hn', List.range_add]
      simp only [Option.toList_some, List.map_cons, List.map_nil, List.flatten_cons, List.flatten_nil, List.append_nil]
      rw [map_pmNum hd hn']
  have := key ins.length (Nat.le_refl _)
  rw [List.take_length] at this
  unfold allVerts
  rw [this]
  unfold vertsBefore
  rw [List.take_length, List.length_flatten, List.map_map]
  rfl

theorem pmNum_inj {ins : List Input} {own : Gid → Nat} (hd : Dist ins own) {v w : Gid} (hv : v ∈ allVerts ins)
    (hw : w ∈ allVerts ins) (h : pmNum ins own v = pmNum ins own w) : v = w := by
  have hn := c44_numbering ins own hd
  have hnd : ((allVerts ins).map (pmNum ins own)).Nodup := by rw [hn]; exact List.nodup_range
  exact List.inj_on_of_nodup_map hnd hv hw h

/-! ## the rows of a part -/

section
variable {g : Graph} {verts ghosts : List Gid} {types : List EdgeInput}

theorem row_hyper (h : CRep g true verts ghosts types) {t : Nat} (ht : t < types.length) {own : Gid → Part} {slf : Part}
    (hown : ∀ v ∈ verts, own v = slf) (hgh : ∀ v ∈ ghosts, own v ≠ slf) {W : List Int}
    (hW : types[t].weights.map truncD = W) (hts : TruncSafe types[t].weights) (hWl : W.length = types[t].pins.length) (isLocal : Bool)
    (base : Int) (gm : GMap Int) (ord : Nat → List (Handle × Int) → List (Handle × Int)) (hord : ∀ i l, (ord i l).Perm l)
    {u : Nat} (hu : u < verts.length) (num : Gid → Int)
    (hinj : ∀ a ∈ verts ++ ghosts, ∀ b ∈ verts ++ ghosts, num a = num b → a = b)
    (hloc : ∀ l (hl : l < verts.length), num verts[l] = base + (l : Int))
    (hrem : isLocal = false → ∀ w ∈ ghosts, (∃ ps ∈ types[t].pins, verts[u] ∈ ps ∧ w ∈ ps) → gm w = some (num w)) :
    ((rowIn isLocal slf (fun k => own (gidOf (verts ++ ghosts) k)) (gidOf (verts ++ ghosts)) (wrOf g)
        (runOf g (verts ++ ghosts) t types[t].pins) base gm ord u).map Prod.fst).Nodup ∧
    ∀ x e, (x, e) ∈ rowIn isLocal slf (fun k => own (gidOf (verts ++ ghosts) k)) (gidOf (verts ++ ghosts)) (wrOf g)
        (runOf g (verts ++ ghosts) t types[t].pins) base gm ord u ↔
      ∃ w, (w ≠ verts[u] ∧ (∃ ps ∈ types[t].pins, verts[u] ∈ ps ∧ w ∈ ps) ∧ (isLocal = true → w ∈ verts)) ∧ x = num w ∧
        e = ((types[t].pins.zip W).map (fun e => (e.1.count verts[u] : Int) * (e.1.count w : Int) * e.2)).sum := by
  set run := runOf g (verts ++ ghosts) t types[t].pins with hrun
  set ow : Handle → Part := fun k => own (gidOf (verts ++ ghosts) k) with how
  -- the number written for a neighbour
  have hnum : ∀ k ∈ (others run (getVertex u)).map Prod.fst, keepNbr isLocal slf ow k = true →
      ∃ w, w ∈ verts ++ ghosts ∧ w ≠ verts[u] ∧ (∃ ps ∈ types[t].pins, verts[u] ∈ ps ∧ w ∈ ps) ∧ k = getVertex ((verts ++ ghosts).idxOf w) ∧
        (isLocal = true → w ∈ verts) ∧ numIn slf ow (gidOf (verts ++ ghosts)) base gm k = num w := by
    intro k hk hkeep
    obtain ⟨w, hne, ⟨ps, hps, h1, h2⟩, rfl⟩ := (mem_others h ht hu).mp hk
    obtain ⟨i, hi, rfl⟩ := List.mem_iff_getElem.mp hps
    have hwk := known_pin h ht hi h2
    refine ⟨w, hwk, hne, ⟨_, hps, h1, h2⟩, rfl, ?_, ?_⟩
    · intro hl
      unfold keepNbr at hkeep
      simp only [hl, Bool.not_true, Bool.false_or, decide_eq_true_eq, how, gidOf_idx hwk] at hkeep
      rcases List.mem_append.mp hwk with h3 | h3
      · exact h3
      · exact absurd hkeep (hgh w h3)
    · unfold numIn
      simp only [how, gidOf_idx hwk]
      by_cases hs : own w = slf
      · rw [if_pos hs]
        have hwv : w ∈ verts := by
          rcases List.mem_append.mp hwk with h3 | h3
          · exact h3
          · exact absurd hs (hgh w h3)
        have hlt := List.idxOf_lt_length_of_mem hwv
        have := hloc _ hlt
        rw [List.getElem_idxOf] at this
        rw [this, List.idxOf_append_of_mem hwv]
        simp [getVertex]
      · rw [if_neg hs]
        have hwg : w ∈ ghosts := by
          rcases List.mem_append.mp hwk with h3 | h3
          · exact absurd (hown w h3) hs
          · exact h3
        unfold keepNbr at hkeep
        have hl : isLocal = false := by
          simp only [how, gidOf_idx hwk, hs, decide_false, Bool.or_false, Bool.not_eq_true'] at hkeep
          exact hkeep
        rw [hrem hl w hwg ⟨_, hps, h1, h2⟩]; rfl
  have hentry : ∀ y : Handle × Int, y ∈ ((ord u ((dedupL ((others run (getVertex u)).map Prod.fst)).map
      (fun h => (h, nbrAcc (wrOf g) (others run (getVertex u)) h)))).filter (fun x => keepNbr isLocal slf ow x.1)) ↔
      (y.1 ∈ (others run (getVertex u)).map Prod.fst ∧ y.2 = nbrAcc (wrOf g) (others run (getVertex u)) y.1) ∧
        keepNbr isLocal slf ow y.1 = true := by
    intro y
    rw [List.mem_filter, (hord u _).mem_iff, List.mem_map]
    constructor
    · rintro ⟨⟨k, hk, rfl⟩, h2⟩
      exact ⟨⟨mem_dedupL.mp hk, rfl⟩, h2⟩
    · rintro ⟨⟨h1, h2⟩, h3⟩
      exact ⟨⟨y.1, mem_dedupL.mpr h1, by rw [← h2]⟩, h3⟩
  constructor
  · unfold rowIn
    rw [List.map_map]
    have hnd : ((ord u ((dedupL ((others run (getVertex u)).map Prod.fst)).map
      (fun h => (h, nbrAcc (wrOf g) (others run (getVertex u)) h)))).filter (fun x => keepNbr isLocal slf ow x.1)).Nodup := by
      apply List.Nodup.filter
      rw [(hord u _).nodup_iff]
      refine (nodup_dedupL _).map (fun a b hab => ?_)
      simp only [Prod.mk.injEq] at hab
      exact hab.1
    refine List.Nodup.map_on ?_ hnd
    intro a ha b hb hab
    obtain ⟨⟨ha1, ha2⟩, ha3⟩ := (hentry a).mp ha
    obtain ⟨⟨hb1, hb2⟩, hb3⟩ := (hentry b).mp hb
    obtain ⟨w, hw1, -, -, hw3, -, hw4⟩ := hnum _ ha1 ha3
    obtain ⟨z, hz1, -, -, hz3, -, hz4⟩ := hnum _ hb1 hb3
    simp only [Function.comp] at hab
    rw [hw4, hz4] at hab
    have hwz := hinj w hw1 z hz1 hab
    have h1 : a.1 = b.1 := by rw [hw3, hz3, hwz]
    exact Prod.ext h1 (by rw [ha2, hb2, h1])
  · intro x e
    unfold rowIn
    rw [List.mem_map]
    constructor
    · rintro ⟨y, hy, hxe⟩
      obtain ⟨⟨h1, h2⟩, h3⟩ := (hentry y).mp hy
      obtain ⟨w, hw1, hw2, hw2', hw3, hw4, hw5⟩ := hnum _ h1 h3
      simp only [Prod.mk.injEq] at hxe
      refine ⟨w, ⟨hw2, hw2', hw4⟩, ?_, ?_⟩
      · rw [← hxe.1, hw5]
      · rw [← hxe.2, h2, hw3]
        exact nbrAcc_eq h ht hts hW hWl hu hw1 hw2
    · rintro ⟨w, ⟨hw2, ⟨ps, hps, h1, h2⟩, hw4⟩, rfl, rfl⟩
      obtain ⟨i, hi, rfl⟩ := List.mem_iff_getElem.mp hps
      have hwk := known_pin h ht hi h2
      have hk : getVertex ((verts ++ ghosts).idxOf w) ∈ (others run (getVertex u)).map Prod.fst :=
        (mem_others h ht hu).mpr ⟨w, hw2, ⟨_, hps, h1, h2⟩, rfl⟩
      have hkeep : keepNbr isLocal slf ow (getVertex ((verts ++ ghosts).idxOf w)) = true := by
        unfold keepNbr
        simp only [how, gidOf_idx hwk]
        by_cases hl : isLocal = true
        · simp [hown w (hw4 hl)]
        · simp [show isLocal = false by simpa using hl]
      refine ⟨(getVertex ((verts ++ ghosts).idxOf w), nbrAcc (wrOf g) (others run (getVertex u)) (getVertex ((verts ++ ghosts).idxOf w))),
        (hentry _).mpr ⟨⟨hk, rfl⟩, hkeep⟩, ?_⟩
      obtain ⟨w', hw'1, -, -, hw'3, -, hw'5⟩ := hnum _ hk hkeep
      have : w = w' := by
        have h3 := gidOf_idx hwk
        rw [hw'3, gidOf_idx hw'1] at h3
        exact h3.symm
      subst this
      simp only [Prod.mk.injEq]
      exact ⟨hw'5, nbrAcc_eq h ht hts hW hWl hu hwk hw2⟩

end

/-! ## what arrives -/

theorem ghostGids_spec {F : Gid → Int} : ∀ (msgs : List (Nat × (Gid × Int))), (∀ m ∈ msgs, m.2.2 = F m.2.1) →
    ∀ (m0 : GMap Int), (∀ v x, m0 v = some x → x = F v) → ∀ w, (m0 w ≠ none ∨ ∃ m ∈ msgs, m.2.1 = w) →
      (msgs.foldl (fun m x => m.put x.2.1 x.2.2) m0) w = some (F w) := by
  intro msgs
  induction msgs with
  | nil =>
    rintro - m0 h0 w (h | ⟨m, hm, -⟩)
    · cases hx : m0 w with
      | none => exact absurd hx h
      | some x => rw [List.foldl_nil, hx, h0 w x hx]
    · simp at hm
  | cons m msgs ih =>
    intro hF m0 h0 w hw
    rw [List.foldl_cons]
    apply ih (fun x hx => hF x (by simp [hx]))
    · intro v x hx
      unfold GMap.put at hx
      split at hx
      · rename_i hv
        cases hx
        rw [hv]
        exact hF m (by simp)
      · exact h0 v x hx
    · rcases hw with hw | ⟨m', hm', hw⟩
      · left
        unfold GMap.put
        split <;> simp_all
      · rcases List.mem_cons.mp hm' with rfl | hm'
        · left
          unfold GMap.put
          rw [if_pos hw.symm]
          simp
        · right; exact ⟨m', hm', hw⟩

theorem mem_pmMsgs {nl : Nat} {pcu : Part} {ow : Handle → Part} {gid : Handle → Gid} {run : Handle → List (Handle × Handle)}
    {base : Int} {m : Part × (Gid × Int)} :
    m ∈ pmMsgs nl pcu false ow gid run base ↔ ∃ u, u < nl ∧ m.1 ≠ pcu ∧
      (∃ k ∈ (others run (getVertex u)).map Prod.fst, ow k = m.1) ∧ m.2 = (gid (getVertex u), base + (u : Int)) := by
  unfold pmMsgs
  rw [List.mem_flatMap]
  have hres : ∀ u q, q ∈ pmResOf false ow run (getVertex u) ↔ ∃ k ∈ (others run (getVertex u)).map Prod.fst, ow k = q := by
    intro u q
    unfold pmResOf
    rw [if_neg (by simp)]
    rw [(Peers.foldl_insert _ [] List.Pairwise.nil).2 q, List.mem_map]
    simp
  constructor
  · rintro ⟨u, hu, hm⟩
    obtain ⟨q, hq, rfl⟩ := List.mem_map.mp hm
    obtain ⟨h1, h2⟩ := List.mem_filter.mp hq
    exact ⟨u, List.mem_range.mp hu, by simpa using h2, (hres u q).mp h1, rfl⟩
  · rintro ⟨u, hu, h1, h2, h3⟩
    refine ⟨u, List.mem_range.mpr hu, List.mem_map.mpr ⟨m.1, List.mem_filter.mpr ⟨(hres u _).mpr h2, by simpa using h1⟩, ?_⟩⟩
    rw [← h3]

/-! ## all parts -/

section
variable {H : List (List HEdge)} {ins : List Input} {own : Gid → Nat}

theorem edges_pins {e : EdgeInput} {hyper : Bool} (hwf : e.WF hyper) : e.edges.map HEdge.pins = e.pins := by
  have h1 := hwf.ids_len
  have h2 := weights_length hwf
  apply List.ext_getElem
  · simp [EdgeInput.edges]; omega
  · intro k h3 h4
    simp [EdgeInput.edges]

/-- sharing a hyperedge, seen from a part -/
theorem sharing_part (hd : HDist H ins own) {p : Nat} (hp : p < ins.length) {t : Nat} (htp : t < ins[p].types.length)
    (ht : t < H.length) {v : Gid} (hv : v ∈ ins[p].verts) (w : Gid) :
    (w ≠ v ∧ ∃ ps ∈ ins[p].types[t].pins, v ∈ ps ∧ w ∈ ps) ↔ Sharing H[t] v w := by
  have hwf := (hd.wf _ (List.getElem_mem hp)).edges _ (List.getElem_mem htp)
  have hperm := hd.edges p hp t htp ht
  rw [← edges_pins hwf]
  unfold Sharing
  constructor
  · rintro ⟨hne, ps, hps, h1, h2⟩
    obtain ⟨e, he, rfl⟩ := List.mem_map.mp hps
    exact ⟨Ne.symm hne, e, (List.mem_filter.mp (hperm.mem_iff.mp he)).1, h1, h2⟩
  · rintro ⟨hne, e, he, h1, h2⟩
    refine ⟨Ne.symm hne, e.pins, List.mem_map.mpr ⟨e, hperm.mem_iff.mpr (List.mem_filter.mpr ⟨he, ?_⟩), rfl⟩, h1, h2⟩
    rw [decide_eq_true_iff]
    exact ⟨v, h1, hd.verts p hp v hv⟩

/-- the weight of a pair, seen from a part -/
theorem pairWeight_part (hd : HDist H ins own) {p : Nat} (hp : p < ins.length) {t : Nat} (htp : t < ins[p].types.length)
    (ht : t < H.length) (wt : HEdge → Int) {v : Gid} (hv : v ∈ ins[p].verts) (w : Gid) :
    ((ins[p].types[t].pins.zip (ins[p].types[t].edges.map wt)).map
      (fun e => (e.1.count v : Int) * (e.1.count w : Int) * e.2)).sum = pairWeight H[t] wt v w := by
  have hwf := (hd.wf _ (List.getElem_mem hp)).edges _ (List.getElem_mem htp)
  have hperm := hd.edges p hp t htp ht
  rw [(edges_zip htp hwf wt).1, List.map_map]
  have h1 := int_sum_perm (hperm.map (fun e : HEdge => (e.pins.count v : Int) * (e.pins.count w : Int) * wt e))
  have h2 : ((fun e : List Gid × Int => (e.1.count v : Int) * (e.1.count w : Int) * e.2) ∘ fun e : HEdge => (e.pins, wt e)) =
      (fun e : HEdge => (e.pins.count v : Int) * (e.pins.count w : Int) * wt e) := rfl
  rw [h2, h1]
  unfold pairWeight
  generalize H[t] = L
  induction L with
  | nil => rfl
  | cons e L ih =>
    by_cases he : ∃ v ∈ e.pins, own v = p
    · rw [List.filter_cons_of_pos (by simpa using he), List.map_cons, List.map_cons, List.sum_cons, List.sum_cons, ih]
    · rw [List.filter_cons_of_neg (by simpa using he), List.map_cons, List.sum_cons, ih]
      have : v ∉ e.pins := fun hc => he ⟨v, hc, hd.verts p hp v hv⟩
      rw [List.count_eq_zero_of_not_mem this]
      simp

theorem part_ghosts (hd : HDist H ins own) {g : Graph} {p n : Nat} (hp : p < ins.length) {ghosts : List Gid}
    (hr : PartRep g p n ins[p] own ghosts) {w : Gid} (hw : w ∈ ghosts) :
    own w ≠ p ∧ ∃ h : own w < ins.length, w ∈ ins[own w].verts := by
  obtain ⟨h1, h2⟩ := (hr.mem_ghosts w).mp hw
  obtain ⟨h3, h4⟩ := hd.dist.pins p hp w h1
  refine ⟨?_, h3, h4⟩
  rintro rfl
  exact h2 h4

theorem part_facts (hd : HDist H ins own) {g : Graph} {p n : Nat} (hp : p < ins.length) {ghosts : List Gid}
    (hr : PartRep g p n ins[p] own ghosts) {t : Nat} (ht : t < H.length) (htp : t < ins[p].types.length) :
    (ins[p].types[t].weights.map truncD = ins[p].types[t].edges.map (fun e => truncD e.w) ∧
      (ins[p].types[t].edges.map (fun e => truncD e.w)).length = ins[p].types[t].pins.length ∧
      ∀ w ∈ ins[p].types[t].weights, w ∈ H[t].map HEdge.w) ∧
    PmFacts g t (p : Int) (fun k => (own (gidOf (ins[p].verts ++ ghosts) k) : Int)) (gidOf (ins[p].verts ++ ghosts)) (wrOf g)
      (fun k => (vertWeights ins[p].verts ins[p].wgts).getD (k - 1) 1) (runOf g (ins[p].verts ++ ghosts) t ins[p].types[t].pins) := by
  have hh := hd.hyper _ (List.getElem_mem hp)
  have hc := hr.core
  rw [hh] at hc
  have hwf := (hd.wf _ (List.getElem_mem hp)).edges _ (List.getElem_mem htp)
  have hperm := hd.edges p hp t htp ht
  obtain ⟨-, hwz⟩ := edges_zip htp hwf (fun e => truncD e.w)
  have hlen : (ins[p].types[t].edges.map (fun e => truncD e.w)).length = ins[p].types[t].pins.length := by
    rw [← edges_pins hwf, List.length_map, List.length_map]
  refine ⟨⟨?_, hlen, ?_⟩, ?_⟩
  · rw [← hwz, List.map_map]; rfl
  · intro w hw
    rw [← hwz] at hw
    obtain ⟨e, he, rfl⟩ := List.mem_map.mp hw
    exact List.mem_map.mpr ⟨e, (List.mem_filter.mp (hperm.mem_iff.mp he)).1, rfl⟩
  refine pmFacts_hyper hc htp ?_ (own := fun v => (own v : Int)) hr.owners hr.rank ?_ ?_ hr.weights ?_ (weights_length hwf)
  · intro ps hps
    rw [← edges_pins hwf] at hps
    obtain ⟨e, he, rfl⟩ := List.mem_map.mp hps
    exact hd.nonempty _ (List.getElem_mem ht) e (List.mem_filter.mp (hperm.mem_iff.mp he)).1
  · intro v hv
    rw [hd.verts p hp v hv]
  · intro v hv hc
    exact (part_ghosts hd hp hr hv).1 (by exact_mod_cast hc)
  · exact vertWeights_length _ _

theorem verts_mem_all {p : Nat} (hp : p < ins.length) {v : Gid} (hv : v ∈ ins[p].verts) : v ∈ allVerts ins := by
  unfold allVerts
  exact List.mem_flatten.mpr ⟨_, List.mem_map.mpr ⟨_, List.getElem_mem hp, rfl⟩, hv⟩

theorem known_mem_all (hd : HDist H ins own) {g : Graph} {p n : Nat} (hp : p < ins.length) {ghosts : List Gid}
    (hr : PartRep g p n ins[p] own ghosts) {v : Gid} (hv : v ∈ ins[p].verts ++ ghosts) : v ∈ allVerts ins := by
  rcases List.mem_append.mp hv with h | h
  · exact verts_mem_all hp h
  · obtain ⟨-, h1, h2⟩ := part_ghosts hd hp hr h
    exact verts_mem_all h1 h2

theorem vwgts_eq {i : Input} : (List.range i.verts.length).map (fun u => truncD ((vertWeights i.verts i.wgts).getD (getVertex u - 1) 1)) =
    (vertWeights i.verts i.wgts).map truncD := by
  have hl := vertWeights_length i.verts i.wgts
  apply List.ext_getElem
  · simp [hl]
  · intro k h1 h2
    have hk : k < (vertWeights i.verts i.wgts).length := by simpa using h2
    simp [getVertex, hk]

end

/-- `parmetisAll` on parts that hold a distributed graph -/
theorem csr_world {H : List (List HEdge)} {ins : List Input} {own : Gid → Nat} (hd : HDist H ins own)
    {gs' : List Graph} (hw : World gs' ins own) (o3 : Nat → List Nat) (ho3 : Orders ins.length o3)
    (ord : Nat → Nat → List (Handle × Int) → List (Handle × Int)) (hord : ∀ p i l, (ord p i l).Perm l)
    (t : Nat) (ht : t < H.length) (hts : TruncSafe (H[t].map HEdge.w)) :
    ∃ As, parmetisAll gs' t o3 ord = .ok As ∧ As.length = ins.length ∧
      ∀ p (hp : p < ins.length) (hA : p < As.length),
        As[p].vtxdist = (List.range (ins.length + 1)).map (fun q => (vertsBefore ins q : Int)) ∧
        CsrOf As[p] ins[p].verts (Sharing H[t]) (fun v => (pmNum ins own v : Int)) (pairWeight H[t] (fun e => truncD e.w))
          (fun v => truncD (weightOf ins own v)) := by
  have hlen := hw.1
  have hgh : ∀ p, ∃ ghosts, ∀ (h : p < ins.length) (h' : p < gs'.length), PartRep gs'[p] p ins.length ins[p] own ghosts := by
    intro p
    by_cases hp : p < ins.length
    · obtain ⟨gg, hr⟩ := hw.2 p (by omega) hp
      exact ⟨gg, fun _ _ => hr⟩
    · exact ⟨[], fun h => absurd h hp⟩
  choose GH hGH using hgh
  have htp : ∀ p (hp : p < ins.length), t < ins[p].types.length := fun p hp => by rw [hd.types p hp]; exact ht
  have hf : ∀ p (hp : p < ins.length) (hg : p < gs'.length), _ := fun p hp hg =>
    part_facts hd hp (hGH p hp hg) ht (htp p hp)
  have hnl : ∀ p (hp : p < ins.length) (hg : p < gs'.length), gs'[p].numLocal = ins[p].verts.length := fun p hp hg =>
    (hGH p hp hg).core.v.nl
  -- the offsets
  set c := ins.map (fun i => i.verts.length) with hc
  have hcl : c.length = gs'.length := by rw [hc, List.length_map, hlen]
  obtain ⟨ds, ed1, ed2⟩ := sumDists_spec c
  have ed1' : gs'.zipIdx.mapM (fun x => vtxDist gs'.length x.2 x.1.numLocal) = .ok ds := by
    rw [← ed1, hcl]
    have : gs'.zipIdx = (List.range gs'.length).map (fun p => (gs'.getD p (emptyGraph 0 0), p)) := by
      conv_lhs => rw [list_range gs' (emptyGraph 0 0)]
      rw [zipIdx_range]
    rw [this, List.mapM_map]
    apply mapM_congr'
    intro p hp
    have hp' := List.mem_range.mp hp
    have hpi : p < ins.length := by omega
    simp only [Function.comp, List.getD_eq_getElem?_getD, List.getElem?_eq_getElem hp', Option.getD_some, hnl p hpi hp']
    rw [hc, List.getElem?_map, List.getElem?_eq_getElem hpi]
    rfl
  set dist := (List.range (c.length + 1)).map (fun i => (((c.take i).sum : Nat) : Int)) with hdist
  have hdist' : dist = (List.range (ins.length + 1)).map (fun q => (vertsBefore ins q : Int)) := by
    rw [hdist, hcl, hlen]
    apply List.map_congr_left
    intro q _
    unfold vertsBefore
    rw [hc, List.map_take]
  -- the first loop
  let GID : Nat → Handle → Gid := fun p => gidOf ((ins.map Input.verts).getD p [] ++ GH p)
  let RUN : Nat → Handle → List (Handle × Handle) := fun p => runOf (gs'.getD p (emptyGraph 0 0)) ((ins.map Input.verts).getD p [] ++ GH p) t
    ((ins.map (fun i : Input => (i.types.map EdgeInput.pins).getD t [])).getD p [])
  have hV : ∀ p (hp : p < ins.length), (ins.map Input.verts).getD p [] = ins[p].verts := by
    intro p hp; simp [List.getD_eq_getElem?_getD, hp]
  have hPin : ∀ p (hp : p < ins.length), (ins.map (fun i : Input => (i.types.map EdgeInput.pins).getD t [])).getD p [] = (ins[p].types[t]'(htp p hp)).pins := by
    intro p hp
    have := htp p hp
    simp [List.getD_eq_getElem?_getD, hp, this]
  have hG : ∀ p (hp : p < gs'.length), gs'.getD p (emptyGraph 0 0) = gs'[p] := by
    intro p hp; simp [List.getD_eq_getElem?_getD, hp]
  let F : Nat → PmFirst := fun p => ⟨Mem.ofList ((List.range ((ins.map Input.verts).getD p []).length).map (fun (u : Nat) => (vertsBefore ins p : Int) + (u : Int))),
    ((ins.map Input.verts).getD p []).length,
    ((List.range ((ins.map Input.verts).getD p []).length).map (fun u => (keptNbrs false (p : Int) (fun k => (own (GID p k) : Int)) (RUN p) (getVertex u)).length)).sum,
    pmMsgs ((ins.map Input.verts).getD p []).length (p : Int) false (fun k => (own (GID p k) : Int)) (GID p) (RUN p) (vertsBefore ins p)⟩
  have hfirst : ∀ p (hp : p < ins.length) (hg : p < gs'.length),
      pmFirst gs'[p] t (p : Int) (p : Int) false (vertsBefore ins p) = .ok (F p) := by
    intro p hp hg
    rw [pmFirst_spec (hf p hp hg).2, hnl p hp hg]
    simp only [F, GID, RUN, hV p hp, hPin p hp, hG p hg]
  have efs : gs'.zipIdx.mapM (fun x => do
      let base ← rd dist x.2
      pmFirst x.1 t (x.2 : Int) (x.2 : Int) false base) = .ok ((List.range gs'.length).map F) := by
    have : gs'.zipIdx = (List.range gs'.length).map (fun p => (gs'.getD p (emptyGraph 0 0), p)) := by
      conv_lhs => rw [list_range gs' (emptyGraph 0 0)]
      rw [zipIdx_range]
    rw [this]
    apply mapM_range
    intro p hp
    have hpi : p < ins.length := by omega
    have hrd : rd dist p = .ok (vertsBefore ins p : Int) := by
      apply Io.rd_some
      rw [hdist', List.getElem?_map, List.getElem?_range (by omega)]; rfl
    dsimp only
    rw [hrd, Outcome.bind_ok, hG p hp]
    exact hfirst p hpi hp
  -- the exchange
  have hmsg : ∀ p, p < ins.length → ∀ m ∈ (F p).msgs, ∃ v ∈ (ins.map Input.verts).getD p [], m.1 ≠ (p : Int) ∧ m.2 = (v, (pmNum ins own v : Int)) ∧
      ∃ w, Sharing H[t] v w ∧ m.1 = (own w : Int) := by
    intro p hp m hm
    have hg : p < gs'.length := by omega
    have hcr := (hGH p hp hg).core
    rw [hd.hyper _ (List.getElem_mem hp)] at hcr
    simp only [F, mem_pmMsgs] at hm
    obtain ⟨u, hu, h1, ⟨k, hk, hk'⟩, h3⟩ := hm
    rw [hV p hp] at hu ⊢
    simp only [RUN, GID, hV p hp, hPin p hp, hG p hg] at hk hk' h3
    obtain ⟨w, hw1, ⟨ps, hps, hw2, hw3⟩, rfl⟩ := (mem_others hcr (htp p hp) hu).mp hk
    obtain ⟨i, hi, rfl⟩ := List.mem_iff_getElem.mp hps
    have hwk := known_pin hcr (htp p hp) hi hw3
    refine ⟨ins[p].verts[u], List.getElem_mem hu, h1, ?_, w, ?_, ?_⟩
    · rw [h3, gidOf_vertex (by simp; omega), List.getElem_append_left hu, pmNum_eq hd.dist hp (List.getElem_mem hu),
        (hd.wf _ (List.getElem_mem hp)).nodup.idxOf_getElem]
      push_cast; rfl
    · exact (sharing_part hd hp (htp p hp) ht (List.getElem_mem hu) w).mp ⟨hw1, _, hps, hw2, hw3⟩
    · rw [← hk', gidOf_idx hwk]
  have hsend : ∀ p, p < ins.length → ∀ v ∈ (ins.map Input.verts).getD p [], ∀ w, Sharing H[t] v w → own w ≠ p →
      ((own w : Int), (v, (pmNum ins own v : Int))) ∈ (F p).msgs := by
    intro p hp v hv w hs hne
    have hg : p < gs'.length := by omega
    have hcr := (hGH p hp hg).core
    rw [hd.hyper _ (List.getElem_mem hp)] at hcr
    rw [hV p hp] at hv
    obtain ⟨hw1, ps, hps, hw2, hw3⟩ := (sharing_part hd hp (htp p hp) ht hv w).mpr hs
    have hlt := List.idxOf_lt_length_of_mem hv
    have hge : ins[p].verts[ins[p].verts.idxOf v] = v := List.getElem_idxOf hlt
    obtain ⟨i, hi, rfl⟩ := List.mem_iff_getElem.mp hps
    have hwk := known_pin hcr (htp p hp) hi hw3
    simp only [F, mem_pmMsgs]
    refine ⟨ins[p].verts.idxOf v, by rw [hV p hp]; exact hlt, ?_, ⟨getVertex ((ins[p].verts ++ GH p).idxOf w), ?_, ?_⟩, ?_⟩
    · intro hc; exact hne (by exact_mod_cast hc)
    · simp only [RUN, hV p hp, hPin p hp, hG p hg]
      exact (mem_others hcr (htp p hp) hlt).mpr ⟨w, by rw [hge]; exact hw1, ⟨_, hps, by rw [hge]; exact hw2, hw3⟩, rfl⟩
    · simp only [GID, hV p hp]; rw [gidOf_idx hwk]
    · simp only [GID, hV p hp]
      rw [gidOf_vertex (by simp; omega), List.getElem_append_left hlt, hge, pmNum_eq hd.dist hp hv]
      push_cast; rfl
  have hex : exchange (((List.range gs'.length).map F).map (fun f => f.msgs)) o3 =
      .ok ((List.range gs'.length).map (fun q => inbox ((List.range gs'.length).map (fun p => (F p).msgs)) (o3 q) q)) := by
    rw [List.map_map]
    apply exchange_range
    intro p hp m hm
    obtain ⟨v, -, -, -, w, hs, hm1⟩ := hmsg p (by omega) m hm
    rw [hm1]
    obtain ⟨h3, -⟩ := hd.pins _ (List.getElem_mem ht) _ hs.2.choose_spec.1 w hs.2.choose_spec.2.2
    constructor
    · exact Int.natCast_nonneg _
    · rw [hlen]; exact_mod_cast h3
  -- the second loop
  have hsecond : ∀ p (hp : p < ins.length) (hg : p < gs'.length), ∃ A,
      (do let s ← pmSecond gs'[p] t (p : Int) false (F p)
            (ghostGids (inbox ((List.range gs'.length).map (fun p => (F p).msgs)) (o3 p) p)) (ord p)
          pmInput dist s) = .ok A ∧ A.vtxdist = dist ∧
      CsrOf A ins[p].verts (Sharing H[t]) (fun v => (pmNum ins own v : Int)) (pairWeight H[t] (fun e => truncD e.w))
          (fun v => truncD (weightOf ins own v)) := by
    intro p hp hg
    obtain ⟨⟨hW, hWl, hsub⟩, hfp⟩ := hf p hp hg
    have hcr := (hGH p hp hg).core
    rw [hd.hyper _ (List.getElem_mem hp)] at hcr
    refine ⟨_, pmPart_spec hfp false (vertsBefore ins p) _ (ord p) (hord p) (F p) (p : Int) (hfirst p hp hg) dist, rfl, ?_⟩
    dsimp only
    rw [hnl p hp hg, vwgts_eq]
    have hvw : (vertWeights ins[p].verts ins[p].wgts).map truncD = ins[p].verts.map (fun v => truncD (weightOf ins own v)) := by
      apply List.ext_getElem
      · simp [vertWeights_length]
      · intro k h1 h2
        have hk : k < ins[p].verts.length := by simpa using h2
        simp only [List.getElem_map]
        unfold weightOf
        rw [hd.verts p hp _ (List.getElem_mem hk), List.getElem?_eq_getElem hp]
        dsimp only
        rw [(hd.wf _ (List.getElem_mem hp)).nodup.idxOf_getElem]
        simp [show k < (vertWeights ins[p].verts ins[p].wgts).length by rw [vertWeights_length]; exact hk]
    rw [hvw]
    refine csr_rows _ dist ?_
    intro u v huv
    obtain ⟨hu, rfl⟩ := List.getElem?_eq_some_iff.mp huv
    obtain ⟨r1, r2⟩ := row_hyper hcr (htp p hp) (own := fun v => (own v : Int)) (slf := (p : Int))
      (fun v hv => by rw [hd.verts p hp v hv])
      (fun v hv hc => (part_ghosts hd hp (hGH p hp hg) hv).1 (by exact_mod_cast hc)) hW (hts.of_subset hsub) hWl false (vertsBefore ins p)
      (ghostGids (inbox ((List.range gs'.length).map (fun p => (F p).msgs)) (o3 p) p)) (ord p) (hord p) hu
      (fun v => (pmNum ins own v : Int))
      (fun a ha b hb hab => pmNum_inj hd.dist (known_mem_all hd hp (hGH p hp hg) ha) (known_mem_all hd hp (hGH p hp hg) hb) (by exact_mod_cast hab))
      (fun l hl => by
        rw [pmNum_eq hd.dist hp (List.getElem_mem hl), (hd.wf _ (List.getElem_mem hp)).nodup.idxOf_getElem]
        push_cast; rfl)
      (by
        intro _ w hwg hsh
        obtain ⟨hne, hq, hwq⟩ := part_ghosts hd hp (hGH p hp hg) hwg
        refine ghostGids_spec (F := fun v => (pmNum ins own v : Int)) _ ?_ GMap.empty (by intro v x hx; cases hx) w (Or.inr ?_)
        · intro m hm
          obtain ⟨h1, h2⟩ := (mem_inbox_range (by rw [hlen]; exact ho3) (by omega)).mp hm
          obtain ⟨v, -, -, h3, -⟩ := hmsg m.1 (by omega) _ h2
          simp only at h3
          rw [h3]
        · have hv := List.getElem_mem hu
          have hwv : w ≠ ins[p].verts[u] := by
            rintro rfl
            exact (List.nodup_append.mp hcr.v.nodup).2.2 _ hv _ hwg rfl
          have hs := (sharing_part hd hp (htp p hp) ht hv w).mp ⟨hwv, hsh⟩
          have hs' : Sharing H[t] w ins[p].verts[u] := ⟨hwv, by
            obtain ⟨-, e, he, a, b⟩ := hs
            exact ⟨e, he, b, a⟩⟩
          have hop := hd.verts p hp _ hv
          have := hsend (own w) hq w (by rw [hV _ hq]; exact hwq) _ hs' (by rw [hop]; exact Ne.symm hne)
          rw [hop] at this
          exact ⟨(own w, (w, (pmNum ins own w : Int))), (mem_inbox_range (by rw [hlen]; exact ho3) (by omega)).mpr ⟨by rw [hlen]; exact hq, this⟩, rfl⟩)
    refine ⟨r1, fun x e => (r2 x e).trans ?_⟩
    constructor
    · rintro ⟨w, ⟨h1, h2, -⟩, h3, h4⟩
      exact ⟨w, (sharing_part hd hp (htp p hp) ht (List.getElem_mem hu) w).mp ⟨h1, h2⟩, h3,
        by rw [h4, pairWeight_part hd hp (htp p hp) ht (fun e => truncD e.w) (List.getElem_mem hu)]⟩
    · rintro ⟨w, h1, h3, h4⟩
      obtain ⟨h5, h6⟩ := (sharing_part hd hp (htp p hp) ht (List.getElem_mem hu) w).mpr h1
      exact ⟨w, ⟨h5, h6, by simp⟩, h3, by rw [h4, pairWeight_part hd hp (htp p hp) ht (fun e => truncD e.w) (List.getElem_mem hu)]⟩
  have hchoose : ∀ p, ∃ A : PmInput, ∀ (hp : p < ins.length) (hg : p < gs'.length),
      (do let s ← pmSecond gs'[p] t (p : Int) false (F p)
            (ghostGids (inbox ((List.range gs'.length).map (fun p => (F p).msgs)) (o3 p) p)) (ord p)
          pmInput dist s) = .ok A ∧ A.vtxdist = dist ∧
      CsrOf A ins[p].verts (Sharing H[t]) (fun v => (pmNum ins own v : Int)) (pairWeight H[t] (fun e => truncD e.w))
          (fun v => truncD (weightOf ins own v)) := by
    intro p
    by_cases hp : p < ins.length
    · obtain ⟨A, hA⟩ := hsecond p hp (by omega)
      exact ⟨A, fun _ _ => hA⟩
    · exact ⟨⟨[], [], [], [], []⟩, fun h => absurd h hp⟩
  choose A hA using hchoose
  refine ⟨(List.range gs'.length).map A, ?_, by simp [hlen], ?_⟩
  · unfold parmetisAll
    rw [ed1', Outcome.bind_ok, ← hcl, ed2, Outcome.bind_ok, efs, Outcome.bind_ok, hex, Outcome.bind_ok]
    rw [hcl]
    apply mapM_ok
    intro p hp
    have hp' := List.mem_range.mp hp
    rw [rd_ok hp', Outcome.bind_ok, Io.rd_some (x := F p) (by simp [hp']), Outcome.bind_ok,
      Io.rd_some (x := inbox ((List.range gs'.length).map (fun p => (F p).msgs)) (o3 p) p) (by simp [hp']), Outcome.bind_ok]
    exact (hA p (by omega) hp').1
  · intro p hp hpA
    simp only [List.getElem_map, List.getElem_range]
    obtain ⟨-, h2, h3⟩ := hA p hp (by omega)
    exact ⟨by rw [h2, hdist'], h3⟩

/-- **C44**: for every distribution over the parts of a hypergraph whose edge weights are integers or not negative (then each
is truncated), whatever the order in which
messages are delivered and maps are iterated, every part hands to the partitioner the offsets of the numbering
`pmNum` and, for each of its vertices `v`, exactly the vertices that share a hyperedge with `v`, each once, under the
number `pmNum` gives it (also when it belongs to another part) and with the weight of the connection; the vertex
weights are truncated to integers.  No array is read or written out of bounds, and none has a cell left unwritten.
`pmNum` numbers the vertices without gap or repetition: `c44_numbering`. -/
theorem c44_csr (H : List (List HEdge)) (ins : List Input) (own : Gid → Nat) (hd : HDist H ins own)
    (owns : List (GMap Part)) (ho : OwnMaps ins own owns) (o1 o2 o3 : Nat → List Nat) (ho1 : Orders ins.length o1)
    (ho2 : Orders ins.length o2) (ho3 : Orders ins.length o3)
    (ord : Nat → Nat → List (Handle × Int) → List (Handle × Int)) (hord : ∀ p i l, (ord p i l).Perm l)
    (t : Nat) (ht : t < H.length) (hts : TruncSafe (H[t].map HEdge.w)) :
    ∃ gs gs' As, buildAll ins = .ok gs ∧ constructGhosts gs owns o1 o2 = .ok gs' ∧
      parmetisAll gs' t o3 ord = .ok As ∧ As.length = ins.length ∧
      ∀ p (hp : p < ins.length) (hA : p < As.length),
        As[p].vtxdist = (List.range (ins.length + 1)).map (fun q => (vertsBefore ins q : Int)) ∧
        CsrOf As[p] ins[p].verts (Sharing H[t]) (fun v => (pmNum ins own v : Int)) (pairWeight H[t] (fun e => truncD e.w))
          (fun v => truncD (weightOf ins own v)) := by
  obtain ⟨gs, e1, hb⟩ := buildAll_spec ins hd.wf
  obtain ⟨gs', e2, hw, -⟩ := constructGhosts_spec hb hd.dist (hdist_uniform hd) ho ho1 ho2
  obtain ⟨As, e3, h⟩ := csr_world hd hw o3 ho3 ord hord t ht hts
  exact ⟨gs, gs', As, e1, e2, e3, h⟩

/-- `parmetisLocal` on a part of a distributed graph -/
theorem local_world {H : List (List HEdge)} {ins : List Input} {own : Gid → Nat} (hd : HDist H ins own)
    {gs' : List Graph} (hw : World gs' ins own) (o3 : Nat → List Nat) (ho3 : Orders 1 o3)
    (ord : Nat → List (Handle × Int) → List (Handle × Int)) (hord : ∀ i l, (ord i l).Perm l)
    (t : Nat) (ht : t < H.length) (hts : TruncSafe (H[t].map HEdge.w))
    (p : Nat) (hp : p < ins.length) (hg : p < gs'.length) : ∃ A, parmetisLocal gs'[p] (p : Int) t o3 ord = .ok A ∧
        A.vtxdist = [0, (ins[p].verts.length : Int)] ∧
        CsrOf A ins[p].verts (fun v w => Sharing H[t] v w ∧ w ∈ ins[p].verts) (fun v => (ins[p].verts.idxOf v : Int))
          (pairWeight H[t] (fun e => truncD e.w)) (fun v => truncD (weightOf ins own v)) := by
  obtain ⟨ghosts, hr⟩ := hw.2 p hg hp
  have htp : t < ins[p].types.length := by rw [hd.types p hp]; exact ht
  obtain ⟨⟨hW, hWl, hsub⟩, hf⟩ := part_facts hd hp hr ht htp
  have hcr := hr.core
  rw [hd.hyper _ (List.getElem_mem hp)] at hcr
  have hnl := hcr.v.nl
  have hnd := (hd.wf _ (List.getElem_mem hp)).nodup
  unfold parmetisLocal
  obtain ⟨ds, ed1, ed2⟩ := sumDists_spec [ins[p].verts.length]
  simp only [List.length_singleton, List.range_one, List.mapM_cons, List.mapM_nil] at ed1 ed2
  rw [hnl]
  cases hv1 : vtxDist 1 0 ins[p].verts.length with
  | fail => simp [hv1] at ed1
  | ub => simp [hv1] at ed1
  | ok d =>
    simp [hv1] at ed1
    subst ed1
    rw [Outcome.bind_ok, ed2, Outcome.bind_ok]
    have hdist : (List.range (1 + 1)).map (fun i => ((([ins[p].verts.length].take i).sum : Nat) : Int)) =
        [0, (ins[p].verts.length : Int)] := by simp [List.range_succ]
    rw [hdist]
    have hfirst := pmFirst_spec hf true 0 (0 : Int)
    rw [show rd [(0 : Int), (ins[p].verts.length : Int)] 0 = .ok 0 from rfl, Outcome.bind_ok, hfirst, Outcome.bind_ok]
    dsimp only
    have hmsg : pmMsgs gs'[p].numLocal 0 true (fun k => (own (gidOf (ins[p].verts ++ ghosts) k) : Int)) (gidOf (ins[p].verts ++ ghosts))
        (runOf gs'[p] (ins[p].verts ++ ghosts) t ins[p].types[t].pins) 0 = [] := by
      unfold pmMsgs
      rw [List.flatMap_eq_nil_iff]
      intro u _
      simp [pmResOf]
    rw [hmsg]
    have hex : exchange ([[]] : List (List (Part × (Gid × Int)))) o3 = .ok [inbox [[]] (o3 0) 0] := by
      unfold exchange
      rw [if_pos (by simp)]
      rfl
    rw [hex, Outcome.bind_ok, show rd [inbox ([[]] : List (List (Part × (Gid × Int)))) (o3 0) 0] 0 = .ok (inbox [[]] (o3 0) 0) from rfl,
      Outcome.bind_ok]
    refine ⟨_, pmPart_spec hf true 0 _ ord hord _ 0 (by rw [hfirst, hmsg]) _, rfl, ?_⟩
    dsimp only
    rw [hnl, vwgts_eq]
    have hvw : (vertWeights ins[p].verts ins[p].wgts).map truncD = ins[p].verts.map (fun v => truncD (weightOf ins own v)) := by
      apply List.ext_getElem
      · simp [vertWeights_length]
      · intro k h1 h2
        have hk : k < ins[p].verts.length := by simpa using h2
        simp only [List.getElem_map]
        unfold weightOf
        rw [hd.verts p hp _ (List.getElem_mem hk), List.getElem?_eq_getElem hp]
        dsimp only
        rw [hnd.idxOf_getElem]
        simp [show k < (vertWeights ins[p].verts ins[p].wgts).length by rw [vertWeights_length]; exact hk]
    rw [hvw]
    refine csr_rows _ _ ?_
    intro u v huv
    obtain ⟨hu, rfl⟩ := List.getElem?_eq_some_iff.mp huv
    obtain ⟨r1, r2⟩ := row_hyper hcr htp (own := fun v => (own v : Int)) (slf := (p : Int))
      (fun v hv => by rw [hd.verts p hp v hv])
      (fun v hv hc => (part_ghosts hd hp hr hv).1 (by exact_mod_cast hc)) hW (hts.of_subset hsub) hWl true 0 (ghostGids (inbox [[]] (o3 0) 0)) ord hord hu
      (fun v => ((ins[p].verts ++ ghosts).idxOf v : Int))
      (fun a ha b hb hab => by
        have : (ins[p].verts ++ ghosts).idxOf a = (ins[p].verts ++ ghosts).idxOf b := by exact_mod_cast hab
        have h1 := List.getElem_idxOf (List.idxOf_lt_length_of_mem ha)
        have h2 := List.getElem_idxOf (List.idxOf_lt_length_of_mem hb)
        simp only [this] at h1
        exact h1.symm.trans h2)
      (fun l hl => by
        rw [(idxOf_eq_iff hcr.v.nodup (by simp) hl).mpr rfl]; simp)
      (by intro h; cases h)
    refine ⟨r1, fun x e => (r2 x e).trans ?_⟩
    constructor
    · rintro ⟨w, ⟨h1, h2, h5⟩, h3, h4⟩
      refine ⟨w, ⟨(sharing_part hd hp htp ht (List.getElem_mem hu) w).mp ⟨h1, h2⟩, h5 rfl⟩, ?_,
        by rw [h4, pairWeight_part hd hp htp ht (fun e => truncD e.w) (List.getElem_mem hu)]⟩
      rw [h3, List.idxOf_append_of_mem (h5 rfl)]
    · rintro ⟨w, ⟨h1, h2⟩, h3, h4⟩
      obtain ⟨h5, h6⟩ := (sharing_part hd hp htp ht (List.getElem_mem hu) w).mpr h1
      refine ⟨w, ⟨h5, h6, fun _ => h2⟩, ?_, by rw [h4, pairWeight_part hd hp htp ht (fun e => truncD e.w) (List.getElem_mem hu)]⟩
      rw [h3, List.idxOf_append_of_mem h2]

/-- **C44**, a local split: on every part of such a distribution, `EnGPar_ParMETIS` on the communicator of the part alone
hands over the graph of the vertices of the part only: numbers 0, 1, … in the order of the part, and for each vertex
exactly the vertices *of the part* sharing a hyperedge with it. -/
theorem c44_local (H : List (List HEdge)) (ins : List Input) (own : Gid → Nat) (hd : HDist H ins own)
    (owns : List (GMap Part)) (ho : OwnMaps ins own owns) (o1 o2 : Nat → List Nat) (ho1 : Orders ins.length o1)
    (ho2 : Orders ins.length o2) (o3 : Nat → List Nat) (ho3 : Orders 1 o3)
    (ord : Nat → List (Handle × Int) → List (Handle × Int)) (hord : ∀ i l, (ord i l).Perm l)
    (t : Nat) (ht : t < H.length) (hts : TruncSafe (H[t].map HEdge.w)) :
    ∃ gs gs', buildAll ins = .ok gs ∧ constructGhosts gs owns o1 o2 = .ok gs' ∧ gs'.length = ins.length ∧
      ∀ p (hp : p < ins.length) (hg : p < gs'.length), ∃ A, parmetisLocal gs'[p] (p : Int) t o3 ord = .ok A ∧
        A.vtxdist = [0, (ins[p].verts.length : Int)] ∧
        CsrOf A ins[p].verts (fun v w => Sharing H[t] v w ∧ w ∈ ins[p].verts) (fun v => (ins[p].verts.idxOf v : Int))
          (pairWeight H[t] (fun e => truncD e.w)) (fun v => truncD (weightOf ins own v)) := by
  obtain ⟨gs, e1, hb⟩ := buildAll_spec ins hd.wf
  obtain ⟨gs', e2, hw, -⟩ := constructGhosts_spec hb hd.dist (hdist_uniform hd) ho ho1 ho2
  exact ⟨gs, gs', e1, e2, hw.1, fun p hp hg => local_world hd hw o3 ho3 ord hord t ht hts p hp hg⟩

/-! ## the plan -/

/-- the plan sends the vertex number `u` of the part to `dest[u]` -/
def PlanTo (g : Graph) (vs : List Gid) (plan : Plan) (dest : List Int) : Prop :=
  plan.sending = (List.range vs.length).map getVertex ∧
    ∀ u (_ : u < vs.length), g.planHas plan (getVertex u) = .ok true ∧ ∃ d, dest[u]? = some d ∧ g.planGet plan (getVertex u) = .ok d

theorem parmetisPlan_rep {g : Graph} {verts : List Gid} (hn : g.numLocal = verts.length) (hnd : verts.Nodup) (newPart : List Int)
    (hl : newPart.length = verts.length) (hnn : ∀ d ∈ newPart, 0 ≤ d) :
    ∃ plan f, parmetisPlan g newPart = .ok plan ∧ PlanRep verts plan verts f ∧ ∀ u (hu : u < verts.length), f verts[u] = newPart[u]? := by
  obtain ⟨p0, e0, hp0⟩ := newPlan_rep (g := g) hn
  unfold parmetisPlan
  rw [e0, Outcome.bind_ok, iterLoop_yields _ _ _ _ _ (yields_vertices g) (by
    rw [List.length_map, List.length_range]; unfold Graph.bound; omega)]
  rw [loopList_fold (f := fun (s : Plan × Nat) v => do
    let d ← rd newPart s.2
    let x ← g.planInsert s.1 v d
    return (x.1, s.2 + 1)) _ (by intro s x _; simp only [bind_assoc, Outcome.pure_eq, Outcome.bind_ok]), List.foldlM_map]
  obtain ⟨r, e, hr⟩ := rangeM_inv (fun (s : Plan × Nat) v => do
    let d ← rd newPart s.2
    let x ← g.planInsert s.1 (getVertex v) d
    return (x.1, s.2 + 1)) (fun k (s : Plan × Nat) => s.2 = k ∧ ∃ f, PlanRep verts s.1 (verts.take k) f ∧
      (∀ u (hu : u < verts.length), u < k → f verts[u] = newPart[u]?)) g.numLocal (by
      rintro k ⟨pl, i⟩ hk ⟨rfl, f, hf, hfu⟩
      have hk' : i < verts.length := by rw [hn] at hk; exact hk
      have hkn : i < newPart.length := by omega
      have hmem := List.getElem_mem hk'
      have hidx : verts.idxOf verts[i] = i := hnd.idxOf_getElem i hk'
      have hnot : verts[i] ∉ verts.take i := by
        intro hc
        obtain ⟨j, hj, hje⟩ := List.mem_take_iff_getElem.mp hc
        have := (hnd.getElem_inj_iff (hi := by omega) (hj := hk')).mp hje
        omega
      have hnone : f verts[i] = none := by
        by_contra hc
        exact hnot ((hf.mem _).mpr ⟨hmem, hc⟩)
      obtain ⟨pl', ei, hi⟩ := planInsert_rep (g := g) hf hn hnd hmem (d := newPart[i]) (by
        have := hnn _ (List.getElem_mem hkn); omega)
      rw [hidx] at ei
      refine ⟨(pl', i + 1), ?_, rfl, planPut f verts[i] newPart[i], ?_, ?_⟩
      · dsimp only
        rw [rd_ok hkn, Outcome.bind_ok, ei]; rfl
      · rw [if_pos hnone] at hi
        rw [List.take_add_one, List.getElem?_eq_getElem hk']
        exact hi
      · intro u hu huk
        unfold planPut
        by_cases hui : u = i
        · subst hui
          rw [if_pos rfl, List.getElem?_eq_getElem hkn]
        · rw [if_neg (by
            intro hc
            exact hui ((hnd.getElem_inj_iff (hi := hu) (hj := hk')).mp hc))]
          exact hfu u hu (by omega)) (p0, 0) ⟨rfl, _, by simpa using hp0, by omega⟩
  obtain ⟨-, f, hf, hfu⟩ := hr
  rw [e]
  refine ⟨r.1, f, rfl, ?_, fun u hu => hfu u hu (by omega)⟩
  rw [hn, List.take_length] at hf
  exact hf

theorem planTo_rep {g : Graph} {verts : List Gid} (hn : g.numLocal = verts.length) (hnd : verts.Nodup) {plan : Plan}
    {f : Gid → Option Part} (h : PlanRep verts plan verts f) {dest : List Int} (hl : dest.length = verts.length)
    (hf : ∀ u (hu : u < verts.length), f verts[u] = dest[u]?) : PlanTo g verts plan dest := by
  constructor
  · rw [h.sending]
    apply List.ext_getElem
    · simp
    · intro k h1 h2
      have hk : k < verts.length := by simpa using h1
      simp [hnd.idxOf_getElem k hk]
  · intro u hu
    have hidx : verts.idxOf verts[u] = u := hnd.idxOf_getElem u hu
    have h1 := planHas_eq (g := g) h hn (List.getElem_mem hu)
    have h2 := planGet_eq (g := g) h hn (List.getElem_mem hu)
    rw [hidx, hf u hu, List.getElem?_eq_getElem (by omega)] at h1 h2
    exact ⟨by simpa using h1, dest[u]'(by omega), List.getElem?_eq_getElem _, h2⟩

theorem localDest_rep {g : Graph} {verts : List Gid} (hn : g.numLocal = verts.length) (hnd : verts.Nodup) {newPart : List Int}
    (hl : newPart.length = verts.length) (hnn : ∀ d ∈ newPart, 0 ≤ d) {plan : Plan} {f : Gid → Option Part}
    (hp : PlanRep verts plan verts f) (hf : ∀ u (hu : u < verts.length), f verts[u] = newPart[u]?) (other : List Int)
    (ho1 : ∀ d ∈ newPart, d < other.length) (ho2 : ∀ r ∈ other, 0 ≤ r) :
    ∃ plan' f', localDest g other plan = .ok plan' ∧ PlanRep verts plan' verts f' ∧
      ∀ u (hu : u < verts.length), f' verts[u] = (newPart.map (fun d => other.getD d.toNat 0))[u]? := by
  have hsend := (planTo_rep hn hnd hp hl hf).1
  unfold localDest
  rw [hsend, List.foldlM_map]
  obtain ⟨r, er, f', hr', hfr⟩ := rangeM_inv (fun p v => do
      let d ← g.planGet p (getVertex v)
      if d < 0 then .ub
      else do
        let r ← rd other d.toNat
        let x ← g.planInsert p (getVertex v) r
        return x.1) (fun k (p : Plan) => ∃ f', PlanRep verts p verts f' ∧
      ∀ u (hu : u < verts.length), f' verts[u] = if u < k then (newPart[u]?).map (fun d => other.getD d.toNat 0) else newPart[u]?)
      verts.length (by
      rintro k p hk ⟨f', hp', hf'⟩
      have hkn : k < newPart.length := by omega
      have hidx : verts.idxOf verts[k] = k := hnd.idxOf_getElem k hk
      have hget := planGet_eq (g := g) hp' hn (List.getElem_mem hk)
      have hfk := hf' k hk
      rw [if_neg (by omega), List.getElem?_eq_getElem hkn] at hfk
      rw [hidx, hfk] at hget
      have hd1 := hnn _ (List.getElem_mem hkn)
      have hd2 := ho1 _ (List.getElem_mem hkn)
      have hlt : newPart[k].toNat < other.length := by omega
      obtain ⟨pl', ei, hi⟩ := planInsert_rep (g := g) hp' hn hnd (List.getElem_mem hk) (d := other[newPart[k].toNat]) (by
        have := ho2 _ (List.getElem_mem hlt); omega)
      rw [hidx] at ei
      refine ⟨pl', ?_, planPut f' verts[k] other[newPart[k].toNat], ?_, ?_⟩
      · rw [hget, Outcome.bind_ok, Option.getD_some, if_neg (by omega), rd_ok hlt, Outcome.bind_ok, ei]
        rfl
      · rw [if_neg (by rw [hfk]; simp)] at hi
        exact hi
      · intro u hu
        unfold planPut
        by_cases huk : u = k
        · subst huk
          rw [if_pos rfl, if_pos (by omega), List.getElem?_eq_getElem hkn]
          simp [hlt]
        · rw [if_neg (by
            intro hc
            exact huk ((hnd.getElem_inj_iff (hi := hu) (hj := hk)).mp hc)), hf' u hu]
          by_cases h1 : u < k
          · rw [if_pos h1, if_pos (by omega)]
          · rw [if_neg h1, if_neg (by omega)]) plan ⟨f, hp, fun u hu => by rw [if_neg (by omega)]; exact hf u hu⟩
  refine ⟨r, f', er, hr', ?_⟩
  intro u hu
  rw [hfr u hu, if_pos hu, List.getElem?_map]

/-- **C44**, the plan: whatever parts the partitioner chooses, the plan has every vertex of the part once, going to the
part chosen for its number; a local split sends it to the rank listed for that part. -/
theorem c44_plan (me : Part) (peers : Nat) (total : Int) (i : Input) (hwf : i.WF) (newPart : List Int)
    (hl : newPart.length = i.verts.length) (hnn : ∀ d ∈ newPart, 0 ≤ d) :
    ∃ g plan, build me peers total i = .ok g ∧ parmetisPlan g newPart = .ok plan ∧ PlanTo g i.verts plan newPart ∧
      ∀ otherRanks : List Int, (∀ d ∈ newPart, d < otherRanks.length) → (∀ r ∈ otherRanks, 0 ≤ r) →
        ∃ plan', localDest g otherRanks plan = .ok plan' ∧
          PlanTo g i.verts plan' (newPart.map (fun d => otherRanks.getD d.toNat 0)) := by
  obtain ⟨g, ghosts, e, hr⟩ := build_spec me peers total i hwf
  have hn := (hr.core hwf).v.nl
  have hnd := hwf.nodup
  obtain ⟨plan, f, e1, hp, hf⟩ := parmetisPlan_rep hn hnd newPart hl hnn
  refine ⟨g, plan, e, e1, planTo_rep hn hnd hp hl hf, ?_⟩
  intro other ho1 ho2
  obtain ⟨plan', f', e2, hp', hf'⟩ := localDest_rep hn hnd hl hnn hp hf other ho1 ho2
  exact ⟨plan', e2, planTo_rep hn hnd hp' (by simp [hl]) hf'⟩

/-! ## cases -/

/-- the arrays of all parts of a distributed graph: offsets, rows, neighbours, vertex weights, edge weights -/
def parmetisOf (ins : List Input) (own : Gid → Nat) (t : Nat) : Outcome (List (List (List Int))) := do
  let gs ← buildAll ins
  let gs ← constructGhosts gs (ins.map (fun _ => fun v => some (own v : Int))) (fun _ => List.range ins.length) (fun _ => List.range ins.length)
  let As ← parmetisAll gs t (fun _ => List.range ins.length) (fun _ _ l => l)
  return As.map (fun A => [A.vtxdist, A.xadj, A.adjncy, A.vwgts, A.ewgts])

/-- the hypotheses of `c44_csr` and `c44_local` are met by two parts with the vertices 1 and 2, 3 and the hyperedges
{1,2}, {1} and {2,3}: 1, 2, 3 get the numbers 0, 1, 2 -/
example : HDist sampleHG sampleWorld sampleOwn ∧ (∀ e ∈ sampleHG.getD 0 [], e.w = ((1 : Int) : Rat)) ∧
    parmetisOf sampleWorld sampleOwn 0 =
      .ok [[[0, 1, 3], [0, 1], [1], [3], [1]], [[0, 1, 3], [0, 2, 3], [2, 0, 1], [4, 5], [1, 1, 1]]] :=
  ⟨sampleWorld_dist, by decide +kernel, by decide +kernel⟩

/-- vertices 1 and 2 on two parts; the only edge goes from 1 to 2 -/
def oneWayWorld : List Input :=
  [{ hyper := false, verts := [1], wgts := [], types := [⟨[0], [[1, 2]], []⟩] },
   { hyper := false, verts := [2], wgts := [], types := [⟨[], [], []⟩] }]

/-- **C44** fails for a traditional graph with an edge whose reverse is missing: the owner of its end does not know that
part 0 needs the number of vertex 2, and part 0 hands over 0, the number of vertex 1, as the only neighbour of vertex 1,
instead of 1 -/
theorem c44_one_way : Dist oneWayWorld (fun v => if v = 1 then 0 else 1) ∧
    pmNum oneWayWorld (fun v => if v = 1 then 0 else 1) 2 = 1 ∧
    parmetisOf oneWayWorld (fun v => if v = 1 then 0 else 1) 0 =
      .ok [[[0, 1, 2], [0, 1], [0], [1], [1]], [[0, 1, 2], [0, 0], [], [1], []]] := by
  refine ⟨⟨?_, ?_, ?_⟩, by decide +kernel, by decide +kernel⟩
  · intro i hi
    simp only [oneWayWorld, List.mem_cons, List.not_mem_nil, or_false] at hi
    rcases hi with rfl | rfl
    all_goals
      refine ⟨by decide, by decide, ?_⟩
      intro e he
      simp only [List.mem_cons, List.not_mem_nil, or_false] at he
      subst he; exact ⟨by decide, by decide, by decide⟩
  · decide
  · decide

/-- three vertices, to be sent to the parts 1, 0, 1, which are the ranks 4 and 7 -/
example : ({ hyper := true, verts := [5, 6, 9], wgts := [], types := [⟨[3], [[5, 6]], []⟩] } : Input).WF ∧
    (do let g ← build 0 2 4 { hyper := true, verts := [5, 6, 9], wgts := [], types := [⟨[3], [[5, 6]], []⟩] }
        let p ← parmetisPlan g [1, 0, 1]
        let p ← localDest g [4, 7] p
        [1, 2, 3].mapM (g.planGet p) : Outcome (List Int)) = .ok [7, 4, 7] := by
  refine ⟨⟨by decide, by decide, ?_⟩, by decide +kernel⟩
  intro e he
  simp only [List.mem_cons, List.not_mem_nil, or_false] at he
  subst he; exact ⟨by decide, by decide, by decide⟩

end Verif.Part
