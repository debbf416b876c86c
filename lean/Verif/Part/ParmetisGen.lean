import Verif.Part.ParmetisProps
/-!
# Lemmas: the graph handed to the partitioner, from what the parts see of a symmetric neighbour relation
-/
namespace Verif.Part
open Verif.Agi

/-- the rows of a part, whatever the kind of graph: the neighbours of its vertices and the weights of the connections -/
structure PmRows (g : Graph) (verts ghosts : List Gid) (t : Nat) (own : Gid → Part) (slf : Part) (nbr : Gid → Gid → Prop)
    (ew : Gid → Gid → Int) (wt : Handle → Rat) (vw : Handle → Rat) (run : Handle → List (Handle × Handle)) : Prop where
  facts : PmFacts g t slf (fun k => own (gidOf (verts ++ ghosts) k)) (gidOf (verts ++ ghosts)) wt vw run
  nl : g.numLocal = verts.length
  mem : ∀ u (hu : u < verts.length) (k : Handle), k ∈ (others run (getVertex u)).map Prod.fst ↔
    ∃ w, w ∈ verts ++ ghosts ∧ nbr verts[u] w ∧ k = getVertex ((verts ++ ghosts).idxOf w)
  known : ∀ u (hu : u < verts.length) w, nbr verts[u] w → w ∈ verts ++ ghosts
  ne : ∀ v w, nbr v w → w ≠ v
  sum : ∀ u (hu : u < verts.length) w, nbr verts[u] w →
    nbrAcc wt (others run (getVertex u)) (getVertex ((verts ++ ghosts).idxOf w)) = ew verts[u] w

section
variable {g : Graph} {verts ghosts : List Gid} {t : Nat} {own : Gid → Part} {slf : Part} {nbr : Gid → Gid → Prop}
  {ew : Gid → Gid → Int} {wt : Handle → Rat} {vw : Handle → Rat} {run : Handle → List (Handle × Handle)}

theorem row_gen (h : PmRows g verts ghosts t own slf nbr ew wt vw run)
    (hown : ∀ v ∈ verts, own v = slf) (hgh : ∀ v ∈ ghosts, own v ≠ slf) (isLocal : Bool)
    (base : Int) (gm : GMap Int) (ord : Nat → List (Handle × Int) → List (Handle × Int)) (hord : ∀ i l, (ord i l).Perm l)
    {u : Nat} (hu : u < verts.length) (num : Gid → Int)
    (hinj : ∀ a ∈ verts ++ ghosts, ∀ b ∈ verts ++ ghosts, num a = num b → a = b)
    (hloc : ∀ l (hl : l < verts.length), num verts[l] = base + (l : Int))
    (hrem : isLocal = false → ∀ w ∈ ghosts, nbr verts[u] w → gm w = some (num w)) :
    ((rowIn isLocal slf (fun k => own (gidOf (verts ++ ghosts) k)) (gidOf (verts ++ ghosts)) wt run base gm ord u).map Prod.fst).Nodup ∧
    ∀ x e, (x, e) ∈ rowIn isLocal slf (fun k => own (gidOf (verts ++ ghosts) k)) (gidOf (verts ++ ghosts)) wt run base gm ord u ↔
      ∃ w, (nbr verts[u] w ∧ (isLocal = true → w ∈ verts)) ∧ x = num w ∧ e = ew verts[u] w := by
  set ow : Handle → Part := fun k => own (gidOf (verts ++ ghosts) k) with how
  -- the number written for a neighbour
  have hnum : ∀ k ∈ (others run (getVertex u)).map Prod.fst, keepNbr isLocal slf ow k = true →
      ∃ w, w ∈ verts ++ ghosts ∧ nbr verts[u] w ∧ k = getVertex ((verts ++ ghosts).idxOf w) ∧
        (isLocal = true → w ∈ verts) ∧ numIn slf ow (gidOf (verts ++ ghosts)) base gm k = num w := by
    intro k hk hkeep
    obtain ⟨w, hwk, hn, rfl⟩ := (h.mem u hu k).mp hk
    refine ⟨w, hwk, hn, rfl, ?_, ?_⟩
    · intro hl
      unfold keepNbr at hkeep
      simp only [hl, Bool.not_true, Bool.false_or, decide_eq_true_eq, how, gidOf_idx hwk] at hkeep
      rcases List.mem_append.mp hwk with h3 | h3
      · exact h3
      · exact absurd hkeep (hgh w h3)
    · unfold numIn
      simp only [how, gidOf_idx hwk]
      by_cases hs : own w = slf
      · rw [if_pos hs]
        have hwv : w ∈ verts := by
          rcases List.mem_append.mp hwk with h3 | h3
          · exact h3
          · exact absurd hs (hgh w h3)
        have hlt := List.idxOf_lt_length_of_mem hwv
        have := hloc _ hlt
        rw [List.getElem_idxOf] at this
        rw [this, List.idxOf_append_of_mem hwv]
        simp [getVertex]
      · rw [if_neg hs]
        have hwg : w ∈ ghosts := by
          rcases List.mem_append.mp hwk with h3 | h3
          · exact absurd (hown w h3) hs
          · exact h3
        unfold keepNbr at hkeep
        have hl : isLocal = false := by
          simp only [how, gidOf_idx hwk, hs, decide_false, Bool.or_false, Bool.not_eq_true'] at hkeep
          exact hkeep
        rw [hrem hl w hwg hn]; rfl
  have hentry : ∀ y : Handle × Int, y ∈ ((ord u ((dedupL ((others run (getVertex u)).map Prod.fst)).map
      (fun h => (h, nbrAcc wt (others run (getVertex u)) h)))).filter (fun x => keepNbr isLocal slf ow x.1)) ↔
      (y.1 ∈ (others run (getVertex u)).map Prod.fst ∧ y.2 = nbrAcc wt (others run (getVertex u)) y.1) ∧
        keepNbr isLocal slf ow y.1 = true := by
    intro y
    rw [List.mem_filter, (hord u _).mem_iff, List.mem_map]
    constructor
    · rintro ⟨⟨k, hk, rfl⟩, h2⟩
      exact ⟨⟨mem_dedupL.mp hk, rfl⟩, h2⟩
    · rintro ⟨⟨h1, h2⟩, h3⟩
      exact ⟨⟨y.1, mem_dedupL.mpr h1, by rw [← h2]⟩, h3⟩
  constructor
  · unfold rowIn
    rw [List.map_map]
    have hnd : ((ord u ((dedupL ((others run (getVertex u)).map Prod.fst)).map
      (fun h => (h, nbrAcc wt (others run (getVertex u)) h)))).filter (fun x => keepNbr isLocal slf ow x.1)).Nodup := by
      apply List.Nodup.filter
      rw [(hord u _).nodup_iff]
      refine (nodup_dedupL _).map (fun a b hab => ?_)
      simp only [Prod.mk.injEq] at hab
      exact hab.1
    refine List.Nodup.map_on ?_ hnd
    intro a ha b hb hab
    obtain ⟨⟨ha1, ha2⟩, ha3⟩ := (hentry a).mp ha
    obtain ⟨⟨hb1, hb2⟩, hb3⟩ := (hentry b).mp hb
    obtain ⟨w, hw1, -, hw3, -, hw4⟩ := hnum _ ha1 ha3
    obtain ⟨z, hz1, -, hz3, -, hz4⟩ := hnum _ hb1 hb3
    simp only [Function.comp] at hab
    rw [hw4, hz4] at hab
    have hwz := hinj w hw1 z hz1 hab
    have h1 : a.1 = b.1 := by rw [hw3, hz3, hwz]
    exact Prod.ext h1 (by rw [ha2, hb2, h1])
  · intro x e
    unfold rowIn
    rw [List.mem_map]
    constructor
    · rintro ⟨y, hy, hxe⟩
      obtain ⟨⟨h1, h2⟩, h3⟩ := (hentry y).mp hy
      obtain ⟨w, hw1, hw2, hw3, hw4, hw5⟩ := hnum _ h1 h3
      simp only [Prod.mk.injEq] at hxe
      refine ⟨w, ⟨hw2, hw4⟩, ?_, ?_⟩
      · rw [← hxe.1, hw5]
      · rw [← hxe.2, h2, hw3]
        exact h.sum u hu w hw2
    · rintro ⟨w, ⟨hn, hw4⟩, rfl, rfl⟩
      have hwk := h.known u hu w hn
      have hk : getVertex ((verts ++ ghosts).idxOf w) ∈ (others run (getVertex u)).map Prod.fst :=
        (h.mem u hu _).mpr ⟨w, hwk, hn, rfl⟩
      have hkeep : keepNbr isLocal slf ow (getVertex ((verts ++ ghosts).idxOf w)) = true := by
        unfold keepNbr
        simp only [how, gidOf_idx hwk]
        by_cases hl : isLocal = true
        · simp [hown w (hw4 hl)]
        · simp [show isLocal = false by simpa using hl]
      refine ⟨(getVertex ((verts ++ ghosts).idxOf w), nbrAcc wt (others run (getVertex u)) (getVertex ((verts ++ ghosts).idxOf w))),
        (hentry _).mpr ⟨⟨hk, rfl⟩, hkeep⟩, ?_⟩
      obtain ⟨w', hw'1, -, hw'3, -, hw'5⟩ := hnum _ hk hkeep
      have : w = w' := by
        have h3 := gidOf_idx hwk
        rw [hw'3, gidOf_idx hw'1] at h3
        exact h3.symm
      subst this
      simp only [Prod.mk.injEq]
      exact ⟨hw'5, h.sum u hu w hn⟩

end

theorem ghosts_owner {ins : List Input} {own : Gid → Nat} (hd : Dist ins own) {g : Graph} {p n : Nat} (hp : p < ins.length)
    {ghosts : List Gid} (hr : PartRep g p n ins[p] own ghosts) {w : Gid} (hw : w ∈ ghosts) :
    own w ≠ p ∧ ∃ h : own w < ins.length, w ∈ ins[own w].verts := by
  obtain ⟨h1, h2⟩ := (hr.mem_ghosts w).mp hw
  obtain ⟨h3, h4⟩ := hd.pins p hp w h1
  refine ⟨?_, h3, h4⟩
  rintro rfl
  exact h2 h4

theorem known_all {ins : List Input} {own : Gid → Nat} (hd : Dist ins own) {g : Graph} {p n : Nat} (hp : p < ins.length)
    {ghosts : List Gid} (hr : PartRep g p n ins[p] own ghosts) {v : Gid} (hv : v ∈ ins[p].verts ++ ghosts) : v ∈ allVerts ins := by
  rcases List.mem_append.mp hv with h | h
  · exact verts_mem_all hp h
  · obtain ⟨-, h1, h2⟩ := ghosts_owner hd hp hr h
    exact verts_mem_all h1 h2

theorem vwgts_of {ins : List Input} {own : Gid → Nat} (hd : Dist ins own) {p : Nat} (hp : p < ins.length) :
    (List.range ins[p].verts.length).map (fun u => truncD ((vertWeights ins[p].verts ins[p].wgts).getD (getVertex u - 1) 1)) =
      ins[p].verts.map (fun v => truncD (weightOf ins own v)) := by
  rw [vwgts_eq]
  apply List.ext_getElem
  · simp [vertWeights_length]
  · intro k h1 h2
    have hk : k < ins[p].verts.length := by simpa using h2
    simp only [List.getElem_map]
    unfold weightOf
    rw [hd.verts p hp _ (List.getElem_mem hk), List.getElem?_eq_getElem hp]
    dsimp only
    rw [(hd.wf _ (List.getElem_mem hp)).nodup.idxOf_getElem]
    simp [show k < (vertWeights ins[p].verts ins[p].wgts).length by rw [vertWeights_length]; exact hk]

/-- the parts of a distribution, each with its rows -/
def PmWorld (gs : List Graph) (ins : List Input) (own : Gid → Nat) (t : Nat) (nbr : Gid → Gid → Prop) (ew : Gid → Gid → Int) : Prop :=
  gs.length = ins.length ∧ ∀ p (hp : p < ins.length) (hg : p < gs.length), ∃ ghosts wt run,
    PartRep gs[p] p ins.length ins[p] own ghosts ∧
    PmRows gs[p] ins[p].verts ghosts t (fun v => (own v : Int)) (p : Int) nbr ew wt
      (fun k => (vertWeights ins[p].verts ins[p].wgts).getD (k - 1) 1) run

/-- `parmetisAll` on such parts, if the neighbour relation is symmetric -/
theorem csr_gen {ins : List Input} {own : Gid → Nat} (hd : Dist ins own) {gs' : List Graph} {t : Nat} {nbr : Gid → Gid → Prop}
    {ew : Gid → Gid → Int} (hw : PmWorld gs' ins own t nbr ew) (hsym : ∀ v w, nbr v w → nbr w v)
    (o3 : Nat → List Nat) (ho3 : Orders ins.length o3)
    (ord : Nat → Nat → List (Handle × Int) → List (Handle × Int)) (hord : ∀ p i l, (ord p i l).Perm l) :
    ∃ As, parmetisAll gs' t o3 ord = .ok As ∧ As.length = ins.length ∧
      ∀ p (hp : p < ins.length) (hA : p < As.length),
        As[p].vtxdist = (List.range (ins.length + 1)).map (fun q => (vertsBefore ins q : Int)) ∧
        CsrOf As[p] ins[p].verts nbr (fun v => (pmNum ins own v : Int)) ew (fun v => truncD (weightOf ins own v)) := by
  obtain ⟨hlen, hw⟩ := hw
  have hgh : ∀ p, ∃ (ghosts : List Gid) (wt : Handle → Rat) (run : Handle → List (Handle × Handle)), ∀ (h : p < ins.length) (h' : p < gs'.length),
      PartRep gs'[p] p ins.length ins[p] own ghosts ∧
      PmRows gs'[p] ins[p].verts ghosts t (fun v => (own v : Int)) (p : Int) nbr ew wt
        (fun k => (vertWeights ins[p].verts ins[p].wgts).getD (k - 1) 1) run := by
    intro p
    by_cases hp : p < ins.length
    · obtain ⟨gg, wt, run, hr⟩ := hw p hp (by omega)
      exact ⟨gg, wt, run, fun _ _ => hr⟩
    · exact ⟨[], fun _ => 0, fun _ => [], fun h => absurd h hp⟩
  choose GH WT RUN hGR using hgh
  have hGH := fun p hp hg => (hGR p hp hg).1
  have hf := fun p hp hg => (hGR p hp hg).2
  have hnl : ∀ p (hp : p < ins.length) (hg : p < gs'.length), gs'[p].numLocal = ins[p].verts.length := fun p hp hg => (hf p hp hg).nl
  have hnodup : ∀ p (hp : p < ins.length), ins[p].verts.Nodup := fun p hp => (hd.wf _ (List.getElem_mem hp)).nodup
  -- the offsets
  set c := ins.map (fun i => i.verts.length) with hc
  have hcl : c.length = gs'.length := by rw [hc, List.length_map, hlen]
  obtain ⟨ds, ed1, ed2⟩ := sumDists_spec c
  have ed1' : gs'.zipIdx.mapM (fun x => vtxDist gs'.length x.2 x.1.numLocal) = .ok ds := by
    rw [← ed1, hcl]
    have : gs'.zipIdx = (List.range gs'.length).map (fun p => (gs'.getD p (emptyGraph 0 0), p)) := by
      conv_lhs => rw [list_range gs' (emptyGraph 0 0)]
      rw [zipIdx_range]
    rw [this, List.mapM_map]
    apply mapM_congr'
    intro p hp
    have hp' := List.mem_range.mp hp
    have hpi : p < ins.length := by omega
    simp only [Function.comp, List.getD_eq_getElem?_getD, List.getElem?_eq_getElem hp', Option.getD_some, hnl p hpi hp']
    rw [hc, List.getElem?_map, List.getElem?_eq_getElem hpi]
    rfl
  set dist := (List.range (c.length + 1)).map (fun i => (((c.take i).sum : Nat) : Int)) with hdist
  have hdist' : dist = (List.range (ins.length + 1)).map (fun q => (vertsBefore ins q : Int)) := by
    rw [hdist, hcl, hlen]
    apply List.map_congr_left
    intro q _
    unfold vertsBefore
    rw [hc, List.map_take]
  -- the first loop
  let GID : Nat → Handle → Gid := fun p => gidOf ((ins.map Input.verts).getD p [] ++ GH p)
  have hV : ∀ p (hp : p < ins.length), (ins.map Input.verts).getD p [] = ins[p].verts := by
    intro p hp; simp [List.getD_eq_getElem?_getD, hp]
  have hG : ∀ p (hp : p < gs'.length), gs'.getD p (emptyGraph 0 0) = gs'[p] := by
    intro p hp; simp [List.getD_eq_getElem?_getD, hp]
  let F : Nat → PmFirst := fun p => ⟨Mem.ofList ((List.range ((ins.map Input.verts).getD p []).length).map (fun (u : Nat) => (vertsBefore ins p : Int) + (u : Int))),
    ((ins.map Input.verts).getD p []).length,
    ((List.range ((ins.map Input.verts).getD p []).length).map (fun u => (keptNbrs false (p : Int) (fun k => (own (GID p k) : Int)) (RUN p) (getVertex u)).length)).sum,
    pmMsgs ((ins.map Input.verts).getD p []).length (p : Int) false (fun k => (own (GID p k) : Int)) (GID p) (RUN p) (vertsBefore ins p)⟩
  have hfirst : ∀ p (hp : p < ins.length) (hg : p < gs'.length),
      pmFirst gs'[p] t (p : Int) (p : Int) false (vertsBefore ins p) = .ok (F p) := by
    intro p hp hg
    rw [pmFirst_spec (hf p hp hg).facts, hnl p hp hg]
    simp only [F, GID, hV p hp]
  have efs : gs'.zipIdx.mapM (fun x => do
      let base ← rd dist x.2
      pmFirst x.1 t (x.2 : Int) (x.2 : Int) false base) = .ok ((List.range gs'.length).map F) := by
    have : gs'.zipIdx = (List.range gs'.length).map (fun p => (gs'.getD p (emptyGraph 0 0), p)) := by
      conv_lhs => rw [list_range gs' (emptyGraph 0 0)]
      rw [zipIdx_range]
    rw [this]
    apply mapM_range
    intro p hp
    have hpi : p < ins.length := by omega
    have hrd : rd dist p = .ok (vertsBefore ins p : Int) := by
      apply Io.rd_some
      rw [hdist', List.getElem?_map, List.getElem?_range (by omega)]; rfl
    dsimp only
    rw [hrd, Outcome.bind_ok, hG p hp]
    exact hfirst p hpi hp
  -- the exchange
  have hmsg : ∀ p, p < ins.length → ∀ m ∈ (F p).msgs, ∃ v ∈ (ins.map Input.verts).getD p [], m.1 ≠ (p : Int) ∧ m.2 = (v, (pmNum ins own v : Int)) ∧
      ∃ w, nbr v w ∧ m.1 = (own w : Int) ∧ own w < ins.length := by
    intro p hp m hm
    have hg : p < gs'.length := by omega
    simp only [F, mem_pmMsgs] at hm
    obtain ⟨u, hu, h1, ⟨k, hk, hk'⟩, h3⟩ := hm
    rw [hV p hp] at hu ⊢
    simp only [GID, hV p hp] at hk' h3
    obtain ⟨w, hwk, hn, rfl⟩ := ((hf p hp hg).mem u hu k).mp hk
    refine ⟨ins[p].verts[u], List.getElem_mem hu, h1, ?_, w, hn, ?_, ?_⟩
    · rw [h3, gidOf_vertex (by simp; omega), List.getElem_append_left hu, pmNum_eq hd hp (List.getElem_mem hu),
        (hnodup p hp).idxOf_getElem]
      push_cast; rfl
    · rw [← hk', gidOf_idx hwk]
    · rcases List.mem_append.mp hwk with h4 | h4
      · rw [hd.verts p hp w h4]; exact hp
      · exact (ghosts_owner hd hp (hGH p hp hg) h4).2.1
  have hsend : ∀ p, p < ins.length → ∀ v ∈ (ins.map Input.verts).getD p [], ∀ w, nbr v w → own w ≠ p →
      ((own w : Int), (v, (pmNum ins own v : Int))) ∈ (F p).msgs := by
    intro p hp v hv w hs hne
    have hg : p < gs'.length := by omega
    rw [hV p hp] at hv
    have hlt := List.idxOf_lt_length_of_mem hv
    have hge : ins[p].verts[ins[p].verts.idxOf v] = v := List.getElem_idxOf hlt
    have hwk := (hf p hp hg).known _ hlt w (by rw [hge]; exact hs)
    simp only [F, mem_pmMsgs]
    refine ⟨ins[p].verts.idxOf v, by rw [hV p hp]; exact hlt, ?_, ⟨getVertex ((ins[p].verts ++ GH p).idxOf w), ?_, ?_⟩, ?_⟩
    · intro hc; exact hne (by exact_mod_cast hc)
    · exact ((hf p hp hg).mem _ hlt _).mpr ⟨w, hwk, by rw [hge]; exact hs, rfl⟩
    · simp only [GID, hV p hp]; rw [gidOf_idx hwk]
    · simp only [GID, hV p hp]
      rw [gidOf_vertex (by simp; omega), List.getElem_append_left hlt, hge, pmNum_eq hd hp hv]
      push_cast; rfl
  have hex : exchange (((List.range gs'.length).map F).map (fun f => f.msgs)) o3 =
      .ok ((List.range gs'.length).map (fun q => inbox ((List.range gs'.length).map (fun p => (F p).msgs)) (o3 q) q)) := by
    rw [List.map_map]
    apply exchange_range
    intro p hp m hm
    obtain ⟨v, -, -, -, w, hs, hm1, h3⟩ := hmsg p (by omega) m hm
    rw [hm1]
    constructor
    · exact Int.natCast_nonneg _
    · rw [hlen]; exact_mod_cast h3
  -- the second loop
  have hsecond : ∀ p (hp : p < ins.length) (hg : p < gs'.length), ∃ A,
      (do let s ← pmSecond gs'[p] t (p : Int) false (F p)
            (ghostGids (inbox ((List.range gs'.length).map (fun p => (F p).msgs)) (o3 p) p)) (ord p)
          pmInput dist s) = .ok A ∧ A.vtxdist = dist ∧
      CsrOf A ins[p].verts nbr (fun v => (pmNum ins own v : Int)) ew (fun v => truncD (weightOf ins own v)) := by
    intro p hp hg
    have hfp := hf p hp hg
    refine ⟨_, pmPart_spec hfp.facts false (vertsBefore ins p) _ (ord p) (hord p) (F p) (p : Int) (hfirst p hp hg) dist, rfl, ?_⟩
    dsimp only
    rw [hnl p hp hg, vwgts_of hd hp]
    refine csr_rows _ dist ?_
    intro u v huv
    obtain ⟨hu, rfl⟩ := List.getElem?_eq_some_iff.mp huv
    obtain ⟨r1, r2⟩ := row_gen hfp
      (fun v hv => by rw [hd.verts p hp v hv])
      (fun v hv hc => (ghosts_owner hd hp (hGH p hp hg) hv).1 (by exact_mod_cast hc)) false (vertsBefore ins p)
      (ghostGids (inbox ((List.range gs'.length).map (fun p => (F p).msgs)) (o3 p) p)) (ord p) (hord p) hu
      (fun v => (pmNum ins own v : Int))
      (fun a ha b hb hab => pmNum_inj hd (known_all hd hp (hGH p hp hg) ha) (known_all hd hp (hGH p hp hg) hb) (by exact_mod_cast hab))
      (fun l hl => by
        rw [pmNum_eq hd hp (List.getElem_mem hl), (hnodup p hp).idxOf_getElem]
        push_cast; rfl)
      (by
        intro _ w hwg hs
        obtain ⟨hne, hq, hwq⟩ := ghosts_owner hd hp (hGH p hp hg) hwg
        refine ghostGids_spec (F := fun v => (pmNum ins own v : Int)) _ ?_ GMap.empty (by intro v x hx; cases hx) w (Or.inr ?_)
        · intro m hm
          obtain ⟨h1, h2⟩ := (mem_inbox_range (by rw [hlen]; exact ho3) (by omega)).mp hm
          obtain ⟨v, -, -, h3, -⟩ := hmsg m.1 (by omega) _ h2
          simp only at h3
          rw [h3]
        · have hv := List.getElem_mem hu
          have hop := hd.verts p hp _ hv
          have := hsend (own w) hq w (by rw [hV _ hq]; exact hwq) _ (hsym _ _ hs) (by rw [hop]; exact Ne.symm hne)
          rw [hop] at this
          exact ⟨(own w, (w, (pmNum ins own w : Int))), (mem_inbox_range (by rw [hlen]; exact ho3) (by omega)).mpr ⟨by rw [hlen]; exact hq, this⟩, rfl⟩)
    refine ⟨r1, fun x e => (r2 x e).trans ?_⟩
    constructor
    · rintro ⟨w, ⟨h1, -⟩, h3, h4⟩
      exact ⟨w, h1, h3, h4⟩
    · rintro ⟨w, h1, h3, h4⟩
      exact ⟨w, ⟨h1, by simp⟩, h3, h4⟩
  have hchoose : ∀ p, ∃ A : PmInput, ∀ (hp : p < ins.length) (hg : p < gs'.length),
      (do let s ← pmSecond gs'[p] t (p : Int) false (F p)
            (ghostGids (inbox ((List.range gs'.length).map (fun p => (F p).msgs)) (o3 p) p)) (ord p)
          pmInput dist s) = .ok A ∧ A.vtxdist = dist ∧
      CsrOf A ins[p].verts nbr (fun v => (pmNum ins own v : Int)) ew (fun v => truncD (weightOf ins own v)) := by
    intro p
    by_cases hp : p < ins.length
    · obtain ⟨A, hA⟩ := hsecond p hp (by omega)
      exact ⟨A, fun _ _ => hA⟩
    · exact ⟨⟨[], [], [], [], []⟩, fun h => absurd h hp⟩
  choose A hA using hchoose
  refine ⟨(List.range gs'.length).map A, ?_, by simp [hlen], ?_⟩
  · unfold parmetisAll
    rw [ed1', Outcome.bind_ok, ← hcl, ed2, Outcome.bind_ok, efs, Outcome.bind_ok, hex, Outcome.bind_ok]
    rw [hcl]
    apply mapM_ok
    intro p hp
    have hp' := List.mem_range.mp hp
    rw [rd_ok hp', Outcome.bind_ok, Io.rd_some (x := F p) (by simp [hp']), Outcome.bind_ok,
      Io.rd_some (x := inbox ((List.range gs'.length).map (fun p => (F p).msgs)) (o3 p) p) (by simp [hp']), Outcome.bind_ok]
    exact (hA p (by omega) hp').1
  · intro p hp hpA
    simp only [List.getElem_map, List.getElem_range]
    obtain ⟨-, h2, h3⟩ := hA p hp (by omega)
    exact ⟨by rw [h2, hdist'], h3⟩

/-- `parmetisLocal` on a part; no symmetry is needed -/
theorem local_gen {ins : List Input} {own : Gid → Nat} (hd : Dist ins own) {gs' : List Graph} {t : Nat} {nbr : Gid → Gid → Prop}
    {ew : Gid → Gid → Int} (hw : PmWorld gs' ins own t nbr ew) (o3 : Nat → List Nat) (ho3 : Orders 1 o3)
    (ord : Nat → List (Handle × Int) → List (Handle × Int)) (hord : ∀ i l, (ord i l).Perm l)
    (p : Nat) (hp : p < ins.length) (hg : p < gs'.length) : ∃ A, parmetisLocal gs'[p] (p : Int) t o3 ord = .ok A ∧
        A.vtxdist = [0, (ins[p].verts.length : Int)] ∧
        CsrOf A ins[p].verts (fun v w => nbr v w ∧ w ∈ ins[p].verts) (fun v => (ins[p].verts.idxOf v : Int))
          ew (fun v => truncD (weightOf ins own v)) := by
  obtain ⟨ghosts, wt, run, hr, hfp⟩ := hw.2 p hp hg
  have hf := hfp.facts
  have hnl := hfp.nl
  unfold parmetisLocal
  obtain ⟨ds, ed1, ed2⟩ := sumDists_spec [ins[p].verts.length]
  simp only [List.length_singleton, List.range_one, List.mapM_cons, List.mapM_nil] at ed1 ed2
  rw [hnl]
  cases hv1 : vtxDist 1 0 ins[p].verts.length with
  | fail => simp [hv1] at ed1
  | ub => simp [hv1] at ed1
  | ok d =>
    simp [hv1] at ed1
    subst ed1
    rw [Outcome.bind_ok, ed2, Outcome.bind_ok]
    have hdist : (List.range (1 + 1)).map (fun i => ((([ins[p].verts.length].take i).sum : Nat) : Int)) =
        [0, (ins[p].verts.length : Int)] := by simp [List.range_succ]
    rw [hdist]
    have hfirst := pmFirst_spec hf true 0 (0 : Int)
    rw [show rd [(0 : Int), (ins[p].verts.length : Int)] 0 = .ok 0 from rfl, Outcome.bind_ok, hfirst, Outcome.bind_ok]
    dsimp only
    have hmsg : pmMsgs gs'[p].numLocal 0 true (fun k => (own (gidOf (ins[p].verts ++ ghosts) k) : Int)) (gidOf (ins[p].verts ++ ghosts))
        run 0 = [] := by
      unfold pmMsgs
      rw [List.flatMap_eq_nil_iff]
      intro u _
      simp [pmResOf]
    rw [hmsg]
    have hex : exchange ([[]] : List (List (Part × (Gid × Int)))) o3 = .ok [inbox [[]] (o3 0) 0] := by
      unfold exchange
      rw [if_pos (by simp)]
      rfl
    rw [hex, Outcome.bind_ok, show rd [inbox ([[]] : List (List (Part × (Gid × Int)))) (o3 0) 0] 0 = .ok (inbox [[]] (o3 0) 0) from rfl,
      Outcome.bind_ok]
    refine ⟨_, pmPart_spec hf true 0 _ ord hord _ 0 (by rw [hfirst, hmsg]) _, rfl, ?_⟩
    dsimp only
    rw [hnl, vwgts_of hd hp]
    refine csr_rows _ _ ?_
    intro u v huv
    obtain ⟨hu, rfl⟩ := List.getElem?_eq_some_iff.mp huv
    obtain ⟨r1, r2⟩ := row_gen hfp
      (fun v hv => by rw [hd.verts p hp v hv])
      (fun v hv hc => (ghosts_owner hd hp hr hv).1 (by exact_mod_cast hc)) true 0 (ghostGids (inbox [[]] (o3 0) 0)) ord hord hu
      (fun v => ((ins[p].verts ++ ghosts).idxOf v : Int))
      (fun a ha b hb hab => by
        have : (ins[p].verts ++ ghosts).idxOf a = (ins[p].verts ++ ghosts).idxOf b := by exact_mod_cast hab
        have h1 := List.getElem_idxOf (List.idxOf_lt_length_of_mem ha)
        have h2 := List.getElem_idxOf (List.idxOf_lt_length_of_mem hb)
        simp only [this] at h1
        exact h1.symm.trans h2)
      (fun l hl => by
        rw [(idxOf_eq_iff hr.core.v.nodup (by simp) hl).mpr rfl]; simp)
      (by intro h; cases h)
    refine ⟨r1, fun x e => (r2 x e).trans ?_⟩
    constructor
    · rintro ⟨w, ⟨h1, h5⟩, h3, h4⟩
      refine ⟨w, ⟨h1, h5 rfl⟩, ?_, h4⟩
      rw [h3, List.idxOf_append_of_mem (h5 rfl)]
    · rintro ⟨w, ⟨h1, h2⟩, h3, h4⟩
      refine ⟨w, ⟨h1, fun _ => h2⟩, ?_, h4⟩
      rw [h3, List.idxOf_append_of_mem h2]

end Verif.Part
