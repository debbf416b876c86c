import Verif.Part.SplitLemmas
import Verif.Part.ParmetisAny
import Verif.Agi.MigWitness
import Mathlib.Data.List.Dedup
/-!
# Properties C54, C55: splitting parts onto a larger communicator

Specification: `PartitionerOk` is what ParMETIS promises about its answer, `SplitOk` what the caller of `split` has to
provide, `Chosen` the rank that was chosen for a vertex.
-/
namespace Verif.Part
open Verif.Agi

/-! ## specification -/

/-- the answer of the partitioner: one number for every vertex handed over, from 0 to the number of parts wanted -/
def PartitionerOk (pm : Partitioner) : Prop :=
  ∀ As k p A, As[p]? = some A → 0 < k → (pm As k p).length = A.vwgts.length ∧ ∀ d ∈ pm As k p, 0 ≤ d ∧ d < (k : Int)

/-- the caller's part: the parts have different ranks in the large communicator; the local method is given a split
factor, and on every part at least that many ranks -/
structure SplitOk (n m : Nat) (ranks : List Nat) (meth : SplitMethod) (hasCoords : Bool) (s : SplitInput) : Prop where
  count : ranks.length = m
  distinct : ranks.Nodup
  ranks_lt : ∀ r ∈ ranks, r < n
  edgeType : s.t = 0
  others : meth = .localParmetis → ∃ k, s.factor = some k ∧ 0 < k ∧
    ∀ p, p < m → ∃ l, s.others p = some l ∧ k ≤ l.length ∧ ∀ r ∈ l, 0 ≤ r ∧ r < (n : Int)
  orders : Orders m s.orders
  hash : ∀ p i l, (s.hash p i l).Perm l
  env : EnvOk n hasCoords s.env

/-- `r` is the rank chosen for vertex number `u` of part `p`: what the partitioner answers for it, or, with the local
method, the rank listed under that number on the part -/
def Chosen (n : Nat) (gs : List Graph) (meth : SplitMethod) (s : SplitInput) (pm : Partitioner) (p u r : Nat) : Prop :=
  match meth with
  | .globalParmetis => ∃ As, parmetisAll gs s.t s.orders s.hash = .ok As ∧ (pm As n p)[u]? = some (r : Int)
  | .localParmetis => ∃ g A k other, ∃ d : Nat, gs[p]? = some g ∧ s.factor = some k ∧ s.others p = some other ∧
      parmetisLocal g (p : Int) s.t (fun _ => [0]) (s.hash p) = .ok A ∧ (pm [A] k 0)[u]? = some (d : Int) ∧
      other[d]? = some (r : Int)

/-- the ranks show the hypergraph with vertices `V`, hyperedges `es`, vertex weights `wt`, original owners `oo` and
coordinates `co`, its vertices placed by `place`: every rank has exactly its vertices, each once, with their data, and
exactly the hyperedges that touch it, complete and with the right owner at each pin; the global counts are right -/
def ShowsG (V : List Gid) (es : List HEdge) (wt : Gid → Wgt) (oo : Gid → Part) (co : Option (Gid → Coord)) (n : Nat)
    (place : Gid → Nat) (gs : List Graph) : Prop :=
  gs.length = n ∧ (∀ v ∈ V, place v < n) ∧ ∀ r (hr : r < gs.length),
    gs[r].globalVerts = (V.length : Int) ∧ gs[r].numGlobalEdges 0 = .ok (es.length : Int) ∧
    (∃ vs, gs[r].localGids = .ok vs ∧ vs.Nodup ∧ ∀ v, v ∈ vs ↔ v ∈ V ∧ place v = r) ∧
    (∃ l, gs[r].edgeViews 0 = .ok l ∧
      l.Perm ((es.filter (fun E => decide (∃ v ∈ E.pins, place v = r))).map (HEdge.viewed place))) ∧
    ∀ v ∈ V, place v = r → gs[r].weightG v = .ok (wt v) ∧ gs[r].origG v = .ok (oo v) ∧
      ∀ c, co = some c → gs[r].coordG v = .ok (c v)

/-- rank `r` of `getPartition`'s result has exactly the vertices whose original owner is `r`, with their place -/
def TellsPlaces (V : List Gid) (oo : Gid → Nat) (place : Gid → Nat) (n : Nat) (maps : List (GMap Nat)) : Prop :=
  maps.length = n ∧ ∀ r (hr : r < maps.length) v,
    maps[r] v = if v ∈ V ∧ oo v = r then some (place v) else none

/-! ## proof -/

section
variable {G : GG} {m n : Nat} {own : Gid → Nat} {gr : Nat → Graph} {I : Nat → Input} {GH : Nat → List Gid}

theorem orders_one : Orders 1 (fun _ => [0]) := by
  intro p _
  exact List.Perm.refl _

theorem plain_rep {g : Graph} {p : Nat} {i : Input} {gh : List Gid}
    (hd : PartDone G own m p g.setOriginalOwners i gh) : PartRep g p m i own gh := by
  have hself : g = { g.setOriginalOwners with originalOwners := g.originalOwners } := by
    unfold Graph.setOriginalOwners
    cases h : g.originalOwners <;> simp only <;> rw [← h]
  rw [hself]; exact hd.inv.rep.of_orig _

end

section
variable {ins : List Input} {own : Gid → Nat} {n : Nat} {gr : Nat → Graph}

/-- the plans of the original parts, for any graph ParMETIS can be given -/
theorem splitPlans_gen {t : Nat} {nbr : Gid → Gid → Prop} {ew : Gid → Gid → Int} (hd : Dist ins own)
    (hw : PmWorld ((List.range ins.length).map gr) ins own t nbr ew)
    {ranks : List Nat} {meth : SplitMethod} {b : Bool} {s : SplitInput} (hs : SplitOk n ins.length ranks meth b s) (ht : t = 0)
    (hsym : meth = .globalParmetis → ∀ v w, nbr v w → nbr w v) {pm : Partitioner} (hpm : PartitionerOk pm) (hn : 0 < n)
    {V : Nat → List Gid} (hget : ∀ p (hp : p < ins.length), V p = ins[p].verts) :
    ∃ (ans : Nat → List Int) (pl : Nat → Plan), splitPlans n ((List.range ins.length).map gr) meth s pm = .ok ((List.range ins.length).map pl) ∧
      ∀ p, p < ins.length → (ans p).length = (V p).length ∧ (∀ d ∈ ans p, 0 ≤ d ∧ d < (n : Int)) ∧
        (∃ f, PlanRep (V p) (pl p) (V p) f ∧ ∀ u (hu : u < (V p).length), f (V p)[u] = (ans p)[u]?) ∧
        ∀ u r : Nat, (ans p)[u]? = some (r : Int) → Chosen n ((List.range ins.length).map gr) meth s pm p u r := by
  subst ht
  have hnl : ∀ p, p < ins.length → (gr p).numLocal = (V p).length := by
    intro p hp
    obtain ⟨gh, wt, run, hr, -⟩ := hw.2 p hp (by simpa using hp)
    rw [hget p hp, ← hr.core.v.nl]
    simp only [List.getElem_map, List.getElem_range]
  have hnd : ∀ p, p < ins.length → (V p).Nodup := by
    intro p hp
    rw [hget p hp]
    exact (hd.wf _ (List.getElem_mem _)).nodup
  cases meth with
  | globalParmetis =>
    obtain ⟨As, e1, hl, hA⟩ := csr_gen hd hw (hsym rfl) s.orders hs.orders s.hash hs.hash
    have hans : ∀ p, p < ins.length → (pm As n p).length = (V p).length ∧ ∀ d ∈ pm As n p, 0 ≤ d ∧ d < (n : Int) := by
      intro p hp
      have hpA : p < As.length := by omega
      obtain ⟨a, b'⟩ := hpm As n p As[p] (List.getElem?_eq_getElem hpA) hn
      refine ⟨?_, b'⟩
      rw [a, (hA p hp hpA).2.vwgts, ← hget p hp]
      simp
    have hex : ∀ p, p < ins.length → ∃ plan, parmetisPlan (gr p) (pm As n p) = .ok plan ∧
        ∃ f, PlanRep (V p) plan (V p) f ∧ ∀ u (hu : u < (V p).length), f (V p)[u] = (pm As n p)[u]? := by
      intro p hp
      obtain ⟨a, b'⟩ := hans p hp
      obtain ⟨plan, f, e, h1, h2⟩ := parmetisPlan_rep (hnl p hp) (hnd p hp) (pm As n p) a (fun d hd => (b' d hd).1)
      exact ⟨plan, e, f, h1, h2⟩
    have : ∃ pl : Nat → Plan, ∀ p, p < ins.length → parmetisPlan (gr p) (pm As n p) = .ok (pl p) ∧
        ∃ f, PlanRep (V p) (pl p) (V p) f ∧ ∀ u (hu : u < (V p).length), f (V p)[u] = (pm As n p)[u]? := by
      have h2 : ∀ p, ∃ plan, p < ins.length → parmetisPlan (gr p) (pm As n p) = .ok plan ∧
        ∃ f, PlanRep (V p) plan (V p) f ∧ ∀ u (hu : u < (V p).length), f (V p)[u] = (pm As n p)[u]? := by
        intro p
        by_cases hp : p < ins.length
        · obtain ⟨x, hx⟩ := hex p hp; exact ⟨x, fun _ => hx⟩
        · exact ⟨⟨none, []⟩, fun h => absurd h hp⟩
      choose pl hpl using h2
      exact ⟨pl, hpl⟩
    obtain ⟨pl, hpl⟩ := this
    refine ⟨fun p => pm As n p, pl, ?_, fun p hp => ⟨(hans p hp).1, (hans p hp).2, (hpl p hp).2, ?_⟩⟩
    · unfold splitPlans globalPlans
      simp only
      rw [hs.edgeType, e1, Outcome.bind_ok, zipIdx_range]
      exact mapM_range (fun p hp => (hpl p hp).1)
    · intro u r hu
      exact ⟨As, by rw [hs.edgeType]; exact e1, hu⟩
  | localParmetis =>
    obtain ⟨k, hk, hk0, ho⟩ := hs.others rfl
    have hex : ∀ p, ∃ (x : Plan × List Int), p < ins.length → localPlan (gr p) p s pm = .ok x.1 ∧ x.2.length = (V p).length ∧
        (∀ d ∈ x.2, 0 ≤ d ∧ d < (n : Int)) ∧
        (∃ f, PlanRep (V p) x.1 (V p) f ∧ ∀ u (hu : u < (V p).length), f (V p)[u] = x.2[u]?) ∧
        ∀ u r : Nat, x.2[u]? = some (r : Int) → Chosen n ((List.range ins.length).map gr) .localParmetis s pm p u r := by
      intro p
      by_cases hp : p < ins.length
      swap
      · exact ⟨(⟨none, []⟩, []), fun h => absurd h hp⟩
      obtain ⟨other, ho1, ho2, ho3⟩ := ho p hp
      obtain ⟨A, e1, -, hA⟩ := local_gen hd hw (fun _ => [0]) orders_one (s.hash p) (hs.hash p) p hp (by simpa using hp)
      simp only [List.getElem_map, List.getElem_range] at e1
      rw [← hget p hp] at hA
      obtain ⟨a, b'⟩ := hpm [A] k 0 A rfl hk0
      have hlen : (pm [A] k 0).length = (V p).length := by rw [a, hA.vwgts]; simp
      obtain ⟨plan, f, e2, h1, h2⟩ := parmetisPlan_rep (hnl p hp) (hnd p hp) (pm [A] k 0) hlen (fun d hd => (b' d hd).1)
      obtain ⟨plan', f', e3, h3, h4⟩ := localDest_rep (hnl p hp) (hnd p hp) hlen (fun d hd => (b' d hd).1) h1 h2 other
        (fun d hd => by have := (b' d hd).2; omega) (fun r hr => (ho3 r hr).1)
      have hlook : ∀ d ∈ pm [A] k 0, ∃ h : d.toNat < other.length, other.getD d.toNat 0 = other[d.toNat] := by
        intro d hd
        have := b' d hd
        have hlt : d.toNat < other.length := by omega
        refine ⟨hlt, ?_⟩
        rw [List.getD_eq_getElem?_getD, List.getElem?_eq_getElem hlt, Option.getD_some]
      refine ⟨(plan', (pm [A] k 0).map (fun d => other.getD d.toNat 0)), fun _ => ⟨?_, by simp [hlen], ?_, ⟨f', h3, h4⟩, ?_⟩⟩
      · unfold localPlan
        simp only [hk, ho1]
        rw [hs.edgeType, e1, Outcome.bind_ok, e2, Outcome.bind_ok]
        exact e3
      · intro d hd
        obtain ⟨x, hx, rfl⟩ := List.mem_map.mp hd
        obtain ⟨hlt, e⟩ := hlook x hx
        rw [e]
        exact ho3 _ (List.getElem_mem _)
      · intro u r hu
        simp only [List.getElem?_map, Option.map_eq_some_iff] at hu
        obtain ⟨d, hd, he⟩ := hu
        have hm := List.mem_of_getElem? hd
        obtain ⟨hlt, e⟩ := hlook d hm
        have hd0 := (b' d hm).1
        refine ⟨gr p, A, k, other, d.toNat, by simp [hp], hk, ho1, by rw [hs.edgeType]; exact e1, ?_, ?_⟩
        · rw [hd, Int.toNat_of_nonneg hd0]
        · rw [List.getElem?_eq_getElem hlt, ← e, he]
    choose x hx using hex
    refine ⟨fun p => (x p).2, fun p => (x p).1, ?_, fun p hp => (hx p hp).2⟩
    unfold splitPlans
    simp only
    rw [zipIdx_range]
    exact mapM_range (fun p hp => (hx p hp).1)


theorem sharing_symm {es : List HEdge} {v w : Gid} (h : Sharing es v w) : Sharing es w v := by
  obtain ⟨h1, e, he, h2, h3⟩ := h
  exact ⟨Ne.symm h1, e, he, h3, h2⟩

end

section
variable {G : GG} {m n : Nat} {own : Gid → Nat} {gr : Nat → Graph} {I : Nat → Input} {GH : Nat → List Gid}

/-- the plans of the original parts -/
theorem splitPlans_spec (hG : G.WF m own) (hd : ∀ p, p < m → PartDone G own m p (gr p).setOriginalOwners (I p) (GH p))
    {ranks : List Nat} {meth : SplitMethod} {b : Bool} {s : SplitInput} (hs : SplitOk n m ranks meth b s)
    {pm : Partitioner} (hpm : PartitionerOk pm) (hn : 0 < n) :
    ∃ (ans : Nat → List Int) (pl : Nat → Plan), splitPlans n ((List.range m).map gr) meth s pm = .ok ((List.range m).map pl) ∧
      ∀ p, p < m → (ans p).length = (I p).verts.length ∧ (∀ d ∈ ans p, 0 ≤ d ∧ d < (n : Int)) ∧
        (∃ f, PlanRep (I p).verts (pl p) (I p).verts f ∧ ∀ u (hu : u < (I p).verts.length), f (I p).verts[u] = (ans p)[u]?) ∧
        ∀ u r : Nat, (ans p)[u]? = some (r : Int) → Chosen n ((List.range m).map gr) meth s pm p u r := by
  have hH := Io.done_hdist hG hd
  have hw : World ((List.range m).map gr) ((List.range m).map I) own := by
    refine ⟨by simp, fun p hg hp => ?_⟩
    have hp' : p < m := by simpa using hp
    refine ⟨GH p, ?_⟩
    simp only [List.getElem_map, List.getElem_range, List.length_map, List.length_range]
    exact plain_rep (hd p hp')
  obtain ⟨ew, hpw⟩ := pmWorld_hyper (t := 0) hH hw (by simp)
  have hlen : ((List.range m).map I).length = m := by simp
  have := splitPlans_gen (n := n) (gr := gr) (ranks := ranks) (meth := meth) (b := b) (s := s) hH.dist (by rw [hlen]; exact hpw)
    (by rw [hlen]; exact hs) rfl (fun _ v w hvw => sharing_symm hvw) hpm hn (V := fun p => (I p).verts) (by intro p hp; simp)
  rw [hlen] at this
  exact this

theorem migrate_spec' {G : GG} {n : Nat} {own own' : Gid → Nat} (hG : G.WF n own) (hown' : ∀ v ∈ G.verts, own' v < n)
    {X : Nat → Graph × Input × List Gid × Plan}
    (hinv : ∀ p, p < n → PartInv G own n p (X p).1 (X p).2.1 (X p).2.2.1 ∧ ∃ s f, PlanRep (X p).2.1.verts (X p).2.2.2 s f ∧
      ∀ v ∈ (X p).2.1.verts, (own' v : Int) = (f v).getD p) {env : MigrateEnv} (henv : EnvOk n G.co.isSome env) :
    ∃ (gr' : Nat → Graph) (I' : Nat → Input) (GH' : Nat → List Gid),
      migrate ((List.range n).map (fun p => (X p).1)) ((List.range n).map (fun p => (X p).2.2.2)) env = .ok ((List.range n).map gr') ∧
      ∀ p, p < n → PartDone G own' n p (gr' p) (I' p) (GH' p) :=
  migrate_step hG hown' (gr := fun p => (X p).1) (I := fun p => (X p).2.1) (GH := fun p => (X p).2.2.1)
    (fun p hp => (hinv p hp).1) (pl := fun p => (X p).2.2.2) (fun p hp => (hinv p hp).2) henv

/-- from any plans on: every vertex goes where its plan says, or stays on the rank of its part -/
theorem apply_spec (hG : G.WF m own) (hd : ∀ p, p < m → PartDone G own m p (gr p).setOriginalOwners (I p) (GH p))
    (kept : Bool) (hk : ∀ p, p < m → (gr p).originalOwners.isSome = kept)
    {ranks : List Nat} (hl : ranks.length = m) (hdis : ranks.Nodup) (hrl : ∀ r ∈ ranks, r < n) {env : MigrateEnv}
    (henv : EnvOk n G.co.isSome env) {dest : Gid → Nat} (hdest : ∀ v ∈ G.verts, dest v < n) {pl : Nat → Plan}
    (hpl : ∀ p, p < m → ∃ sd f, PlanRep (I p).verts (pl p) sd f ∧
      ∀ v ∈ (I p).verts, (dest v : Int) = (f v).getD ((ranks.getD p 0 : Nat) : Int)) :
    ∃ (gr' : Nat → Graph) (I' : Nat → Input) (GH' : Nat → List Gid),
      splitApply n ranks ((List.range m).map gr) ((List.range m).map pl) env = .ok ((List.range n).map gr') ∧
      ∀ r, r < n → PartDone (withOO G (splitOO G ranks own kept)) dest n r (gr' r) (I' r) (GH' r) := by
  obtain ⟨g2, hg2⟩ := choose_part (fun p hp => expand_part (n := n) hG (hd p hp) hp hl hdis kept (hk p hp))
  have hidx : ∀ r, r ∈ ranks → ranks.idxOf r < m ∧ ranks.getD (ranks.idxOf r) 0 = r := by
    intro r hr
    have h1 : ranks.idxOf r < ranks.length := List.idxOf_lt_length_of_mem hr
    refine ⟨by omega, ?_⟩
    rw [getD_rank h1]
    exact List.getElem_idxOf h1
  obtain ⟨pe, hpe⟩ : ∃ pe : Nat → Plan, ∀ r : Nat, (emptyGraph (r : Int) n).newPlan = .ok (pe r) ∧
      PlanRep [] (pe r) [] (fun _ => none) := by
    have : ∀ r : Nat, ∃ q, (emptyGraph (r : Int) n).newPlan = .ok q ∧ PlanRep [] q [] (fun _ => none) :=
      fun r => newPlan_rep rfl
    choose pe hpe using this
    exact ⟨pe, hpe⟩
  let X : Nat → Graph × Input × List Gid × Plan := fun r =>
    if r ∈ ranks then ((Graph.switchComm (g2 (ranks.idxOf r)) (r : Int) n).setOriginalOwners, I (ranks.idxOf r),
      GH (ranks.idxOf r), pl (ranks.idxOf r))
    else ((emptyGraph (r : Int) n).setOriginalOwners, ⟨false, [], [], []⟩, [], pe r)
  have hG' : (withOO G (splitOO G ranks own kept)).WF n (rankOf ranks own) := by
    have := withOO_wf hG (splitOO G ranks own kept)
    refine ⟨this.some_vertex, this.nodup, this.ids, this.ne, this.pins, ?_⟩
    intro v hv
    have h1 := this.own v hv
    unfold rankOf
    rw [getD_rank (by omega)]
    exact hrl _ (List.getElem_mem _)
  obtain ⟨gr', I', GH', e, h⟩ := migrate_spec' (own' := dest) hG' (hdest) (X := X) (by
    intro r hr
    by_cases hm : r ∈ ranks
    · obtain ⟨hi, hge⟩ := hidx r hm
      have hx : X r = ((Graph.switchComm (g2 (ranks.idxOf r)) (r : Int) n).setOriginalOwners, I (ranks.idxOf r),
        GH (ranks.idxOf r), pl (ranks.idxOf r)) := if_pos hm
      rw [hx]
      have h1 := (hg2 _ hi).2
      rw [hge] at h1
      refine ⟨h1, ?_⟩
      have := hpl _ hi
      rwa [hge] at this
    · have hx : X r = ((emptyGraph (r : Int) n).setOriginalOwners, ⟨false, [], [], []⟩, [], pe r) := if_neg hm
      rw [hx]
      refine ⟨empty_part hG hl hm _, [], fun _ => none, (hpe r).2, ?_⟩
      intro v hv; simp at hv) henv
  refine ⟨gr', I', GH', ?_, h⟩
  unfold splitApply
  rw [mapM_range (G := g2) (fun p hp => (hg2 p hp).1), Outcome.bind_ok]
  have e2 : (List.range n).mapM (onRank n ranks ((List.range m).map g2)) = .ok ((List.range n).map (fun r =>
      if r ∈ ranks then Graph.switchComm (g2 (ranks.idxOf r)) (r : Int) n else emptyGraph (r : Int) n)) := by
    apply mapM_ok
    intro r hr
    unfold onRank
    by_cases hm : r ∈ ranks
    · rw [if_pos hm, if_pos hm, Io.rd_some (x := g2 (ranks.idxOf r)) (by simp [(hidx r hm).1])]
      rfl
    · rw [if_neg hm, if_neg hm]
  have e3 : (List.range n).mapM (planOnRank n ranks ((List.range m).map pl)) = .ok ((List.range n).map (fun r => (X r).2.2.2)) := by
    apply mapM_ok
    intro r hr
    unfold planOnRank
    by_cases hm : r ∈ ranks
    · rw [if_pos hm, Io.rd_some (x := pl (ranks.idxOf r)) (by simp [(hidx r hm).1])]
      simp only [X, if_pos hm]
    · rw [if_neg hm, (hpe r).1]
      simp only [X, if_neg hm]
  rw [e2, Outcome.bind_ok, e3, Outcome.bind_ok, List.map_map]
  rw [← e]
  congr 1
  apply List.map_congr_left
  intro r _
  simp only [Function.comp, X]
  split <;> rfl

/-- the whole split -/
theorem split_spec (hG : G.WF m own) (hd : ∀ p, p < m → PartDone G own m p (gr p).setOriginalOwners (I p) (GH p))
    (kept : Bool) (hk : ∀ p, p < m → (gr p).originalOwners.isSome = kept)
    {ranks : List Nat} {meth : SplitMethod} {s : SplitInput} (hs : SplitOk n m ranks meth G.co.isSome s)
    {pm : Partitioner} (hpm : PartitionerOk pm) :
    ∃ dest : Gid → Nat, (∀ v ∈ G.verts, dest v < n) ∧
      (∀ p, p < m → ∀ u (hu : u < (I p).verts.length), Chosen n ((List.range m).map gr) meth s pm p u (dest (I p).verts[u])) ∧
      ∃ (gr' : Nat → Graph) (I' : Nat → Input) (GH' : Nat → List Gid),
        split n ranks ((List.range m).map gr) meth s pm = .ok ((List.range n).map gr') ∧
        ∀ r, r < n → PartDone (withOO G (splitOO G ranks own kept)) dest n r (gr' r) (I' r) (GH' r) := by
  obtain ⟨v0, hv0⟩ := List.exists_mem_of_ne_nil _ hG.some_vertex
  have hm0 := hG.own v0 hv0
  have hl := hs.count
  have hn : 0 < n := by
    have := hs.ranks_lt _ (List.getElem_mem (show 0 < ranks.length by omega))
    omega
  obtain ⟨ans, pl, e1, hpl⟩ := splitPlans_spec hG hd hs hpm hn
  -- destinations
  let dest : Gid → Nat := fun v => ((ans (own v))[(I (own v)).verts.idxOf v]?.getD 0).toNat
  have hdest : ∀ v ∈ G.verts, ∃ h : (I (own v)).verts.idxOf v < (ans (own v)).length,
      (dest v : Int) = (ans (own v))[(I (own v)).verts.idxOf v] ∧ dest v < n := by
    intro v hv
    have hp := hG.own v hv
    have hmem := ((hd _ hp).inv.verts v).mpr ⟨hv, rfl⟩
    have hlt := List.idxOf_lt_length_of_mem hmem
    obtain ⟨h1, h2, -⟩ := hpl _ hp
    have hlt' : (I (own v)).verts.idxOf v < (ans (own v)).length := by omega
    have hb := h2 _ (List.getElem_mem hlt')
    have hde : dest v = ((ans (own v))[(I (own v)).verts.idxOf v]).toNat := by
      show ((ans (own v))[(I (own v)).verts.idxOf v]?.getD 0).toNat = _
      rw [List.getElem?_eq_getElem hlt', Option.getD_some]
    refine ⟨hlt', ?_, ?_⟩
    · rw [hde]; omega
    · rw [hde]; omega
  refine ⟨dest, fun v hv => (hdest v hv).2.2, ?_, ?_⟩
  · intro p hp u hu
    have hv := ((hd p hp).inv.verts _).mp (List.getElem_mem hu)
    obtain ⟨h1, h2, -⟩ := hdest _ hv.1
    apply (hpl p hp).2.2.2
    have hix : (I p).verts.idxOf (I p).verts[u] = u := (hd p hp).nodup.idxOf_getElem u hu
    have hu2 : u < (ans p).length := by rw [(hpl p hp).1]; exact hu
    rw [List.getElem?_eq_getElem hu2]
    congr 1
    rw [h2]
    simp only [hv.2, hix]
  · obtain ⟨gr', I', GH', e, h⟩ := apply_spec (n := n) hG hd kept hk hl hs.distinct hs.ranks_lt hs.env
      (fun v hv => (hdest v hv).2.2) (pl := pl) (by
        intro p hp
        obtain ⟨-, -, ⟨f, hf1, hf2⟩, -⟩ := hpl p hp
        refine ⟨_, f, hf1, fun v hv => ?_⟩
        have hv' := ((hd p hp).inv.verts v).mp hv
        obtain ⟨h2, h3, -⟩ := hdest v hv'.1
        have hlt := List.idxOf_lt_length_of_mem hv
        have := hf2 _ hlt
        rw [List.getElem_idxOf hlt] at this
        rw [this, h3]
        simp only [hv'.2] at h2 ⊢
        rw [List.getElem?_eq_getElem h2, Option.getD_some])
    refine ⟨gr', I', GH', ?_, h⟩
    unfold split
    rw [e1, Outcome.bind_ok]
    exact e

theorem gids_rep {g : Graph} {verts ghosts : List Gid} (hv : VRep g verts ghosts) : g.localGids = .ok verts := by
  unfold Graph.localGids
  rw [iterLoop_collect (F := fun v => v) (yields_verts hv) (by unfold Graph.bound; rw [hv.nl]; omega)]
  · simp
  · intro acc v hvm
    rw [globalID_eq hv (by simp [hvm]), Outcome.bind_ok]; rfl

theorem ranks_le {m : Nat} {ranks : List Nat} (hl : ranks.length = m) (hnd : ranks.Nodup) (h : ∀ r ∈ ranks, r < n) : m ≤ n := by
  have := (List.subperm_of_subset hnd (fun r hr => List.mem_range.mpr (h r hr))).length_le
  rw [List.length_range] at this
  omega

theorem shows_done (hG : G.WF n own) (hd : ∀ p, p < n → PartDone G own n p (gr p) (I p) (GH p)) :
    ShowsG G.verts G.edges G.wt G.oo G.co n own ((List.range n).map gr) := by
  refine ⟨by simp, hG.own, fun r hr => ?_⟩
  have hr' : r < n := by simpa using hr
  have h := hd r hr'
  simp only [List.getElem_map, List.getElem_range]
  refine ⟨h.total, h.edges, ⟨_, h.gids, h.nodup, h.inv.verts⟩, ?_, ?_⟩
  · obtain ⟨l, e1, h1⟩ := h.edgeViews hG
    exact ⟨_, e1, h1.map _⟩
  · intro v hv ho
    have hv' := (h.inv.verts v).mpr ⟨hv, ho⟩
    refine ⟨h.weight hv', ?_, fun c hc => h.coord hG hv' hc⟩
    unfold Graph.origG
    rw [findGID_eq h.inv.rep.core.v (by simp [hv']), Outcome.bind_ok]
    exact h.orig hv'

theorem partition_done (hG : G.WF n own) (hd : ∀ p, p < n → PartDone G own n p (gr p) (I p) (GH p)) {oo : Gid → Nat}
    (hoo : ∀ v ∈ G.verts, G.oo v = (oo v : Int) ∧ oo v < n) {ord : Nat → List Nat} (ho : Orders n ord) :
    ∃ maps, getPartition ((List.range n).map gr) ord = .ok maps ∧ TellsPlaces G.verts oo own n maps := by
  refine ⟨(List.range n).map (fun q => (inbox ((List.range n).map (fun p =>
    (I p).verts.map (fun v => (G.oo v, v)))) (ord q) q).foldl
      (fun m (x : Nat × Gid) => m.insertNew x.2 x.1) GMap.empty), ?_, by simp, ?_⟩
  · unfold getPartition
    rw [mapM_range (fun p hp => (hd p hp).msgs), Outcome.bind_ok, exchange_range (by
      intro p hp m hm
      obtain ⟨v, hv, rfl⟩ := List.mem_map.mp hm
      have := hoo v (((hd p hp).inv.verts v).mp hv).1
      simp only
      omega), Outcome.bind_ok, List.map_map]
    rfl
  · intro q hq v
    have hq' : q < n := by simpa using hq
    simp only [List.getElem_map, List.getElem_range]
    have hin : ∀ x, x ∈ inbox ((List.range n).map (fun p =>
        (I p).verts.map (fun v => (G.oo v, v)))) (ord q) q ↔
        x.1 < n ∧ (x.2 ∈ G.verts ∧ own x.2 = x.1) ∧ oo x.2 = q := by
      intro x
      rw [mem_inbox_range ho hq']
      constructor
      · rintro ⟨h1, h2⟩
        obtain ⟨w, hw, he⟩ := List.mem_map.mp h2
        simp only [Prod.mk.injEq] at he
        obtain ⟨he1, rfl⟩ := he
        have hw' := ((hd _ h1).inv.verts _).mp hw
        have := (hoo _ hw'.1).1
        exact ⟨h1, hw', by omega⟩
      · rintro ⟨h1, h2, h3⟩
        refine ⟨h1, List.mem_map.mpr ⟨x.2, ((hd _ h1).inv.verts _).mpr h2, ?_⟩⟩
        have := (hoo _ h2.1).1
        simp only [Prod.mk.injEq, and_true]
        omega
    rw [foldl_insertNew own _ GMap.empty (by intro x hx; exact ((hin x).mp hx).2.1.2.symm)
      (by intro k a hk; simp [GMap.empty] at hk) v]
    by_cases hv : v ∈ G.verts ∧ oo v = q
    · rw [if_pos hv, if_pos]
      exact .inr (List.mem_map.mpr ⟨(own v, v), (hin _).mpr ⟨hG.own v hv.1, ⟨hv.1, rfl⟩, hv.2⟩, rfl⟩)
    · rw [if_neg hv, if_neg]
      rintro (h1 | h1)
      · simp [GMap.empty] at h1
      · obtain ⟨x, hx, rfl⟩ := List.mem_map.mp h1
        obtain ⟨-, h2, h3⟩ := (hin x).mp hx
        exact hv ⟨h2.1, h3⟩

end

/-! ## the properties -/

section
variable {es : List HEdge} {ins : List Input} {own : Gid → Nat} {owns : List (GMap Part)} {o1 o2 : Nat → List Nat}
variable {n : Nat} {ranks : List Nat} {meth : SplitMethod} {s : SplitInput}

/-- **C54, C55** (after any history of migrations; one edge type).  A hypergraph is distributed
over the parts of the small communicator, its original owners are recorded, and it goes through any migrations `rs`.
Then `split`, by either ParMETIS method and for whatever the partitioner answers, succeeds on all `n` ranks of the large
communicator; every vertex is then on exactly the rank chosen for it, and through any further migrations `rs'` over the
large communicator all data - vertex weights, coordinates, original owners, hyperedges with weights, pins and owners of
pins, global counts - are those of the start.  (The original owners are ranks of the small communicator, also when
`getPartition` then uses them as ranks of the large one: see `c55_wrong_rank`.) -/
theorem c54_split_partial (h : Start es ins own owns o1 o2) (co : Option (Gid → Coord)) (rs : List Round)
    (hr : RoundsOk (allVerts ins) ins.length co.isSome own rs) 
    (hs : SplitOk n ins.length ranks meth co.isSome s) (pm : Partitioner) (hpm : PartitionerOk pm) :
    ∃ gs0 gs gs' dest, setupAll ins co owns o1 o2 = .ok gs0 ∧ migrateRounds gs0 rs = .ok gs ∧
      split n ranks gs meth s pm = .ok gs' ∧
      (∀ p (hp : p < gs.length), ∃ vs, gs[p].localGids = .ok vs ∧
        ∀ u (hu : u < vs.length), Chosen n gs meth s pm p u (dest vs[u])) ∧
      ∀ rs', RoundsOk (allVerts ins) n co.isSome dest rs' →
        ∃ gs'', migrateRounds gs' rs' = .ok gs'' ∧
          ShowsG (allVerts ins) es (weightOf ins own) (fun v => (own v : Int)) co n (placeAll dest rs') gs'' ∧
          ∀ ord, Orders n ord → ∃ maps, getPartition gs'' ord = .ok maps ∧
            TellsPlaces (allVerts ins) own (placeAll dest rs') n maps := by
  obtain ⟨hG, gs0, gs, e0, e, gr, I, GH, rfl, hd⟩ := run_spec h co rs hr
  have hset : ∀ p, p < ins.length → (gr p).setOriginalOwners = gr p := by
    intro p hp
    have := (hd p hp).origSet
    unfold Graph.setOriginalOwners
    cases hh : (gr p).originalOwners with
    | none => rw [hh] at this; simp at this
    | some a => rfl
  obtain ⟨dest, hlt, hch, gr', I', GH', e2, hd'⟩ := split_spec (n := n) hG (fun p hp => by rw [hset p hp]; exact hd p hp) true
    (fun p hp => (hd p hp).origSet) hs hpm
  refine ⟨gs0, _, _, dest, e0, e, e2, ?_, ?_⟩
  · intro p hp
    have hp' : p < ins.length := by simpa using hp
    simp only [List.getElem_map, List.getElem_range]
    exact ⟨_, (hd p hp').gids, hch p hp'⟩
  · intro rs' hr'
    have hG' := withOO_wf hG (splitOO (startG es ins own co) ranks (placeAll own rs) true)
    obtain ⟨hG'', gr'', I'', GH'', e3, hd''⟩ := migrateRounds_spec rs'
      ⟨hG'.some_vertex, hG'.nodup, hG'.ids, hG'.ne, hG'.pins, hlt⟩ hd' hr'
    refine ⟨_, e3, shows_done hG'' hd'', fun ord ho => ?_⟩
    have hle := ranks_le hs.count hs.distinct hs.ranks_lt
    exact partition_done hG'' hd'' (fun v hv => ⟨rfl, by
      have h1 := (h.wf co).own v hv
      omega⟩) ho

/-- **C54, C55** (before any migration; one edge type).  The same when the original owners have not
been recorded before the split: afterwards the original owner of a vertex is the rank, in the large communicator, of the
part it was on, and `getPartition` tells every rank that was part of the small communicator where its vertices are. -/
theorem c54_fresh_partial (h : Start es ins own owns o1 o2) (co : Option (Gid → Coord))
    (hs : SplitOk n ins.length ranks meth co.isSome s) (pm : Partitioner)
    (hpm : PartitionerOk pm) :
    ∃ gs gs' dest, setupBare ins co owns o1 o2 = .ok gs ∧ split n ranks gs meth s pm = .ok gs' ∧
      (∀ p (hp : p < gs.length), ∃ vs, gs[p].localGids = .ok vs ∧
        ∀ u (hu : u < vs.length), Chosen n gs meth s pm p u (dest vs[u])) ∧
      ∀ rs', RoundsOk (allVerts ins) n co.isSome dest rs' →
        ∃ gs'', migrateRounds gs' rs' = .ok gs'' ∧
          ShowsG (allVerts ins) es (weightOf ins own) (fun v => ((ranks.getD (own v) 0 : Nat) : Int)) co n (placeAll dest rs') gs'' ∧
          ∀ ord, Orders n ord → ∃ maps, getPartition gs'' ord = .ok maps ∧
            TellsPlaces (allVerts ins) (fun v => ranks.getD (own v) 0) (placeAll dest rs') n maps := by
  obtain ⟨gr, I, GH, e0, hd0⟩ := setupBare_spec h co
  have hG := h.wf co
  have hd := fun p hp => (hd0 p hp).2
  obtain ⟨dest, hlt, hch, gr', I', GH', e2, hd'⟩ := split_spec (n := n) hG hd false
    (fun p hp => by rw [(hd0 p hp).1]; rfl) hs hpm
  refine ⟨_, _, dest, e0, e2, ?_, ?_⟩
  · intro p hp
    have hp' : p < ins.length := by simpa using hp
    simp only [List.getElem_map, List.getElem_range]
    exact ⟨_, gids_rep (plain_rep (hd p hp')).core.v, hch p hp'⟩
  · intro rs' hr'
    have hG' := withOO_wf hG (splitOO (startG es ins own co) ranks own false)
    obtain ⟨hG'', gr'', I'', GH'', e3, hd''⟩ := migrateRounds_spec rs'
      ⟨hG'.some_vertex, hG'.nodup, hG'.ids, hG'.ne, hG'.pins, hlt⟩ hd' hr'
    refine ⟨_, e3, shows_done hG'' hd'', fun ord ho => ?_⟩
    exact partition_done hG'' hd'' (fun v hv => ⟨rfl, by
      have h1 := hG.own v hv
      have hl := hs.count
      show ranks.getD (own v) 0 < n
      rw [getD_rank (by omega)]
      exact hs.ranks_lt _ (List.getElem_mem _)⟩) ho

/-- **C55** fails when the original owners were recorded before the split (as `balance` does) and a part has another
rank in the large communicator: `getPartition` does not tell that rank about any vertex that started on the part; it
tells the rank with the number the part had in the small communicator. -/
theorem c55_wrong_rank (h : Start es ins own owns o1 o2) (co : Option (Gid → Coord))
    (hs : SplitOk n ins.length ranks meth co.isSome s) (pm : Partitioner)
    (hpm : PartitionerOk pm) {ord : Nat → List Nat} (ho : Orders n ord) {p q : Nat} (hp : p < ins.length)
    (hq : ranks[p]? = some q) (hne : q ≠ p) {v : Gid} (hv : v ∈ ins[p].verts) :
    ∃ gs gs' maps mq mp, setupAll ins co owns o1 o2 = .ok gs ∧ split n ranks gs meth s pm = .ok gs' ∧
      getPartition gs' ord = .ok maps ∧ maps[q]? = some mq ∧ mq v = none ∧ maps[p]? = some mp ∧ mp v ≠ none := by
  obtain ⟨gs0, gs, gs', dest, e0, e1, e2, -, hrest⟩ := c54_split_partial h co [] trivial hs pm hpm
  obtain ⟨gs'', e3, -, hm⟩ := hrest [] trivial
  obtain ⟨maps, e4, hlen, ht⟩ := hm ord ho
  have heq : gs0 = gs := by simpa [migrateRounds] using e1
  have heq' : gs' = gs'' := by simpa [migrateRounds] using e3
  subst heq; subst heq'
  have hle := ranks_le hs.count hs.distinct hs.ranks_lt
  have hqn := hs.ranks_lt q (List.mem_of_getElem? hq)
  have hown := h.dist.verts p hp v hv
  have hV : v ∈ allVerts ins := (allVerts_own h.dist.verts).mpr ⟨by omega, by simpa only [hown] using hv⟩
  refine ⟨gs0, gs', maps, maps[q]'(by omega), maps[p]'(by omega), e0, e2, e4, List.getElem?_eq_getElem _, ?_,
    List.getElem?_eq_getElem _, ?_⟩
  · rw [ht q (by omega), if_neg (by rintro ⟨-, h2⟩; omega)]
  · rw [ht p (by omega), if_pos ⟨hV, hown⟩]; simp

end

end Verif.Part
