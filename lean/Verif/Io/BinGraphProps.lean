import Verif.Io.BinCsr
import Verif.Agi.Residence
import Verif.Agi.Query
/-!
# C50: the graph built from a binary edge list

Specification: rank `me` has the vertices `idsOf owner me n` and the edges of the file whose source it owns; the neighbours
of vertex `v` reported by `adjacent` are the destinations of the edges of the file with source `v`.
-/
namespace Verif.Io
open Verif.Agi

section
variable (owner : Nat → Nat) (me : Nat)

/-- the vertices of rank `me` in the order of their labels -/
def labels (F : List (Nat × Nat)) : List Gid := firsts owner me (flat F)

/-- the destinations of the edges `F`, by label of the source -/
def dests (nl : Nat) (F : List (Nat × Nat)) : List Nat :=
  (List.range nl).flatMap (fun u => (F.filter (fun e => (labels owner me F).idxOf (e.1 : Int) == u)).map (·.2))

/-- the offset of row `u` -/
def rowOff (F : List (Nat × Nat)) (u : Nat) : Nat :=
  offs (fun u => (F.filter (fun e => (labels owner me F).idxOf (e.1 : Int) == u)).length) u

theorem countLocal_eq (n : Nat) :
    countLocal (me : Int) (Mem.ofList ((List.range n).map (fun i => (owner i : Int)))) n = .ok (idsOf owner me n).length := by
  unfold countLocal
  obtain ⟨s, e, hs⟩ := rangeM_inv (fun c i => do
    let r ← (Mem.ofList ((List.range n).map (fun i => (owner i : Int)))).load i
    return if r = (me : Int) then c + 1 else c)
    (fun k c => c = (idsOf owner me k).length) n (by
      intro k c hk hc
      rw [rankAt owner hk, Outcome.bind_ok]
      refine ⟨_, rfl, ?_⟩
      unfold idsOf at hc ⊢
      rw [List.range_succ, List.filter_append, List.length_append, hc]
      by_cases h : owner k = me
      · rw [if_pos (by rw [h]), List.filter_cons_of_pos (by simpa using h)]; rfl
      · rw [if_neg (by exact_mod_cast h), List.filter_cons_of_neg (by simpa using h)]; rfl) 0 rfl
  rw [e, hs]

theorem bkt_map {α : Type} (u : Nat) (F : List (Nat × Nat)) (f : Nat × Nat → Nat) (h : Nat × Nat → α) :
    bkt u (F.map (fun e => (f e, h e))) = (F.filter (fun e => f e == u)).map h := by
  unfold bkt
  rw [List.filter_map, List.map_map]
  rfl

theorem mem_labels {F : List (Nat × Nat)} {e : Nat × Nat} (he : e ∈ F) (ho : owner e.1 = me) : (e.1 : Int) ∈ labels owner me F :=
  (mem_firsts owner me _ _).mpr ⟨e.1, mem_flat.mpr ⟨e, he, Or.inl rfl⟩, ho, rfl⟩

theorem mem_labels' {F : List (Nat × Nat)} {e : Nat × Nat} (he : e ∈ F) (ho : owner e.2 = me) : (e.2 : Int) ∈ labels owner me F :=
  (mem_firsts owner me _ _).mpr ⟨e.2, mem_flat.mpr ⟨e, he, Or.inr rfl⟩, ho, rfl⟩

theorem labels_le {n : Nat} {F : List (Nat × Nat)} (hF : ∀ e ∈ F, owner e.1 = me ∧ e.1 < n ∧ e.2 < n) :
    (labels owner me F).length ≤ (idsOf owner me n).length := by
  apply firsts_length_le
  intro x hx
  obtain ⟨e, he, h⟩ := mem_flat.mp hx
  have := hF e he
  rcases h with rfl | rfl
  · exact this.2.1
  · exact this.2.2

theorem dests_length {n : Nat} {F : List (Nat × Nat)} (hF : ∀ e ∈ F, owner e.1 = me ∧ e.1 < n ∧ e.2 < n) :
    (dests owner me (idsOf owner me n).length F).length = F.length := by
  have hkeys : ∀ p ∈ F.map (fun e => ((labels owner me F).idxOf (e.1 : Int), e.2)), p.1 < (idsOf owner me n).length := by
    intro p hp
    obtain ⟨e, he, rfl⟩ := List.mem_map.mp hp
    exact Nat.lt_of_lt_of_le (List.idxOf_lt_length_of_mem (mem_labels owner me he (hF e he).1)) (labels_le owner me hF)
  have h := bkt_total _ _ hkeys
  rw [List.length_map] at h
  rw [← h]
  unfold dests offs
  rw [List.length_flatMap]
  congr 1
  apply List.map_congr_left
  intro u hu
  rw [bkt_map u F (fun e => (labels owner me F).idxOf (e.1 : Int)) (·.2)]

theorem mem_dests {nl : Nat} {F : List (Nat × Nat)} {d : Nat} (h : d ∈ dests owner me nl F) : ∃ e ∈ F, e.2 = d := by
  unfold dests at h
  obtain ⟨u, -, h⟩ := List.mem_flatMap.mp h
  obtain ⟨e, he, rfl⟩ := List.mem_map.mp h
  exact ⟨e, (List.mem_filter.mp he).1, rfl⟩

/-- everything up to the loop over the ghosts -/
theorem createDistCsr_eq (P m : Nat) {n : Nat} {F : List (Nat × Nat)} (hF : ∀ e ∈ F, owner e.1 = me ∧ e.1 < n ∧ e.2 < n) :
    ∃ deg : Mem Nat, (∀ k, k ≤ (idsOf owner me n).length → deg[k]? = some (some (rowOff owner me F k))) ∧
      createDistCsr P me n m (Mem.ofList ((List.range n).map (fun i => (owner i : Int)))) (Mem.ofList (flat (F.map cast2))) =
      (do
        let gh ← (List.range (dests owner me (idsOf owner me n).length F).length).foldlM (ghostStep (idsOf owner me n).length)
          ⟨Mem.ofList ((dests owner me (idsOf owner me n).length F).map (labOf owner me (labels owner me F))), lookup (labels owner me F),
            (idsOf owner me n).length, []⟩
        let os ← ghostOwners (Mem.ofList ((List.range n).map (fun i => (owner i : Int)))) gh.ids
        return binGraphOf P me n (idsOf owner me n).length (binEdges m F.length deg gh.edges)
          (Mem.ofList (labels owner me F) ++ Mem.alloc ((idsOf owner me n).length - (labels owner me F).length)) gh os) := by
  set nl := (idsOf owner me n).length with hnl
  set ranks : Mem Int := Mem.ofList ((List.range n).map (fun i => (owner i : Int))) with hranks
  have hxs : ∀ x ∈ flat F, x < n := by
    intro x hx
    obtain ⟨e, he, h⟩ := mem_flat.mp hx
    have := hF e he
    rcases h with rfl | rfl
    · exact this.2.1
    · exact this.2.2
  have hcast : flat (F.map cast2) = (flat F).map Int.ofNat := flat_map Int.ofNat F
  have hrel := relabel_spec owner me hxs
  have hlab : (flat F).map (labOf owner me (labels owner me F)) =
      flat ((F.map (fun e => ((labels owner me F).idxOf (e.1 : Int), labOf owner me (labels owner me F) e.2))).map
        (fun p => ((p.1 : Int), p.2))) := by
    rw [← flat_map, List.map_map]
    congr 1
    apply List.map_congr_left
    intro e he
    have : labOf owner me (labels owner me F) e.1 = ((labels owner me F).idxOf (e.1 : Int) : Int) := by
      rw [labOf, if_pos (hF e he).1]
    rw [this]
    rfl
  obtain ⟨deg, hcsr, hdeg⟩ := csrRows_spec nl
    (F.map (fun e => ((labels owner me F).idxOf (e.1 : Int), labOf owner me (labels owner me F) e.2))) (by
      intro p hp
      obtain ⟨e, he, rfl⟩ := List.mem_map.mp hp
      exact Nat.lt_of_lt_of_le (List.idxOf_lt_length_of_mem (mem_labels owner me he (hF e he).1)) (labels_le owner me hF))
  refine ⟨deg, ?_, ?_⟩
  · intro k hk
    rw [hdeg k hk]
    unfold rowOff
    congr 3
    funext u
    rw [bkt_map u F (fun e => (labels owner me F).idxOf (e.1 : Int)) (fun e => labOf owner me (labels owner me F) e.2), List.length_map]
  · unfold createDistCsr
    rw [countLocal_eq, Outcome.bind_ok]
    have hel : (Mem.ofList (flat (F.map cast2))).length / 2 = F.length := by
      simp [Mem.ofList, flat_length]
    simp only [hel]
    rw [hcast, show 2 * F.length = (flat F).length by rw [flat_length], hrel, Outcome.bind_ok]
    simp only
    rw [show firsts owner me (flat F) = labels owner me F from rfl, hlab]
    rw [List.length_map] at hcsr
    rw [hcsr, Outcome.bind_ok]
    simp only
    rw [dests_length owner me hF]
    have hD : (List.range nl).flatMap (fun u => bkt u (F.map (fun e => ((labels owner me F).idxOf (e.1 : Int), labOf owner me (labels owner me F) e.2)))) =
        (dests owner me nl F).map (labOf owner me (labels owner me F)) := by
      unfold dests
      rw [List.map_flatMap]
      congr 1
      funext u
      rw [bkt_map u F (fun e => (labels owner me F).idxOf (e.1 : Int)) (fun e => labOf owner me (labels owner me F) e.2), List.map_map]
      rfl
    rw [hD]

theorem ghostOwners_eq {n : Nat} {ids : List Gid} (h : ∀ z ∈ ids, 0 ≤ z ∧ z < n) :
    ghostOwners (Mem.ofList ((List.range n).map (fun i => (owner i : Int)))) ids =
      .ok (Mem.ofList (ids.map (fun z => (owner z.toNat : Int)))) := by
  unfold ghostOwners
  have : ids.mapM (fun v => do
      let i ← toIdx v
      (Mem.ofList ((List.range n).map (fun i => (owner i : Int)))).load i) = .ok (ids.map (fun z => (owner z.toNat : Int))) := by
    apply mapM_ok
    intro z hz
    obtain ⟨h1, h2⟩ := h z hz
    rw [toIdx, if_pos h1, Outcome.bind_ok, rankAt owner (by omega)]
  rw [this]
  rfl

theorem labOf_range {n : Nat} {F : List (Nat × Nat)} (hF : ∀ e ∈ F, owner e.1 = me ∧ e.1 < n ∧ e.2 < n) {d : Nat}
    (hd : d ∈ dests owner me (idsOf owner me n).length F) :
    0 ≤ labOf owner me (labels owner me F) d ∧ labOf owner me (labels owner me F) d < n := by
  obtain ⟨e, he, rfl⟩ := mem_dests owner me hd
  obtain ⟨-, -, h2⟩ := hF e he
  unfold labOf
  split
  · rename_i ho
    have h3 := List.idxOf_lt_length_of_mem (mem_labels' owner me he ho)
    have h4 := labels_le owner me hF
    have h5 : (idsOf owner me n).length ≤ n := by
      unfold idsOf
      exact Nat.le_trans (List.length_filter_le _ _) (by simp)
    omega
  · omega

/-- the graph always exists; its counts and offsets are those of the file -/
theorem dist_total (P m : Nat) {n : Nat} {F : List (Nat × Nat)} (hF : ∀ e ∈ F, owner e.1 = me ∧ e.1 < n ∧ e.2 < n) :
    ∃ g et, createDistCsr P me n m (Mem.ofList ((List.range n).map (fun i => (owner i : Int)))) (Mem.ofList (flat (F.map cast2))) = .ok g ∧
      g.numLocal = (idsOf owner me n).length ∧ g.globalVerts = n ∧ g.numTypes = 1 ∧ g.types[0]? = some (some et) ∧
      et.numEdges = F.length ∧ et.globalEdges = (m : Int) ∧
      g.localUnmap = Mem.ofList (labels owner me F) ++ Mem.alloc ((idsOf owner me n).length - (labels owner me F).length) ∧
      ∀ k, k ≤ (idsOf owner me n).length → et.degreeList[k]? = some (some (rowOff owner me F k)) := by
  obtain ⟨deg, hdeg, e⟩ := createDistCsr_eq owner me P m hF
  rw [e]
  have ht := ghost_total (idsOf owner me n).length
    ((dests owner me (idsOf owner me n).length F).map (labOf owner me (labels owner me F))) (lookup (labels owner me F))
  rw [List.length_map] at ht
  obtain ⟨gh, e2, -, hids⟩ := ht
  rw [e2, Outcome.bind_ok, ghostOwners_eq owner (by
    intro z hz
    obtain ⟨d, hd, rfl⟩ := List.mem_map.mp (hids z hz)
    exact labOf_range owner me hF hd), Outcome.bind_ok]
  exact ⟨_, binEdges m F.length deg gh.edges, rfl, rfl, rfl, rfl, rfl, rfl, rfl, rfl, hdeg⟩

/-- the neighbours of a vertex of a traditional graph, from its edges -/
theorem yields_adj_edges {g : Graph} (hyp : g.isHyper = false) (t : Nat) : ∀ (ls : List Nat) (ds : List Nat) (it : AdjIt),
    it.isH = false → ls.length = ds.length →
    (∀ k (h1 : k < ls.length) (h2 : k < ds.length), g.vOf (g.getEdge ls[k] t) = .ok (getVertex ds[k])) →
    Yields g.iterEdge it.eitr (ls.map (fun l => g.getEdge l t)) → Yields g.iterAdj it (ds.map getVertex) := by
  intro ls
  induction ls with
  | nil =>
    intro ds it hH hlen _ hy
    have : ds = [] := by cases ds with | nil => rfl | cons a b => simp at hlen
    subst this
    obtain ⟨it', hs⟩ := hy
    refine ⟨{ it with eitr := it', edge := 0 }, ?_⟩
    unfold Graph.iterAdj
    rw [if_neg (by simp [hH]), hs, Outcome.bind_ok]
    simp only [Graph.vOf, hyp]
    rfl
  | cons l ls ih =>
    intro ds it hH hlen hv hy
    cases ds with
    | nil => simp at hlen
    | cons d ds =>
      obtain ⟨-, it', hs, hy'⟩ := hy
      refine ⟨by simp [getVertex], { it with eitr := it', edge := g.getEdge l t }, ?_, ?_⟩
      · unfold Graph.iterAdj
        rw [if_neg (by simp [hH]), hs, Outcome.bind_ok]
        dsimp only
        have := hv 0 (by simp) (by simp)
        simp only [List.getElem_cons_zero] at this
        rw [this]
        rfl
      · refine ih ds _ hH (by simpa using hlen) ?_ hy'
        intro k h1 h2
        have := hv (k + 1) (by simpa using h1) (by simpa using h2)
        simpa using this

theorem flatMap_block {α : Type} (B : Nat → List α) : ∀ (n u : Nat), u < n → ∀ k (h : k < (B u).length),
    ((List.range n).flatMap B)[offs (fun u => (B u).length) u + k]? = some (B u)[k]
  | 0, u, hu, _, _ => by omega
  | n + 1, u, hu, k, h => by
    have hl : ∀ n, ((List.range n).flatMap B).length = offs (fun u => (B u).length) n := by
      intro n; unfold offs; rw [List.length_flatMap]
    rw [List.range_succ, List.flatMap_append, List.flatMap_singleton]
    by_cases hun : u < n
    · have h1 := offs_succ (fun u => (B u).length) u
      have h2 := offs_mono (fun u => (B u).length) (show u + 1 ≤ n by omega)
      rw [List.getElem?_append_left (by rw [hl]; omega)]
      exact flatMap_block B n u hun k h
    · have : u = n := by omega
      subst this
      rw [List.getElem?_append_right (by rw [hl]; omega), hl, Nat.add_sub_cancel_left, List.getElem?_eq_getElem h]

/-- the row of the vertex with label `u` holds the edges of that vertex -/
theorem row_filter {F : List (Nat × Nat)} (hF : ∀ e ∈ F, owner e.1 = me) {u : Nat} (hu : u < (labels owner me F).length) :
    F.filter (fun e => (labels owner me F).idxOf (e.1 : Int) == u) =
      F.filter (fun e => (e.1 : Int) == (labels owner me F)[u]) := by
  apply List.filter_congr
  intro e he
  have hm := mem_labels owner me he (hF e he)
  have hnd : (labels owner me F).Nodup := nodup_firsts owner me _
  by_cases h : (e.1 : Int) = (labels owner me F)[u]
  · rw [h, hnd.idxOf_getElem]; simp
  · have : (labels owner me F).idxOf (e.1 : Int) ≠ u := by
      intro hc
      apply h
      subst hc
      rw [List.getElem_idxOf]
    simp [h, this]

/-- what the finished graph looks like when the ghost loop does its work -/
theorem dist_good (P m : Nat) {n : Nat} {F : List (Nat × Nat)} (hF : ∀ e ∈ F, owner e.1 = me ∧ e.1 < n ∧ e.2 < n)
    (hocc : ∀ i, i < n → owner i = me → i ∈ flat F)
    (hgood : ∀ e ∈ F, owner e.2 = me → (((labels owner me F).idxOf (e.2 : Int) : Nat) : Int) ∈ labels owner me F) :
    ∃ g G, createDistCsr P me n m (Mem.ofList ((List.range n).map (fun i => (owner i : Int)))) (Mem.ofList (flat (F.map cast2))) = .ok g ∧
      g.self = (me : Int) ∧ VRep g (labels owner me F) G ∧ ORep g G (fun z => (owner z.toNat : Int)) ∧
      (labels owner me F).Perm ((idsOf owner me n).map Int.ofNat) ∧
      (∀ u (hu : u < (labels owner me F).length), g.degreeV (getVertex u) 0 =
        .ok ((F.filter (fun e => (e.1 : Int) == (labels owner me F)[u])).length : Int) ∧
        YieldsFrom (g.adjacent (getVertex u) 0) g.iterAdj
          ((F.filter (fun e => (e.1 : Int) == (labels owner me F)[u])).map
            (fun e => getVertex ((labels owner me F ++ G).idxOf (e.2 : Int))))) ∧
      ∀ e ∈ F, (e.2 : Int) ∈ labels owner me F ++ G := by
  set L := labels owner me F with hL
  have hnd : L.Nodup := nodup_firsts owner me _
  have hperm : L.Perm ((idsOf owner me n).map Int.ofNat) := by
    refine (List.perm_ext_iff_of_nodup hnd ?_).mpr ?_
    · refine List.Nodup.map ?_ (List.nodup_range.filter _)
      intro a b h; exact Int.ofNat.inj h
    · intro z
      rw [hL, labels, mem_firsts]
      simp only [idsOf, List.mem_map, List.mem_filter, List.mem_range]
      constructor
      · rintro ⟨x, hx, ho, rfl⟩
        obtain ⟨e, he, h⟩ := mem_flat.mp hx
        have := hF e he
        exact ⟨x, ⟨by rcases h with rfl | rfl <;> omega, by simpa using ho⟩, rfl⟩
      · rintro ⟨x, ⟨h1, h2⟩, rfl⟩
        have ho : owner x = me := by simpa using h2
        exact ⟨x, hocc x h1 ho, ho, rfl⟩
  have hlen : (idsOf owner me n).length = L.length := by rw [hperm.length_eq, List.length_map]
  obtain ⟨deg, hdeg, e⟩ := createDistCsr_eq owner me P m hF
  rw [e, hlen]
  rw [hlen] at hdeg
  obtain ⟨G, e2, hG, hGn⟩ := ghost_spec owner me L (by
      intro z hz
      obtain ⟨x, -, ho, rfl⟩ := (mem_firsts owner me _ _).mp hz
      exact ⟨x, rfl, ho⟩) (dests owner me L.length F) (by
      intro d hd ho
      obtain ⟨e, he, rfl⟩ := mem_dests owner me hd
      exact mem_labels' owner me he ho) (by
      intro d hd ho
      obtain ⟨e, he, rfl⟩ := mem_dests owner me hd
      exact hgood e he ho)
  rw [← hL, e2, Outcome.bind_ok]
  simp only
  have hGr : ∀ z ∈ G, 0 ≤ z ∧ z < n := by
    intro z hz
    obtain ⟨d, hd, -, rfl⟩ := (hG z).mp hz
    obtain ⟨e, he, rfl⟩ := mem_dests owner me hd
    have := (hF e he).2.2
    omega
  rw [ghostOwners_eq owner hGr, Outcome.bind_ok]
  have hmemD : ∀ e ∈ F, e.2 ∈ dests owner me L.length F := by
    intro e he
    unfold dests
    have := List.idxOf_lt_length_of_mem (mem_labels owner me he (hF e he).1)
    exact List.mem_flatMap.mpr ⟨L.idxOf (e.1 : Int), List.mem_range.mpr this,
      List.mem_map.mpr ⟨e, List.mem_filter.mpr ⟨he, by simp [hL]⟩, rfl⟩⟩
  have hknown : ∀ e ∈ F, (e.2 : Int) ∈ L ++ G := by
    intro e he
    by_cases ho : owner e.2 = me
    · exact List.mem_append_left _ (mem_labels' owner me he ho)
    · exact List.mem_append_right _ ((hG _).mpr ⟨e.2, hmemD e he, ho, rfl⟩)
  have hndLG : (L ++ G).Nodup := by
    refine List.nodup_append.mpr ⟨hnd, hGn, ?_⟩
    intro a ha b hb hab
    obtain ⟨x, -, ho, rfl⟩ := (mem_firsts owner me _ _).mp ha
    obtain ⟨d, -, ho', rfl⟩ := (hG b).mp hb
    have : x = d := by exact_mod_cast hab
    rw [this] at ho; exact ho' ho
  set gh : GhostScan := ⟨Mem.ofList ((dests owner me L.length F).map (fun d : Nat => (((L ++ G).idxOf (d : Int) : Nat) : Int))),
    lookup (L ++ G), L.length + G.length, G⟩ with hgh
  set et := binEdges m F.length deg gh.edges with het
  set g := binGraphOf P me n L.length et (Mem.ofList L ++ Mem.alloc (L.length - L.length)) gh
    (Mem.ofList (G.map (fun z => (owner z.toNat : Int)))) with hg
  have hslot : g.slot 0 = .ok et := rfl
  have hrow : ∀ u, u < L.length → rowOff owner me F (u + 1) = rowOff owner me F u +
      (F.filter (fun e => L.idxOf (e.1 : Int) == u)).length := by
    intro u hu; unfold rowOff; rw [offs_succ]
  have hdegv : ∀ u (hu : u < L.length), g.degreeV (getVertex u) 0 =
      .ok ((F.filter (fun e => L.idxOf (e.1 : Int) == u)).length : Int) := by
    intro u hu
    unfold Graph.degreeV
    rw [hslot, Outcome.bind_ok]
    simp only [getVertex, vidx, fromPtr, if_neg (Nat.succ_ne_zero _), Nat.add_sub_cancel, Outcome.ofOption_some, Outcome.bind_ok]
    have h1 : et.degreeList[u]? = some (some (rowOff owner me F u)) := hdeg u (by omega)
    have h2 : et.degreeList[u + 1]? = some (some (rowOff owner me F (u + 1))) := hdeg (u + 1) (by omega)
    rw [Mem.load_ok h1, Mem.load_ok h2, Outcome.bind_ok, Outcome.bind_ok, hrow u hu]
    show Outcome.ok _ = _
    congr 1
    push_cast
    omega
  refine ⟨g, G, rfl, rfl, ?_, ?_, hperm, ?_, hknown⟩
  · refine ⟨rfl, rfl, hndLG, rfl, ?_, ?_⟩
    · show Mem.ofList L ++ Mem.alloc (L.length - L.length) = _
      simp [Mem.alloc]
    · show (_ ∧ (if G.length = 0 then none else some (Mem.ofList G)) = none) ∨ (if G.length = 0 then none else some (Mem.ofList G)) = _
      by_cases h0 : G = []
      · left; simp [h0]
      · right; rw [if_neg (by simpa using h0)]
  · show _ ∨ _
    by_cases h0 : G = []
    · left
      refine ⟨h0, ?_⟩
      show (if G.length = 0 then none else some _) = _
      rw [if_pos (by simp [h0])]
    · right
      show (if G.length = 0 then none else some _) = _
      rw [if_neg (by simpa using h0)]
  · intro u hu
    rw [hdegv u hu]
    have hfil : F.filter (fun e => L.idxOf (e.1 : Int) == u) = F.filter (fun e => (e.1 : Int) == L[u]) :=
      row_filter owner me (fun e he => (hF e he).1) hu
    rw [← hfil]
    refine ⟨rfl, ?_⟩
    set R := F.filter (fun e => L.idxOf (e.1 : Int) == u) with hR
    have hedges : g.edges (getVertex u) 0 = .ok ⟨g.getEdge (rowOff owner me F u) 0,
        1 + 0 + g.numTypes * (rowOff owner me F u + R.length), g.numTypes, false⟩ := by
      unfold Graph.edges
      rw [hslot, Outcome.bind_ok, hdegv u hu]
      simp only [getVertex, vidx, fromPtr, if_neg (Nat.succ_ne_zero _), Nat.add_sub_cancel, Outcome.ofOption_some, Outcome.bind_ok]
      have h1 : et.degreeList[u]? = some (some (rowOff owner me F u)) := hdeg u (by omega)
      rw [Mem.load_ok h1, Outcome.bind_ok]
      simp only [mkEdgeIt, Graph.getEdge, Outcome.pure_eq]
      congr 2
      · omega
    have hnt : g.numTypes = 1 := rfl
    have hy : Yields g.iterEdge ⟨g.getEdge (rowOff owner me F u) 0,
        1 + 0 + g.numTypes * (rowOff owner me F u + R.length), g.numTypes, false⟩
        ((List.range' (rowOff owner me F u) R.length).map (fun l => g.getEdge l 0)) := by
      refine yields_edgeIt false (by rw [hnt]; omega) _ _ _ rfl ?_ (fun k => getEdge_pos _ _ _)
      intro k hk it h1 h2 h3 h4
      unfold Graph.iterEdge
      rw [if_neg (by rw [h2, h1]; exact getEdge_lt (by omega) (by rw [hnt]; omega)), if_neg (by
        rw [show g.isHyper = false from rfl]; simp), h1]
    unfold Graph.adjacent
    rw [hedges, Outcome.bind_ok]
    refine ⟨_, rfl, ?_⟩
    have := yields_adj_edges (g := g) rfl 0 (List.range' (rowOff owner me F u) R.length)
      (R.map (fun e => (L ++ G).idxOf (e.2 : Int))) ⟨g.isHyper, 0, ⟨g.getEdge (rowOff owner me F u) 0,
        1 + 0 + g.numTypes * (rowOff owner me F u + R.length), g.numTypes, false⟩, none, 0⟩ rfl (by simp) (by
        intro k h1 h2
        rw [List.getElem_range', Nat.one_mul]
        rw [List.length_range'] at h1
        unfold Graph.vOf
        rw [if_neg (by rw [show g.isHyper = false from rfl]; simp), if_neg (getEdge_pos _ _ _),
          decode_getEdge (by rw [hnt]; omega), Outcome.bind_ok]
        simp only
        rw [hslot, Outcome.bind_ok]
        have hblk := flatMap_block (fun u => (F.filter (fun e => L.idxOf (e.1 : Int) == u)).map (·.2)) L.length u hu k
          (by rw [List.length_map]; exact h1)
        simp only [List.length_map] at hblk
        have hent : et.edgeList[rowOff owner me F u + k]? = some (some ((L ++ G).idxOf (R[k].2 : Int))) := by
          show ((Mem.ofList ((dests owner me L.length F).map
            (fun d : Nat => (((L ++ G).idxOf (d : Int) : Nat) : Int)))).map (Option.map Int.toNat))[rowOff owner me F u + k]? = _
          rw [List.getElem?_map, Mem.ofList, List.getElem?_map, List.getElem?_map]
          have : (dests owner me L.length F)[rowOff owner me F u + k]? = some R[k].2 := by
            have : R[k].2 = (R.map (·.2))[k]'(by rw [List.length_map]; exact h1) := by rw [List.getElem_map]
            rw [this]
            exact hblk
          rw [this]
          simp
        rw [Mem.load_ok hent, Outcome.bind_ok, List.getElem_map]
        rfl) hy
    rw [List.map_map] at this
    exact this

end

/-! ## C50 -/

/-- the edges rank `me` gets -/
def edgesOf (owner : Nat → Nat) (me : Nat) (es : List (Nat × Nat)) : List (Nat × Nat) := es.filter (fun e => owner e.1 == me)

theorem edgesOf_spec {owner : Nat → Nat} {me : Nat} {es : List (Nat × Nat)} :
    ∀ e ∈ edgesOf owner me es, owner e.1 = me ∧ e.1 < numIds es ∧ e.2 < numIds es := by
  intro e he
  obtain ⟨h1, h2⟩ := List.mem_filter.mp he
  exact ⟨by simpa using h2, lt_numIds (mem_flat.mpr ⟨e, h1, Or.inl rfl⟩), lt_numIds (mem_flat.mpr ⟨e, h1, Or.inr rfl⟩)⟩

theorem edgesOf_filter {owner : Nat → Nat} {me : Nat} {es : List (Nat × Nat)} {z : Int} {x : Nat} (hx : z = (x : Int))
    (hox : owner x = me) : (edgesOf owner me es).filter (fun e => (e.1 : Int) == z) = es.filter (fun e => (e.1 : Int) == z) := by
  unfold edgesOf
  rw [List.filter_filter]
  apply List.filter_congr
  intro e he
  by_cases h : (e.1 : Int) = z
  · have h' : (e.1 : Int) = (x : Int) := h.trans hx
    have : e.1 = x := by exact_mod_cast h'
    simp [h, this, hox]
  · simp [h]

theorem createBinGraph_eq (little : Bool) (es : List (Nat × Nat)) (rest : List Nat) (hrest : rest.length < 8)
    (hid : ∀ e ∈ es, e.1 < 2147483648 ∧ e.2 < 2147483648) (P : Nat) (hP : 0 < P) (given : Option (List Int))
    (owner : Nat → Nat) (ho : Assigns P (numIds es) owner given) :
    ∃ gs : List Graph, createBinGraph little (edgeFile little es rest) P given = .ok gs ∧ gs.length = P ∧
      ∀ me (h : me < P) g, createDistCsr P me (numIds es) es.length
        (Mem.ofList ((List.range (numIds es)).map (fun i => (owner i : Int)))) (Mem.ofList (flat ((edgesOf owner me es).map cast2))) = .ok g →
        gs[me]? = some g := by
  obtain ⟨-, -, -, hl⟩ := c43_exchange little es rest hrest hid P hP given owner ho
  have hm : (edgeFile little es rest).length / 8 = es.length := by
    unfold edgeFile; rw [List.length_append, blocks_length]; omega
  have hall : ∀ me, ∃ g, me < P → createDistCsr P me (numIds es) es.length
      (Mem.ofList ((List.range (numIds es)).map (fun i => (owner i : Int)))) (Mem.ofList (flat ((edgesOf owner me es).map cast2))) = .ok g := by
    intro me
    obtain ⟨g, -, h, -⟩ := dist_total owner me P es.length (edgesOf_spec (owner := owner) (me := me) (es := es))
    exact ⟨g, fun _ => h⟩
  choose g hg using hall
  refine ⟨(List.range P).map g, ?_, by simp, ?_⟩
  · unfold createBinGraph
    rw [hl, Outcome.bind_ok]
    simp only
    rw [hm]
    apply mapM_ok
    intro me hme
    have hme' := List.mem_range.mp hme
    rw [rd_some (getElem?_range_map P _ hme'), Outcome.bind_ok]
    exact hg me hme'
  · intro me h g' hg'
    rw [hg me h] at hg'
    rw [getElem?_range_map P _ h, Outcome.ok.inj hg']

/-- C50, what holds for every file: the loader succeeds on every rank; every rank has the vertices assigned to it, knows
the size of the whole graph, and has as many edges as the file has with a source on the rank; the vertices that occur in
its edges have the ids they should have, each once, and the right number of edges. -/
theorem c50_counts (little : Bool) (es : List (Nat × Nat)) (rest : List Nat) (hrest : rest.length < 8)
    (hid : ∀ e ∈ es, e.1 < 2147483648 ∧ e.2 < 2147483648) (P : Nat) (hP : 0 < P) (given : Option (List Int))
    (owner : Nat → Nat) (ho : Assigns P (numIds es) owner given) :
    ∃ gs : List Graph, createBinGraph little (edgeFile little es rest) P given = .ok gs ∧ gs.length = P ∧
      ∀ me, me < P → ∃ g et, gs[me]? = some g ∧ g.types[0]? = some (some et) ∧
        g.numLocal = (idsOf owner me (numIds es)).length ∧ g.globalVerts = numIds es ∧ et.globalEdges = (es.length : Int) ∧
        et.numEdges = (edgesOf owner me es).length ∧
        ∃ L : List Gid, L.Nodup ∧ (∀ z, z ∈ L ↔ ∃ x ∈ flat (edgesOf owner me es), owner x = me ∧ z = (x : Int)) ∧
          ∀ u (hu : u < L.length), g.globalID (getVertex u) = .ok L[u] ∧
            g.degreeV (getVertex u) 0 = .ok ((es.filter (fun e => (e.1 : Int) == L[u])).length : Int) := by
  obtain ⟨gs, e, hlen, hgs⟩ := createBinGraph_eq little es rest hrest hid P hP given owner ho
  refine ⟨gs, e, hlen, ?_⟩
  intro me hme
  obtain ⟨g, et, hg, h1, h2, h3, h4, h5, h6, h7, h8⟩ := dist_total owner me P es.length (edgesOf_spec (owner := owner) (me := me) (es := es))
  refine ⟨g, et, hgs me hme g hg, h4, h1, h2, h6, h5, labels owner me (edgesOf owner me es), nodup_firsts owner me _,
    mem_firsts owner me _, ?_⟩
  intro u hu
  have hle := labels_le owner me (edgesOf_spec (owner := owner) (me := me) (es := es))
  constructor
  · unfold Graph.globalID
    simp only [getVertex, vidx, fromPtr, if_neg (Nat.succ_ne_zero _), Nat.add_sub_cancel, Outcome.ofOption_some, Outcome.bind_ok]
    rw [if_neg (by rw [h1]; omega), h7]
    apply Mem.load_ok
    rw [List.getElem?_append_left (by simpa [Mem.ofList] using hu)]
    simp [Mem.ofList, hu]
  · unfold Graph.degreeV
    rw [Graph.slot_ok h4, Outcome.bind_ok]
    simp only [getVertex, vidx, fromPtr, if_neg (Nat.succ_ne_zero _), Nat.add_sub_cancel, Outcome.ofOption_some, Outcome.bind_ok]
    rw [Mem.load_ok (h8 u (by omega)), Mem.load_ok (h8 (u + 1) (by omega)), Outcome.bind_ok, Outcome.bind_ok]
    show Outcome.ok _ = _
    congr 1
    have hrow : rowOff owner me (edgesOf owner me es) (u + 1) = rowOff owner me (edgesOf owner me es) u +
        ((edgesOf owner me es).filter (fun e => (labels owner me (edgesOf owner me es)).idxOf (e.1 : Int) == u)).length := by
      unfold rowOff; rw [offs_succ]
    rw [hrow, row_filter owner me (fun e he => (edgesOf_spec e he).1) hu]
    have hf : (edgesOf owner me es).filter (fun e => (e.1 : Int) == (labels owner me (edgesOf owner me es))[u]) =
        es.filter (fun e => (e.1 : Int) == (labels owner me (edgesOf owner me es))[u]) := by
      obtain ⟨x, -, hox, hx⟩ := (mem_firsts owner me _ _).mp (List.getElem_mem hu)
      exact edgesOf_filter hx hox
    rw [hf]
    push_cast
    omega

/-- C50, the neighbours.  For every rank on which (1) every vertex of the rank occurs in an edge of the rank and (2) either
no edge joins two vertices of the rank or the rank has the ids `0 … k-1`: the vertices are those of the rank, each once, and
the neighbours of every vertex are the destinations of its edges in the file, in file order, with their owners.
Missing: parts where (1) or (2) fails, for which it is false (`c50_wrong_neighbour`, `c50_isolated_vertex_ub`). -/
theorem c50_neighbours_partial (little : Bool) (es : List (Nat × Nat)) (rest : List Nat) (hrest : rest.length < 8)
    (hid : ∀ e ∈ es, e.1 < 2147483648 ∧ e.2 < 2147483648) (P : Nat) (hP : 0 < P) (given : Option (List Int))
    (owner : Nat → Nat) (ho : Assigns P (numIds es) owner given) :
    ∃ gs : List Graph, createBinGraph little (edgeFile little es rest) P given = .ok gs ∧
      ∀ me, me < P → (∀ i, i < numIds es → owner i = me → i ∈ flat (edgesOf owner me es)) →
        ((∀ e ∈ es, owner e.1 = me → owner e.2 ≠ me) ∨ idsOf owner me (numIds es) = List.range (idsOf owner me (numIds es)).length) →
        ∃ g, gs[me]? = some g ∧ ∃ L : List Gid, L.Perm ((idsOf owner me (numIds es)).map Int.ofNat) ∧ g.numLocal = L.length ∧
          ∀ u (hu : u < L.length), g.globalID (getVertex u) = .ok L[u] ∧
            ∃ hs, YieldsFrom (g.adjacent (getVertex u) 0) g.iterAdj hs ∧
              hs.mapM g.globalID = .ok ((es.filter (fun e => (e.1 : Int) == L[u])).map (fun e => (e.2 : Int))) ∧
              hs.mapM g.owner = .ok ((es.filter (fun e => (e.1 : Int) == L[u])).map (fun e => (owner e.2 : Int))) := by
  obtain ⟨gs, e, hlen, hgs⟩ := createBinGraph_eq little es rest hrest hid P hP given owner ho
  refine ⟨gs, e, ?_⟩
  intro me hme hocc hcond
  set F := edgesOf owner me es with hFdef
  have hF := edgesOf_spec (owner := owner) (me := me) (es := es)
  have hgood : ∀ e ∈ F, owner e.2 = me → (((labels owner me F).idxOf (e.2 : Int) : Nat) : Int) ∈ labels owner me F := by
    intro e he ho2
    have hm := mem_labels' owner me he ho2
    have hlt := List.idxOf_lt_length_of_mem hm
    have hle : (labels owner me F).length ≤ _ := labels_le owner me hF
    rcases hcond with h | h
    · exact absurd ho2 (h e (List.mem_filter.mp he).1 (hF e he).1)
    · have hi : (labels owner me F).idxOf (e.2 : Int) ∈ idsOf owner me (numIds es) := by
        rw [h]; exact List.mem_range.mpr (by omega)
      obtain ⟨h1, h2⟩ := List.mem_filter.mp hi
      have ho3 : owner ((labels owner me F).idxOf (e.2 : Int)) = me := by simpa using h2
      exact (mem_firsts owner me _ _).mpr ⟨_, hocc _ (List.mem_range.mp h1) ho3, ho3, rfl⟩
  obtain ⟨g, G, hg, hself, hv, hor, hperm, hrows, hknown⟩ := dist_good owner me P es.length hF hocc hgood
  refine ⟨g, hgs me hme g hg, labels owner me F, hperm, hv.nl, ?_⟩
  intro u hu
  obtain ⟨-, hy⟩ := hrows u hu
  have hf : F.filter (fun e => (e.1 : Int) == (labels owner me F)[u]) =
      es.filter (fun e => (e.1 : Int) == (labels owner me F)[u]) := by
    obtain ⟨x, -, hox, hx⟩ := (mem_firsts owner me _ _).mp (List.getElem_mem hu)
    exact edgesOf_filter hx hox
  refine ⟨?_, _, hy, ?_, ?_⟩
  · have := globalID_idx hv (l := u) (by rw [List.length_append]; exact Nat.lt_of_lt_of_le hu (Nat.le_add_right _ _))
    rw [this, List.getElem_append_left hu]
  · rw [← hf, List.mapM_map]
    apply mapM_ok
    intro e he
    exact globalID_eq hv (hknown e (List.mem_filter.mp he).1)
  · rw [← hf, List.mapM_map]
    apply mapM_ok
    intro e he
    have hk := hknown e (List.mem_filter.mp he).1
    show g.owner _ = _
    rw [owner_eq hv hor hk]
    unfold ownerOf
    split
    · rename_i hmem
      obtain ⟨x, -, hox, hx⟩ := (mem_firsts owner me _ _).mp hmem
      have : e.2 = x := by exact_mod_cast hx
      rw [hself, this, hox]
    · rfl

/-- two ranks, vertices 0–3 and 4–5: the second rank gives vertex 4 the neighbour 1 although its edge goes to 5 -/
theorem c50_wrong_neighbour : (do
    let gs ← createBinGraph true (edgeFile true [(4, 5), (5, 4), (0, 1), (1, 4), (4, 1)] []) 2 none
    let g ← rd gs 1
    let it ← g.adjacent (getVertex 0) 0
    let (h, _) ← g.iterAdj it
    let a ← g.globalID (getVertex 0)
    let b ← g.globalID h
    return (a, b)) = .ok (4, 1) := by decide +kernel

/-- even on one rank: the only edge of the file is 5 → 6, the graph has 5 → 1, and 1 is a ghost -/
theorem c50_serial_wrong_neighbour : (do
    let gs ← createBinGraph true (edgeFile true [(5, 6)] []) 1 none
    let g ← rd gs 0
    let it ← g.adjacent (getVertex 0) 0
    let (h, _) ← g.iterAdj it
    let a ← g.globalID (getVertex 0)
    let b ← g.globalID h
    return (a, b, g.numGhost)) = .ok (5, 1, 1) := by decide +kernel

/-- the id of a vertex without edges is never written -/
theorem c50_isolated_vertex_ub : (do
    let gs ← createBinGraph true (edgeFile true [(0, 2)] []) 1 none
    let g ← rd gs 0
    g.globalID (getVertex 2)) = .ub := by decide +kernel

/-- non-vacuity: 2 ranks; on rank 0 the ids 0 … 2, edges among them and to 3, on rank 1 edges to rank 0 only -/
example : (∀ i, i < numIds [(2, 0), (0, 1), (1, 3), (3, 2)] → i / 3 = 0 → i ∈ flat (edgesOf (fun i => i / 3) 0 [(2, 0), (0, 1), (1, 3), (3, 2)])) ∧
    idsOf (fun i => i / 3) 0 4 = List.range 3 ∧ Assigns 2 4 (fun i => i / 3) none ∧
    (∀ e ∈ [(2, 0), (0, 1), (1, 3), (3, 2)], e.1 / 3 = 1 → e.2 / 3 ≠ 1) := by
  refine ⟨by decide +kernel, by decide +kernel, ?_, by decide +kernel⟩
  intro i _; rfl

end Verif.Io
