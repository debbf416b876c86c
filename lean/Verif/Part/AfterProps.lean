import Verif.Agi.MigWitness
import Verif.Agi.ValidProps
import Verif.Part.CompProps
import Verif.Part.MetricsProps
import Verif.Part.SecondProps
import Verif.Color.ColorProps
import Verif.Io.FileProps
import Verif.Part.DiffuseProps
/-!
# Property C75: a migrated graph is as good as a new one

For a hypergraph with one edge type and every sequence of migrations: what the functions that read a graph report afterwards, in
terms of the original graph and of where its vertices are now.  `placed` are the vertices of a part, `held` its hyperedges.
-/
namespace Verif.Agi
open Verif.Part

/-- the vertices now on part `p` -/
def placed (V : List Gid) (place : Gid → Nat) (p : Nat) : List Gid := V.filter (fun v => place v == p)

/-- the hyperedges with a vertex on part `p` -/
def held (es : List HEdge) (place : Gid → Nat) (p : Nat) : List HEdge :=
  es.filter (fun E => decide (∃ v ∈ E.pins, place v = p))

/-- the vertices of other parts that share a hyperedge with part `p` -/
def around (V : List Gid) (es : List HEdge) (place : Gid → Nat) (p : Nat) : List Gid :=
  V.filter (fun v => decide (place v ≠ p ∧ ∃ E ∈ held es place p, v ∈ E.pins))

/-- the parts are as good as new: what the functions that read a graph report on them is what they should for the hypergraph with
vertices `verts`, vertex weights `wt` and hyperedges `es`, whose vertices are where `place` says -/
structure AsNew (verts : List Gid) (es : List HEdge) (wt : Gid → Wgt) (n : Nat) (place : Gid → Nat) (gs : List Graph) : Prop where
  /-- `checkValidity` accepts the graph on every part -/
  valid : checkValidityAll gs 1 = .ok (List.replicate n true)
  /-- the edge loop visits the hyperedges of the part once each; `getResidence`, `isResidentOn`, `isCut` tell where the pins are -/
  residence : ∀ p (hp : p < gs.length), ∃ L : List HEdge, L.Perm (held es place p) ∧
        YieldsFrom (gs[p].edgeBegin 0) gs[p].iterEdge ((List.range L.length).map (fun k => gs[p].getEdge k 0)) ∧
        ∀ k (hk : k < L.length), ResidenceIs gs[p] (gs[p].getEdge k 0) L[k].pins (fun v => (place v : Int))
  /-- weights of the part: vertices, hyperedges, and with ghosts -/
  weights : ∀ p (hp : p < gs.length),
        getWeight gs[p] (-1) false = .ok ((placed verts place p).map wt).sum ∧
        (∀ cg, getWeight gs[p] 0 cg = .ok ((held es place p).map HEdge.w).sum) ∧
        (1 < n → getWeight gs[p] (-1) true =
          .ok (((placed verts place p).map wt).sum +
            ((around verts es place p).map wt).sum))
  /-- connected components -/
  components : ∀ (little : Bool), ∀ p (hp : p < gs.length), ∃ (V : List Gid) (L : List HEdge), V.Perm (placed verts place p) ∧
        L.Perm (held es place p) ∧
        countDisconnected gs[p] little = .ok ((components (L.map HEdge.pins) V : Int) - 1)
  /-- second adjacency of vertices and edges -/
  second : ∀ (compress : Bool) (ord : Handle → List Handle → List Handle) (ho : ∀ x l, (ord x l).Perm l),
      ∀ p (hp : p < gs.length), ∃ L : List HEdge, L.Perm (held es place p) ∧
        (∃ g', createVev gs[p] 0 compress ord = .ok g' ∧
          VevIs g' compress (placed verts place p)
            (fun v => L.flatMap (fun E => (List.replicate (E.pins.count v) E.pins).flatten))
            (fun v w => ∃ E ∈ es, v ∈ E.pins ∧ w ∈ E.pins)) ∧
        ∃ g'', createEve gs[p] 0 compress ord = .ok g'' ∧ ∀ k (hk : k < L.length), ∃ js : List Nat,
          (∀ fuel, js.length < fuel → visitEve g'' (g''.getEdge k 0) fuel = .ok (js.map (fun j => g''.getEdge j 0))) ∧
          (compress = true → js.Nodup ∧ ∀ j, j ∈ js ↔ j ≠ k ∧ ∃ hj : j < L.length, ∃ v ∈ L[k].pins, v ∈ L[j].pins ∧
            place v = p)
  /-- colourings, where no hyperedge is cut -/
  colour : ∀ (E : Color.Env) (hE : E.Ok), ∀ p (hp : p < gs.length), (∀ F ∈ held es place p, ∀ v ∈ F.pins, place v = p) →
        ∃ (V : List Gid) (L : List HEdge) (ce cv : List Nat), V.Perm (placed verts place p) ∧
          gs[p].localGids = .ok V ∧ L.Perm (held es place p) ∧
          Color.kokkosColoring E gs[p] ⟨false, 0⟩ = .ok (0, ce) ∧ ce.length = L.length ∧
          (∀ j k (hj : j < L.length) (hk : k < L.length), j ≠ k → (∃ v, v ∈ L[j].pins ∧ v ∈ L[k].pins) →
            ce.getD j 0 ≠ ce.getD k 0) ∧
          Color.kokkosColoring E gs[p] ⟨true, 0⟩ = .ok (0, cv) ∧ cv.length = V.length ∧
          ∀ j k (hj : j < V.length) (hk : k < V.length), j ≠ k → (∃ F ∈ es, V[j] ∈ F.pins ∧ V[k] ∈ F.pins) →
            cv.getD j 0 ≠ cv.getD k 0

section
variable {es : List HEdge} {ins : List Input} {own : Gid → Nat} {owns : List (GMap Part)} {o1 o2 : Nat → List Nat}

/-- what a part stores, as readers see it -/
theorem done_part {G : GG} {cur : Gid → Nat} {n p : Nat} {g : Graph} {i : Input} {gh : List Gid} (hG : G.WF n cur)
    (h : PartDone G cur n p g i gh) :
    i.verts.Perm (placed G.verts cur p) ∧ ∃ e, i.types = [e] ∧ e.WF true ∧ e.edges.Perm (held G.edges cur p) ∧
      CRep g true i.verts gh [e] := by
  refine ⟨?_, ?_⟩
  · unfold placed
    rw [List.perm_ext_iff_of_nodup h.nodup (hG.nodup.filter _)]
    intro v
    rw [h.inv.verts v, List.mem_filter, beq_iff_eq]
  · have hc := h.inv.rep.core
    rcases h.inv.shape with ⟨-, e, he, hperm⟩ | ⟨-, he, -⟩
    · rw [h.hyper, he] at hc
      have hw := h.inv.rep.core.wf e (by rw [he]; simp)
      rw [h.hyper] at hw
      exact ⟨e, he, hw, hperm, hc⟩
    · have := h.one
      rw [he] at this; simp at this

theorem valid_world {G : GG} {own : Gid → Nat} {n : Nat} {gs : List Graph} (hh : HoldsG G n own gs) :
    checkValidityAll gs 1 = .ok (List.replicate n true) := by
  obtain ⟨gr, I, GH, rfl, hG, hdn⟩ := hh
  have hhd := Io.done_hdist hG hdn
  have hw : World ((List.range n).map gr) ((List.range n).map I) (own) := by
    refine ⟨by simp, fun p hp hi => ?_⟩
    have hp' : p < n := by simpa using hp
    simp only [List.getElem_map, List.getElem_range, List.length_map, List.length_range]
    exact ⟨GH p, (hdn p hp').inv.rep⟩
  have := checkValidityAll_true hw hhd.dist (hdist_uniform hhd) (by simp) (by
    intro p hp
    have hp' : p < n := by simpa using hp
    simp only [List.getElem_map, List.getElem_range]
    refine ⟨?_, ?_⟩
    · rw [(hdn p hp').total]
      have hlen : ∀ q, q < n → (I q).verts.length = (placed G.verts (own) q).length :=
        fun q hq => (done_part hG (hdn q hq)).1.length_eq
      rw [List.map_map]
      rw [← new_total (W := fun q => (I q).verts) hG.nodup hG.own (fun q hq => ⟨(hdn q hq).nodup, (hdn q hq).inv.verts⟩)]
      rfl
    · intro t ht
      have : t = 0 := by simpa using ht
      subst this
      rw [if_pos trivial, hdist_edgeTotal hhd (by simp), hdist_pinTotal hhd (by simp)]
      exact ⟨(hdn p hp').edges, (hdn p hp').pins⟩)
  simpa using this

theorem residence_world {G : GG} {own : Gid → Nat} {n : Nat} {gs : List Graph} (hh : HoldsG G n own gs) :
    ∀ p (hp : p < gs.length), ∃ L : List HEdge, L.Perm (held G.edges (own) p) ∧
        YieldsFrom (gs[p].edgeBegin 0) gs[p].iterEdge ((List.range L.length).map (fun k => gs[p].getEdge k 0)) ∧
        ∀ k (hk : k < L.length), ResidenceIs gs[p] (gs[p].getEdge k 0) L[k].pins (fun v => (own v : Int)) := by
  obtain ⟨gr, I, GH, rfl, hG, hdn⟩ := hh
  intro p hp
  have hp' : p < n := by simpa using hp
  simp only [List.getElem_map, List.getElem_range]
  obtain ⟨hv, e, he, hwf, hperm, hc⟩ := done_part hG (hdn p hp')
  have hlen := edges_length hwf
  refine ⟨e.edges, hperm, ?_, ?_⟩
  · have := yields_edgeBegin hc (t := 0) (by simp)
    rw [hlen]; exact this
  · intro k hk
    have h1 := residenceIs_hyper hc (hdn p hp').inv.rep.owners (t := 0) (by simp) (k := k) (by simpa [hlen] using hk)
    have hpk : ([e][0]'(by simp)).pins[k]'(by simpa [hlen] using hk) = e.edges[k].pins := by
      have h2 := edges_pins hwf
      have h3 := List.getElem_of_eq h2 (i := k) (by simpa using hk)
      simp only [List.getElem_map] at h3
      exact h3.symm
    rw [hpk] at h1
    have hself := (hdn p hp').inv.rep.rank
    have hown : ∀ v ∈ e.edges[k].pins, ownerOf (gr p).self (I p).verts (fun v => (own v : Int)) v =
        (own v : Int) := by
      intro v hv
      unfold ownerOf
      split
      · rename_i hm
        rw [hself, (((hdn p hp').inv.verts v).mp hm).2]
      · rfl
    obtain ⟨⟨res, a1, a2, a3⟩, a4, a5⟩ := h1
    refine ⟨⟨res, a1, a2, ?_⟩, ?_, ?_⟩
    · intro q
      rw [a3 q]
      constructor
      · rintro ⟨v, hv, rfl⟩; exact ⟨v, hv, (hown v hv).symm⟩
      · rintro ⟨v, hv, rfl⟩; exact ⟨v, hv, hown v hv⟩
    · intro q
      rw [a4 q]
      congr 1
      apply decide_eq_decide.mpr
      constructor
      · rintro ⟨v, hv, rfl⟩; exact ⟨v, hv, (hown v hv).symm⟩
      · rintro ⟨v, hv, rfl⟩; exact ⟨v, hv, hown v hv⟩
    · intro hno
      rw [a5 (fun v hv => by rw [hown v hv]; exact hno v hv)]
      congr 1
      apply decide_eq_decide.mpr
      constructor
      · rintro ⟨a, ha, b, hb, hab⟩
        rw [hown a ha, hown b hb] at hab
        exact ⟨a, ha, b, hb, hab⟩
      · rintro ⟨a, ha, b, hb, hab⟩
        refine ⟨a, ha, b, hb, ?_⟩
        rw [hown a ha, hown b hb]
        exact hab

theorem weights_world' {G : GG} {own : Gid → Nat} {n : Nat} {gs : List Graph} (hh : HoldsG G n own gs) :
    ∀ p (hp : p < gs.length),
        getWeight gs[p] (-1) false = .ok ((placed (G.verts) (own) p).map (G.wt)).sum ∧
        (∀ cg, getWeight gs[p] 0 cg = .ok ((held G.edges (own) p).map HEdge.w).sum) ∧
        (1 < n → getWeight gs[p] (-1) true =
          .ok (((placed (G.verts) (own) p).map (G.wt)).sum +
            ((around (G.verts) G.edges (own) p).map (G.wt)).sum)) := by
  obtain ⟨gr, I, GH, rfl, hG, hdn⟩ := hh
  intro p hp
  have hp' : p < n := by simpa using hp
  simp only [List.getElem_map, List.getElem_range]
  obtain ⟨hv, e, he, hwf, hperm, hc⟩ := done_part hG (hdn p hp')
  have hrep := (hdn p hp').inv.rep
  have hw := hrep.weights
  rw [(hdn p hp').inv.wts] at hw
  have hs : ((I p).verts.map (G.wt)).sum = ((placed (G.verts) (own) p).map (G.wt)).sum :=
    (hv.map _).sum_eq
  refine ⟨?_, ?_, ?_⟩
  · rw [← hs]
    exact getWeight_verts hrep.core.v hw (by simp)
  · intro cg
    have h1 := getWeight_edges hc (t := 0) (by simp) (weights_length hwf) cg
    have h2 : ((held G.edges (own) p).map HEdge.w).sum = e.weights.sum := by
      rw [show (held G.edges (own) p).map HEdge.w = (held G.edges (own) p).map HEdge.w from rfl,
        ← (hperm.map HEdge.w).sum_eq]
      congr 1
      unfold EdgeInput.edges
      rw [List.map_map]
      have hwl := weights_length hwf
      have hil := hwf.ids_len
      apply List.ext_getElem
      · simp; omega
      · intro k h1 h2; simp
    rw [h2]
    exact h1
  · intro hn
    have hgw := (hdn p hp').ghostW hn
    have hgp : (GH p).Perm (around (G.verts) G.edges (own) p) := by
      have hnd : (G.verts).Nodup := hG.nodup
      unfold around
      rw [List.perm_ext_iff_of_nodup (List.nodup_append.mp hrep.core.v.nodup).2.1 (hnd.filter _)]
      intro v
      rw [hrep.mem_ghosts v, List.mem_filter, decide_eq_true_iff]
      have hall : v ∈ (I p).allPins ↔ ∃ E ∈ held G.edges (own) p, v ∈ E.pins := by
        have hx : (I p) = { (I p) with types := [e] } := by rw [← he]
        rw [hx, allPins_one, edges_getElem_pins hwf]
        exact ⟨fun ⟨E, h1, h2⟩ => ⟨E, hperm.mem_iff.mp h1, h2⟩, fun ⟨E, h1, h2⟩ => ⟨E, hperm.mem_iff.mpr h1, h2⟩⟩
      rw [hall, (hdn p hp').inv.verts v]
      constructor
      · rintro ⟨⟨E, h1, h2⟩, h3⟩
        have hm := hG.pins E (List.mem_filter.mp h1).1 v h2
        exact ⟨hm, fun hc => h3 ⟨hm, hc⟩, E, h1, h2⟩
      · rintro ⟨h1, h2, h3⟩
        exact ⟨h3, fun hc => h2 hc.2⟩
    rw [← hs, ← (hgp.map (G.wt)).sum_eq]
    exact getWeight_ghosts hrep.core.v hw (by simp) hgw (by simp)

theorem components_world {G : GG} {own : Gid → Nat} {n : Nat} {gs : List Graph} (hh : HoldsG G n own gs) (little : Bool) :
    ∀ p (hp : p < gs.length), ∃ (V : List Gid) (L : List HEdge), V.Perm (placed (G.verts) (own) p) ∧
        L.Perm (held G.edges (own) p) ∧
        countDisconnected gs[p] little = .ok ((components (L.map HEdge.pins) V : Int) - 1) := by
  obtain ⟨gr, I, GH, rfl, hG, hdn⟩ := hh
  intro p hp
  have hp' : p < n := by simpa using hp
  simp only [List.getElem_map, List.getElem_range]
  obtain ⟨hv, e, he, hwf, hperm, hc⟩ := done_part hG (hdn p hp')
  refine ⟨(I p).verts, e.edges, hv, hperm, ?_⟩
  have hhd := Io.done_hdist hG hdn
  have hpl : p < ((List.range n).map I).length := by simpa using hp'
  have hIp : ((List.range n).map I)[p] = I p := by simp
  have hrep : PartRep (gr p) p n ((List.range n).map I)[p] (own) (GH p) := by
    rw [hIp]; exact (hdn p hp').inv.rep
  have ht : ((List.range n).map I)[p].types = [e] := by rw [hIp, he]
  have hkey := count_hyper hhd.dist hpl hrep (by rw [hIp]; exact (hdn p hp').hyper) (by rw [ht]; simp) (by
    intro ps hps
    simp only [ht, List.getElem_cons_zero] at hps
    rw [← edges_pins hwf] at hps
    obtain ⟨E, hE, rfl⟩ := List.mem_map.mp hps
    exact hG.ne E (List.mem_filter.mp (hperm.mem_iff.mp hE)).1) little
  simp only [hIp, he, List.getElem_cons_zero] at hkey
  rw [edges_pins hwf]
  exact hkey

theorem second_world {G : GG} {own : Gid → Nat} {n : Nat} {gs : List Graph} (hh : HoldsG G n own gs) (compress : Bool)
    (ord : Handle → List Handle → List Handle) (ho : ∀ x l, (ord x l).Perm l) :
    ∀ p (hp : p < gs.length), ∃ L : List HEdge, L.Perm (held G.edges (own) p) ∧
        (∃ g', createVev gs[p] 0 compress ord = .ok g' ∧
          VevIs g' compress (placed (G.verts) (own) p)
            (fun v => L.flatMap (fun E => (List.replicate (E.pins.count v) E.pins).flatten))
            (fun v w => ∃ E ∈ G.edges, v ∈ E.pins ∧ w ∈ E.pins)) ∧
        ∃ g'', createEve gs[p] 0 compress ord = .ok g'' ∧ ∀ k (hk : k < L.length), ∃ js : List Nat,
          (∀ fuel, js.length < fuel → visitEve g'' (g''.getEdge k 0) fuel = .ok (js.map (fun j => g''.getEdge j 0))) ∧
          (compress = true → js.Nodup ∧ ∀ j, j ∈ js ↔ j ≠ k ∧ ∃ hj : j < L.length, ∃ v ∈ L[k].pins, v ∈ L[j].pins ∧
            own v = p) := by
  obtain ⟨gr, I, GH, rfl, hG, hdn⟩ := hh
  intro p hp
  have hp' : p < n := by simpa using hp
  simp only [List.getElem_map, List.getElem_range]
  obtain ⟨hv, e, he, hwf, hperm, hc⟩ := done_part hG (hdn p hp')
  have hlen := edges_length hwf
  have hrep := (hdn p hp').inv.rep
  have hpl : ∀ v, v ∈ (I p).verts ↔ v ∈ G.verts ∧ own v = p := (hdn p hp').inv.verts
  refine ⟨e.edges, hperm, ?_, ?_⟩
  · obtain ⟨g', h1, h2⟩ := vev_hyper hc (by simp) compress ho
    refine ⟨g', h1, ?_⟩
    intro v hvm
    have hvI := hv.mem_iff.mpr hvm
    obtain ⟨hh, us, a1, a2, a3, a4⟩ := h2 v hvI
    refine ⟨hh, us, a1, a2, ?_, ?_⟩
    · intro hcf
      rw [a3 hcf]
      simp only [List.getElem_cons_zero]
      rw [← edges_pins hwf, List.flatMap_map]
    · intro hct
      refine ⟨(a4 hct).1, fun w => ?_⟩
      rw [(a4 hct).2 w]
      simp only [List.getElem_cons_zero]
      rw [← edges_pins hwf]
      have hpv := ((hpl v).mp hvI).2
      constructor
      · rintro ⟨h1, ps, hps, h3, h4⟩
        obtain ⟨E, hE, rfl⟩ := List.mem_map.mp hps
        exact ⟨h1, E, (List.mem_filter.mp (hperm.mem_iff.mp hE)).1, h3, h4⟩
      · rintro ⟨h1, E, hE, h3, h4⟩
        refine ⟨h1, E.pins, List.mem_map.mpr ⟨E, hperm.mem_iff.mpr ?_, rfl⟩, h3, h4⟩
        exact List.mem_filter.mpr ⟨hE, decide_eq_true ⟨v, h3, hpv⟩⟩
  · obtain ⟨g'', h1, h2⟩ := eve_hyper hc hrep.owners (by
      intro v hvg hcon
      rw [hrep.rank] at hcon
      have h1 := (hrep.mem_ghosts v).mp hvg
      have hx : (I p) = { (I p) with types := [e] } := by rw [← he]
      have h2 := h1.1
      rw [hx, allPins_one, edges_getElem_pins hwf] at h2
      obtain ⟨E, hE, hvE⟩ := h2
      have hm := hG.pins E (List.mem_filter.mp (hperm.mem_iff.mp hE)).1 v hvE
      exact h1.2 ((hpl v).mpr ⟨hm, by exact_mod_cast hcon⟩)) (by simp) compress ho
    refine ⟨g'', h1, fun k hk => ?_⟩
    obtain ⟨js, b1, -, b3⟩ := h2 k (by simpa [hlen] using hk)
    refine ⟨js, b1, fun hct => ⟨(b3 hct).1, fun j => ?_⟩⟩
    rw [(b3 hct).2 j]
    have hpk : ∀ j (hj : j < e.edges.length), e.pins[j]'(by omega) = e.edges[j].pins := by
      intro j hj
      have h3 := List.getElem_of_eq (edges_pins hwf) (i := j) (by simpa using hj)
      simp only [List.getElem_map] at h3
      exact h3.symm
    simp only [List.getElem_cons_zero]
    constructor
    · rintro ⟨c1, c2, v, c3, c4, c5⟩
      rw [hpk k hk] at c4
      rw [hpk j (by omega)] at c5
      exact ⟨c1, by omega, v, c4, c5, ((hpl v).mp c3).2⟩
    · rintro ⟨c1, c2, v, c3, c4, c5⟩
      refine ⟨c1, by omega, v, (hpl v).mpr ⟨?_, c5⟩, ?_, ?_⟩
      · exact hG.pins _ (List.mem_filter.mp (hperm.mem_iff.mp (List.getElem_mem hk))).1 v c3
      · rw [hpk k hk]; exact c3
      · rw [hpk j c2]; exact c4

theorem colour_world {G : GG} {own : Gid → Nat} {n : Nat} {gs : List Graph} (hh : HoldsG G n own gs) (E : Color.Env) (hE : E.Ok) :
    ∀ p (hp : p < gs.length), (∀ F ∈ held G.edges (own) p, ∀ v ∈ F.pins, own v = p) →
        ∃ (V : List Gid) (L : List HEdge) (ce cv : List Nat), V.Perm (placed (G.verts) (own) p) ∧
          gs[p].localGids = .ok V ∧ L.Perm (held G.edges (own) p) ∧
          Color.kokkosColoring E gs[p] ⟨false, 0⟩ = .ok (0, ce) ∧ ce.length = L.length ∧
          (∀ j k (hj : j < L.length) (hk : k < L.length), j ≠ k → (∃ v, v ∈ L[j].pins ∧ v ∈ L[k].pins) →
            ce.getD j 0 ≠ ce.getD k 0) ∧
          Color.kokkosColoring E gs[p] ⟨true, 0⟩ = .ok (0, cv) ∧ cv.length = V.length ∧
          ∀ j k (hj : j < V.length) (hk : k < V.length), j ≠ k → (∃ F ∈ G.edges, V[j] ∈ F.pins ∧ V[k] ∈ F.pins) →
            cv.getD j 0 ≠ cv.getD k 0 := by
  obtain ⟨gr, I, GH, rfl, hG, hdn⟩ := hh
  intro p hp hcut
  have hp' : p < n := by simpa using hp
  simp only [List.getElem_map, List.getElem_range]
  obtain ⟨hv, e, he, hwf, hperm, hc⟩ := done_part hG (hdn p hp')
  have hlen := edges_length hwf
  have hpl : ∀ v, v ∈ (I p).verts ↔ v ∈ G.verts ∧ own v = p := (hdn p hp').inv.verts
  have hloc : ∀ v ∈ ([e][0]'(by simp)).pins.flatten, v ∈ (I p).verts := by
    intro v hvm
    obtain ⟨F, hF, hvF⟩ := (edges_getElem_pins hwf v).mp hvm
    have hFh := hperm.mem_iff.mp hF
    exact (hpl v).mpr ⟨hG.pins F (List.mem_filter.mp hFh).1 v hvF, hcut F hFh v hvF⟩
  have hpk : ∀ j (hj : j < e.edges.length), e.pins[j]'(by omega) = e.edges[j].pins := by
    intro j hj
    have h3 := List.getElem_of_eq (edges_pins hwf) (i := j) (by simpa using hj)
    simp only [List.getElem_map] at h3
    exact h3.symm
  obtain ⟨ce, a1, a2, a3⟩ := Color.color_edges hc (t := 0) (by simp) hloc hE
  obtain ⟨cv, b1, b2, b3⟩ := Color.color_verts hc (t := 0) (by simp) hloc hE
  refine ⟨(I p).verts, e.edges, ce, cv, hv, (hdn p hp').gids, hperm, a1, by rw [a2, hlen]; rfl, ?_, b1, b2, ?_⟩
  · intro j k hj hk hjk ⟨v, h1, h2⟩
    refine a3 j k (by simpa [hlen] using hj) (by simpa [hlen] using hk) hjk ⟨v, ?_, ?_⟩
    · simp only [List.getElem_cons_zero]; rw [hpk j hj]; exact h1
    · simp only [List.getElem_cons_zero]; rw [hpk k hk]; exact h2
  · intro j k hj hk hjk ⟨F, hF, h1, h2⟩
    refine b3 j k hj hk hjk ⟨F.pins, ?_, h1, h2⟩
    simp only [List.getElem_cons_zero]
    rw [← edges_pins hwf]
    exact List.mem_map.mpr ⟨F, hperm.mem_iff.mpr (List.mem_filter.mpr ⟨hF,
      decide_eq_true ⟨_, h1, ((hpl _).mp (List.getElem_mem hj)).2⟩⟩), rfl⟩

theorem asNew_world {G : GG} {own : Gid → Nat} {n : Nat} {gs : List Graph} (hh : HoldsG G n own gs) :
    AsNew G.verts G.edges G.wt n own gs :=
  ⟨valid_world hh, residence_world hh, weights_world' hh, components_world hh, second_world hh, colour_world hh⟩

/-- **C75 (validity).**  After any sequence of migrations `checkValidity` accepts the graph on every part. -/
theorem c75_valid_partial (h : Start es ins own owns o1 o2) (co : Option (Gid → Coord)) (rs : List Round)
    (hr : RoundsOk (allVerts ins) ins.length co.isSome own rs) :
    ∃ gs0 gs, setupAll ins co owns o1 o2 = .ok gs0 ∧ migrateRounds gs0 rs = .ok gs ∧
      checkValidityAll gs 1 = .ok (List.replicate ins.length true) := by
  obtain ⟨hG, gs0, gs, e0, e1, gr, I, GH, hgs, hdn⟩ := run_spec h co rs hr
  exact ⟨gs0, gs, e0, e1, (asNew_world ⟨gr, I, GH, hgs, hG, hdn⟩).valid⟩

/-- **C75 (edges).**  After any sequence of migrations the loop over the edges of part `p` visits its hyperedges `L` - those with a
vertex on `p` - once each, and for every one `getResidence`, `isResidentOn` and `isCut` tell where its vertices are now. -/
theorem c75_residence_partial (h : Start es ins own owns o1 o2) (co : Option (Gid → Coord)) (rs : List Round)
    (hr : RoundsOk (allVerts ins) ins.length co.isSome own rs) :
    ∃ gs0 gs, setupAll ins co owns o1 o2 = .ok gs0 ∧ migrateRounds gs0 rs = .ok gs ∧ gs.length = ins.length ∧
      ∀ p (hp : p < gs.length), ∃ L : List HEdge, L.Perm (held es (placeAll own rs) p) ∧
        YieldsFrom (gs[p].edgeBegin 0) gs[p].iterEdge ((List.range L.length).map (fun k => gs[p].getEdge k 0)) ∧
        ∀ k (hk : k < L.length), ResidenceIs gs[p] (gs[p].getEdge k 0) L[k].pins (fun v => (placeAll own rs v : Int)) := by
  obtain ⟨hG, gs0, gs, e0, e1, gr, I, GH, hgs, hdn⟩ := run_spec h co rs hr
  exact ⟨gs0, gs, e0, e1, by rw [hgs]; simp, (asNew_world ⟨gr, I, GH, hgs, hG, hdn⟩).residence⟩

/-- **C75 (weights).**  After any sequence of migrations the vertex weight of part `p` is the sum of the weights of the vertices
now on it, its edge weight the sum over the hyperedges with a vertex on it, and counting ghosts adds each vertex of another part
that shares a hyperedge with it once. -/
theorem c75_weights_partial (h : Start es ins own owns o1 o2) (co : Option (Gid → Coord)) (rs : List Round)
    (hr : RoundsOk (allVerts ins) ins.length co.isSome own rs) :
    ∃ gs0 gs, setupAll ins co owns o1 o2 = .ok gs0 ∧ migrateRounds gs0 rs = .ok gs ∧ gs.length = ins.length ∧
      ∀ p (hp : p < gs.length),
        getWeight gs[p] (-1) false = .ok ((placed (allVerts ins) (placeAll own rs) p).map (weightOf ins own)).sum ∧
        (∀ cg, getWeight gs[p] 0 cg = .ok ((held es (placeAll own rs) p).map HEdge.w).sum) ∧
        (1 < ins.length → getWeight gs[p] (-1) true =
          .ok (((placed (allVerts ins) (placeAll own rs) p).map (weightOf ins own)).sum +
            ((around (allVerts ins) es (placeAll own rs) p).map (weightOf ins own)).sum)) := by
  obtain ⟨hG, gs0, gs, e0, e1, gr, I, GH, hgs, hdn⟩ := run_spec h co rs hr
  exact ⟨gs0, gs, e0, e1, by rw [hgs]; simp, (asNew_world ⟨gr, I, GH, hgs, hG, hdn⟩).weights⟩

/-- **C75 (components).**  After any sequence of migrations part `p` reports the number of connected components of the vertices now
on it, through the hyperedges it has, minus one. -/
theorem c75_components_partial (h : Start es ins own owns o1 o2) (co : Option (Gid → Coord)) (rs : List Round)
    (hr : RoundsOk (allVerts ins) ins.length co.isSome own rs) (little : Bool) :
    ∃ gs0 gs, setupAll ins co owns o1 o2 = .ok gs0 ∧ migrateRounds gs0 rs = .ok gs ∧ gs.length = ins.length ∧
      ∀ p (hp : p < gs.length), ∃ (V : List Gid) (L : List HEdge), V.Perm (placed (allVerts ins) (placeAll own rs) p) ∧
        L.Perm (held es (placeAll own rs) p) ∧
        countDisconnected gs[p] little = .ok ((components (L.map HEdge.pins) V : Int) - 1) := by
  obtain ⟨hG, gs0, gs, e0, e1, gr, I, GH, hgs, hdn⟩ := run_spec h co rs hr
  exact ⟨gs0, gs, e0, e1, by rw [hgs]; simp, (asNew_world ⟨gr, I, GH, hgs, hG, hdn⟩).components little⟩

/-- **C75 (second adjacency).**  After any sequence of migrations the second adjacency of the vertices of part `p` is that of the
hyperedges it has: uncompressed the pins of the hyperedges of `v`, compressed the other vertices sharing a hyperedge with `v`, once
each.  For the edges: the other hyperedges sharing a vertex of the part. -/
theorem c75_second_partial (h : Start es ins own owns o1 o2) (co : Option (Gid → Coord)) (rs : List Round)
    (hr : RoundsOk (allVerts ins) ins.length co.isSome own rs) (compress : Bool)
    (ord : Handle → List Handle → List Handle) (ho : ∀ x l, (ord x l).Perm l) :
    ∃ gs0 gs, setupAll ins co owns o1 o2 = .ok gs0 ∧ migrateRounds gs0 rs = .ok gs ∧ gs.length = ins.length ∧
      ∀ p (hp : p < gs.length), ∃ L : List HEdge, L.Perm (held es (placeAll own rs) p) ∧
        (∃ g', createVev gs[p] 0 compress ord = .ok g' ∧
          VevIs g' compress (placed (allVerts ins) (placeAll own rs) p)
            (fun v => L.flatMap (fun E => (List.replicate (E.pins.count v) E.pins).flatten))
            (fun v w => ∃ E ∈ es, v ∈ E.pins ∧ w ∈ E.pins)) ∧
        ∃ g'', createEve gs[p] 0 compress ord = .ok g'' ∧ ∀ k (hk : k < L.length), ∃ js : List Nat,
          (∀ fuel, js.length < fuel → visitEve g'' (g''.getEdge k 0) fuel = .ok (js.map (fun j => g''.getEdge j 0))) ∧
          (compress = true → js.Nodup ∧ ∀ j, j ∈ js ↔ j ≠ k ∧ ∃ hj : j < L.length, ∃ v ∈ L[k].pins, v ∈ L[j].pins ∧
            placeAll own rs v = p) := by
  obtain ⟨hG, gs0, gs, e0, e1, gr, I, GH, hgs, hdn⟩ := run_spec h co rs hr
  exact ⟨gs0, gs, e0, e1, by rw [hgs]; simp, (asNew_world ⟨gr, I, GH, hgs, hG, hdn⟩).second compress ord ho⟩

/-- **C75 (colouring).**  If after the migrations no hyperedge of part `p` is cut, colouring its edges and its vertices succeeds,
and the colourings are proper, in every schedule of the parallel kernels. -/
theorem c75_colour_partial (h : Start es ins own owns o1 o2) (co : Option (Gid → Coord)) (rs : List Round)
    (hr : RoundsOk (allVerts ins) ins.length co.isSome own rs) (E : Color.Env) (hE : E.Ok) :
    ∃ gs0 gs, setupAll ins co owns o1 o2 = .ok gs0 ∧ migrateRounds gs0 rs = .ok gs ∧ gs.length = ins.length ∧
      ∀ p (hp : p < gs.length), (∀ F ∈ held es (placeAll own rs) p, ∀ v ∈ F.pins, placeAll own rs v = p) →
        ∃ (V : List Gid) (L : List HEdge) (ce cv : List Nat), V.Perm (placed (allVerts ins) (placeAll own rs) p) ∧
          gs[p].localGids = .ok V ∧ L.Perm (held es (placeAll own rs) p) ∧
          Color.kokkosColoring E gs[p] ⟨false, 0⟩ = .ok (0, ce) ∧ ce.length = L.length ∧
          (∀ j k (hj : j < L.length) (hk : k < L.length), j ≠ k → (∃ v, v ∈ L[j].pins ∧ v ∈ L[k].pins) →
            ce.getD j 0 ≠ ce.getD k 0) ∧
          Color.kokkosColoring E gs[p] ⟨true, 0⟩ = .ok (0, cv) ∧ cv.length = V.length ∧
          ∀ j k (hj : j < V.length) (hk : k < V.length), j ≠ k → (∃ F ∈ es, V[j] ∈ F.pins ∧ V[k] ∈ F.pins) →
            cv.getD j 0 ≠ cv.getD k 0 := by
  obtain ⟨hG, gs0, gs, e0, e1, gr, I, GH, hgs, hdn⟩ := run_spec h co rs hr
  exact ⟨gs0, gs, e0, e1, by rw [hgs]; simp, (asNew_world ⟨gr, I, GH, hgs, hG, hdn⟩).colour E hE⟩

end

/-! ## the hypotheses are met -/

/-- all vertices go to part 0 -/
def gatherRounds : List Round := [⟨fun p => if p = 1 then [.insert 2 0, .insert 3 0] else [], sampleEnv⟩]

theorem gatherRounds_ok : RoundsOk (allVerts sampleWorld) sampleWorld.length true sampleOwn gatherRounds := by
  refine ⟨⟨?_, sampleEnv_ok _⟩, trivial⟩
  intro p hp v d hv
  have h1 : p = 0 ∨ p = 1 := by simp [sampleWorld] at hp; omega
  rcases h1 with rfl | rfl
  · simp at hv
  · simp at hv
    have : (v = 2 ∧ d = 0) ∨ (v = 3 ∧ d = 0) := by omega
    rcases this with ⟨rfl, rfl⟩ | ⟨rfl, rfl⟩ <;> decide

/-- C75 about a graph migrated twice: where things are, and that the premise of the colouring theorem holds on a part that has
received everything -/
example : (∃ co : Option (Gid → Coord), co.isSome = true ∧
      RoundsOk (allVerts sampleWorld) sampleWorld.length co.isSome sampleOwn sampleRounds) ∧
    placed (allVerts sampleWorld) (placeAll sampleOwn sampleRounds) 1 = [1, 2] ∧
    around (allVerts sampleWorld) [⟨100, [1, 2], 1⟩, ⟨101, [1], 1⟩, ⟨102, [2, 3], 1⟩] (placeAll sampleOwn sampleRounds) 1 = [3] ∧
    (held [⟨100, [1, 2], 1⟩, ⟨101, [1], 1⟩, ⟨102, [2, 3], 1⟩] (placeAll sampleOwn sampleRounds) 0).map HEdge.id = [102] ∧
    (∀ F ∈ held [⟨100, [1, 2], 1⟩, ⟨101, [1], 1⟩, ⟨102, [2, 3], 1⟩] (placeAll sampleOwn gatherRounds) 0, ∀ v ∈ F.pins,
      placeAll sampleOwn gatherRounds v = 0) ∧
    (held [⟨100, [1, 2], 1⟩, ⟨101, [1], 1⟩, ⟨102, [2, 3], 1⟩] (placeAll sampleOwn gatherRounds) 0).length = 3 :=
  ⟨⟨some (fun _ => (0, 0, 0)), rfl, sampleRounds_ok⟩, by decide, by decide, by decide, by decide, by decide⟩

/-- and what the functions report there -/
example : observe sampleWorld none sampleOwns sampleRounds (fun g => do
      let w ← getWeight g (-1) false
      let wg ← getWeight g (-1) true
      let we ← getWeight g 0 false
      let c ← countDisconnected g true
      let q ← g.numGlobalPins 0
      return (w, wg, we, c, q)) = .ok [(5, 9, 1, 0, 5), (7, 12, 3, 0, 5)] := by decide +kernel

end Verif.Agi
