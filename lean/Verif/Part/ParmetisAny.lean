import Verif.Part.ParmetisSym
/-!
# Lemmas: the graph handed to the partitioner, for any edge weights

With weights of both signs that are not integers the sums depend on the order of the edges; the arrays are still there.
-/
namespace Verif.Part
open Verif.Agi

section
variable {H : List (List HEdge)} {ins : List Input} {own : Gid → Nat} {t T : Nat} {gs : List Graph} {nbr : Gid → Gid → Prop}

/-- the weights a part hands over may be those of the part -/
theorem pmWorld_of_parts (hd : Dist ins own) (hlen : gs.length = ins.length)
    (h : ∀ p (hp : p < ins.length) (hg : p < gs.length), ∃ (ghosts : List Gid) (wt : Handle → Rat) (run : Handle → List (Handle × Handle)),
      PartRep gs[p] p ins.length ins[p] own ghosts ∧ PmRows gs[p] ins[p].verts ghosts t (fun v => (own v : Int)) (p : Int) nbr
        (fun v w => nbrAcc wt (others run (getVertex (ins[p].verts.idxOf v))) (getVertex ((ins[p].verts ++ ghosts).idxOf w))) wt
        (fun k => (vertWeights ins[p].verts ins[p].wgts).getD (k - 1) 1) run) :
    ∃ ew, PmWorld gs ins own t nbr ew := by
  have h' : ∀ p, ∃ (ghosts : List Gid) (wt : Handle → Rat) (run : Handle → List (Handle × Handle)) (ew : Gid → Gid → Int),
      ∀ (hp : p < ins.length) (hg : p < gs.length),
      PartRep gs[p] p ins.length ins[p] own ghosts ∧ PmRows gs[p] ins[p].verts ghosts t (fun v => (own v : Int)) (p : Int) nbr ew wt
        (fun k => (vertWeights ins[p].verts ins[p].wgts).getD (k - 1) 1) run := by
    intro p
    by_cases hp : p < ins.length
    · obtain ⟨gh, wt, run, h1⟩ := h p hp (by omega)
      exact ⟨gh, wt, run, _, fun _ _ => h1⟩
    · exact ⟨[], fun _ => 0, fun _ => [], fun _ _ => 0, fun h => absurd h hp⟩
  choose GH WT RUN EW hall using h'
  refine ⟨fun v w => EW (own v) v w, hlen, fun p hp hg => ⟨GH p, WT p, RUN p, (hall p hp hg).1, ?_⟩⟩
  have hr := (hall p hp hg).2
  refine ⟨hr.facts, hr.nl, hr.mem, hr.known, hr.ne, fun u hu w hn => ?_⟩
  rw [hr.sum u hu w hn, hd.verts p hp _ (List.getElem_mem hu)]

/-- hypergraphs -/
theorem pmWorld_hyper (hd : HDist H ins own) (hw : World gs ins own) (ht : t < H.length) :
    ∃ ew, PmWorld gs ins own t (Sharing H[t]) ew := by
  refine pmWorld_of_parts hd.dist hw.1 (fun p hp hg => ?_)
  obtain ⟨ghosts, hr⟩ := hw.2 p hg hp
  have htp : t < ins[p].types.length := by rw [hd.types p hp]; exact ht
  have hc := hr.core
  rw [hd.hyper _ (List.getElem_mem hp)] at hc
  have hnd := (hd.wf _ (List.getElem_mem hp)).nodup
  refine ⟨ghosts, wrOf gs[p], runOf gs[p] (ins[p].verts ++ ghosts) t ins[p].types[t].pins, hr, (part_facts hd hp hr ht htp).2, hc.v.nl, ?_, ?_, ?_, ?_⟩
  · intro u hu k
    rw [mem_others hc htp hu]
    constructor
    · rintro ⟨w, h1, ⟨ps, hps, h2, h3⟩, h4⟩
      obtain ⟨i, hi, rfl⟩ := List.mem_iff_getElem.mp hps
      exact ⟨w, known_pin hc htp hi h3, (sharing_part hd hp htp ht (List.getElem_mem hu) w).mp ⟨h1, _, hps, h2, h3⟩, h4⟩
    · rintro ⟨w, -, h2, h4⟩
      obtain ⟨h5, h6⟩ := (sharing_part hd hp htp ht (List.getElem_mem hu) w).mpr h2
      exact ⟨w, h5, h6, h4⟩
  · intro u hu w h
    obtain ⟨-, ps, hps, -, h3⟩ := (sharing_part hd hp htp ht (List.getElem_mem hu) w).mpr h
    obtain ⟨i, hi, rfl⟩ := List.mem_iff_getElem.mp hps
    exact known_pin hc htp hi h3
  · rintro v w ⟨hne, -⟩
    exact Ne.symm hne
  · intro u hu w _
    rw [hnd.idxOf_getElem]

/-- traditional graphs -/
theorem pmWorld_arcs (hd : TradDist ins own T) (hw : World gs ins own) (ht : t < T) : ∃ ew, PmWorld gs ins own t (Arc ins t) ew := by
  refine pmWorld_of_parts hd.dist hw.1 (fun p hp hg => ?_)
  obtain ⟨ghosts, hr⟩ := hw.2 p hg hp
  have htp : t < ins[p].types.length := by rw [hd.uniform.types _ (List.getElem_mem hp)]; exact ht
  have hh := hd.uniform.hyper _ (List.getElem_mem hp)
  have hc := hr.core
  rw [hh] at hc
  have hwfi := hd.dist.wf _ (List.getElem_mem hp)
  have hwf := hwfi.edges _ (List.getElem_mem htp)
  rw [hh] at hwf
  have hs : ArcsOn ins[p].verts ins[p].types[t].pins := hd.sources _ (List.getElem_mem hp) _ (List.getElem_mem htp)
  have hkn : ∀ {v w : Gid}, [v, w] ∈ ins[p].types[t].pins → w ∈ ins[p].verts ++ ghosts := fun he =>
    hc.pins t htp _ (List.mem_flatten.mpr ⟨_, he, by simp⟩)
  have hne : ∀ v w, [v, w] ∈ ins[p].types[t].pins → v ≠ w := by
    intro v w he
    obtain ⟨a, -, b, hab, hx⟩ := hs _ he
    simp only [List.cons.injEq, and_true] at hx
    rw [hx.1, hx.2]; exact hab
  refine ⟨ghosts, wrOf gs[p], runT gs[p] ins[p].verts (ins[p].verts ++ ghosts) t ins[p].types[t].pins, hr, ?_, hc.v.nl, ?_, ?_, ?_, ?_⟩
  · refine pmFacts_trad hc htp hs (own := fun v => (own v : Int)) hr.owners hr.rank ?_ ?_ hr.weights (vertWeights_length _ _) (weights_length hwf)
    · intro v hv
      rw [hd.dist.verts p hp v hv]
    · intro v hv hc
      exact (ghosts_owner hd.dist hp hr hv).1 (by exact_mod_cast hc)
  · intro u hu k
    rw [mem_others_trad hc htp hs hu]
    constructor
    · rintro ⟨w, h1, ⟨h2, h3⟩, h4⟩
      exact ⟨w, h1, (arc_part hd hp htp (List.getElem_mem hu) w).mpr h3, h4⟩
    · rintro ⟨w, h1, h2, h4⟩
      have h3 := (arc_part hd hp htp (List.getElem_mem hu) w).mp h2
      exact ⟨w, h1, ⟨hne _ _ h3, h3⟩, h4⟩
  · intro u hu w h
    exact hkn ((arc_part hd hp htp (List.getElem_mem hu) w).mp h)
  · rintro v w ⟨x, hx, he⟩
    obtain ⟨i, hi, hx⟩ := List.mem_flatMap.mp hx
    cases he' : i.types[t]? with
    | none => simp [he'] at hx
    | some e =>
      rw [he'] at hx
      have hm := edge_pins_mem hx
      obtain ⟨a, -, b, hab, hx⟩ := hd.sources i hi e (List.mem_of_getElem? he') _ hm
      rw [he] at hx
      simp only [List.cons.injEq, and_true] at hx
      rw [hx.1, hx.2]; exact Ne.symm hab
  · intro u hu w _
    rw [hwfi.nodup.idxOf_getElem]

end

/-! ## fractions -/

/-- hyperedges 7 and 8, both {1, 2}, of weights `a`, `b`; vertex 1 on part 0 and vertex 2 on part 1, which lists
the hyperedges the other way round -/
def fractionWorld (a b : Rat) : List Input :=
  [{ hyper := true, verts := [1], wgts := [], types := [⟨[7, 8], [[1, 2], [1, 2]], [a, b]⟩] },
   { hyper := true, verts := [2], wgts := [], types := [⟨[8, 7], [[1, 2], [1, 2]], [b, a]⟩] }]

def fractionOwn (v : Gid) : Nat := if v = 1 then 0 else 1

/-- **C44** for weights 3/2 and 7/4: both parts hand over 1 + 1 -/
example : TruncSafe [3/2, 7/4] ∧ parmetisOf (fractionWorld (3/2) (7/4)) fractionOwn 0 =
    .ok [[[0, 1, 2], [0, 1], [1], [1], [2]], [[0, 1, 2], [0, 1], [0], [1], [2]]] :=
  ⟨.inl (by decide +kernel), by decide +kernel⟩

/-- **C44** limit: with fractions of both signs the weight of the connection between 1 and 2 differs from that between 2 and
1, since each partial sum is truncated; ParMETIS needs a symmetric graph -/
theorem c44_mixed_signs : ¬ TruncSafe [-1/2, 3/2] ∧ parmetisOf (fractionWorld (-1/2) (3/2)) fractionOwn 0 =
    .ok [[[0, 1, 2], [0, 1], [1], [1], [1]], [[0, 1, 2], [0, 1], [0], [1], [0]]] := by
  refine ⟨?_, by decide +kernel⟩
  rintro (h | h)
  · exact absurd (h (-1/2) (by simp)) (by decide +kernel)
  · exact absurd (h (3/2) (by simp)) (by decide +kernel)

end Verif.Part
