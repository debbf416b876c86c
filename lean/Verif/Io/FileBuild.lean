import Verif.Io.FileWrite
/-!
# Lemmas: building all parts with coordinates and ghosts
-/
namespace Verif.Io
open Verif.Agi

/-- everything known of a part after construction -/
structure PartFull (ins : List Input) (own : Gid → Nat) (hyper : Bool) (T : Nat) (cs : Option (List Coord)) (p : Nat)
    (g : Graph) (gh : List Gid) : Prop where
  rep : ∀ h : p < ins.length, PartRep g p ins.length ins[p] own gh
  crd : g.coords = cs.map Mem.ofList
  gw : 1 < ins.length → g.ghostWeights = some (Mem.ofList (gh.map (weightOf ins own)))
  ge : ∀ t, t < T → g.numGlobalEdges t = .ok (edgeTotal ins own t)
  gp : ∀ t, t < T → g.numGlobalPins t = .ok (if hyper then pinTotal ins own t else 2 * edgeTotal ins own t)
  gv : g.globalVerts = (ins.map (fun i => (i.verts.length : Int))).sum
  oo : g.originalOwners = none

theorem setCoordsOpt_eq {g : Graph} (h : g.coords = none) {cs : Option (List Coord)}
    (hl : ∀ l, cs = some l → l.length = g.numLocal) :
    setCoordsOpt g cs = .ok { g with coords := cs.map Mem.ofList } := by
  cases cs with
  | none =>
    simp only [setCoordsOpt, Option.map_none]
    rw [← h]
  | some l =>
    simp only [setCoordsOpt, Option.map_some]
    unfold Graph.setCoords
    rw [storeAll l g.numLocal (hl l rfl)]
    rfl

/-- building, coordinates, ghosts: what `loadFromFile` does with the data, and what a user does -/
theorem full_spec {ins : List Input} {own : Gid → Nat} {hyper : Bool} {T : Nat} {owns : List (GMap Part)}
    (hd : Dist ins own) (hu : Uniform ins hyper T) (ho : OwnMaps ins own owns) {o1 o2 : Nat → List Nat}
    (ho1 : Orders ins.length o1) (ho2 : Orders ins.length o2) {cs : Nat → Option (List Coord)}
    (hcs : ∀ p (h : p < ins.length), ∀ l, cs p = some l → l.length = ins[p].verts.length) :
    ∃ g0 gr : Nat → Graph, ∃ GH : Nat → List Gid, buildAll ins = .ok ((List.range ins.length).map g0) ∧
      (∀ p, p < ins.length → setCoordsOpt (g0 p) (cs p) = .ok { g0 p with coords := (cs p).map Mem.ofList }) ∧
      constructGhosts ((List.range ins.length).map (fun p => { g0 p with coords := (cs p).map Mem.ofList })) owns o1 o2 =
        .ok ((List.range ins.length).map gr) ∧
      ∀ p, p < ins.length → PartFull ins own hyper T (cs p) p (gr p) (GH p) := by
  set n := ins.length with hn
  set total : Int := (ins.map (fun i => (i.verts.length : Int))).sum with htotal
  have hb : ∀ p, p < n → ∃ g, (∃ i, rd ins p = .ok i ∧ build (p : Int) n total i = .ok g) ∧
      (∃ gh, GRep g (p : Int) n total (ins.getD p ⟨true, [], [], []⟩) gh) ∧ g.coords = none := by
    intro p hp
    obtain ⟨g, gh, e, hr, hc⟩ := build_spec' (p : Int) n total ins[p] (hd.wf _ (List.getElem_mem hp))
    refine ⟨g, ⟨ins[p], rd_ok hp, e⟩, ⟨gh, ?_⟩, hc⟩
    rw [List.getD_eq_getElem?_getD, List.getElem?_eq_getElem hp]; exact hr
  obtain ⟨g0, hg0⟩ := choose_part hb
  have e0 : buildAll ins = .ok ((List.range n).map g0) := by
    unfold buildAll
    apply mapM_ok
    intro p hp
    obtain ⟨⟨i, e1, e2⟩, -⟩ := hg0 p (List.mem_range.mp hp)
    rw [e1, Outcome.bind_ok]; exact e2
  have hget : ∀ p (hp : p < n), ins.getD p ⟨true, [], [], []⟩ = ins[p] := by
    intro p hp; rw [List.getD_eq_getElem?_getD, List.getElem?_eq_getElem hp]; rfl
  have e1 : ∀ p, p < n → setCoordsOpt (g0 p) (cs p) = .ok { g0 p with coords := (cs p).map Mem.ofList } := by
    intro p hp
    obtain ⟨-, ⟨gh, hr⟩, hc⟩ := hg0 p hp
    rw [hget p hp] at hr
    apply setCoordsOpt_eq hc
    intro l hl
    rw [hcs p hp l hl, hr.vrep.nl]
  set g1 : Nat → Graph := fun p => { g0 p with coords := (cs p).map Mem.ofList } with hg1
  have hbuilt : Built ((List.range n).map g1) ins := by
    refine ⟨by simp [hn], fun p hp hp' => ?_⟩
    obtain ⟨-, ⟨gh, hr⟩, -⟩ := hg0 p hp'
    rw [hget p hp'] at hr
    refine ⟨gh, ?_⟩
    simp only [List.getElem_map, List.getElem_range, hg1]
    exact hr.of_coords _
  obtain ⟨gs2, e2, hw2, hr2⟩ := constructGhosts_spec (o1 := o1) (o2 := o2) hbuilt hd hu ho ho1 ho2
  have hl2 : gs2.length = n := by rw [hw2.1]
  have hgs2 : gs2 = (List.range n).map (fun p => gs2.getD p default) := by
    have := list_range gs2 default
    rw [hl2] at this; exact this
  have hget2 : ∀ p (h : p < gs2.length), gs2.getD p default = gs2[p] := by
    intro p h; rw [List.getD_eq_getElem?_getD, List.getElem?_eq_getElem h]; rfl
  have h3 : ∀ p, p < n → ∃ gh, PartFull ins own hyper T (cs p) p (gs2.getD p default) gh := by
    intro p hp
    have hp2 : p < gs2.length := by omega
    have hp1 : p < ((List.range n).map g1).length := by simpa using hp
    obtain ⟨r1, r2, r3, r4, r5⟩ := hr2 p hp2 hp1 hp
    obtain ⟨-, ⟨gh0, hr0⟩, -⟩ := hg0 p hp
    rw [hget p hp] at hr0
    have hex : ∃ gh, PartRep gs2[p] p n ins[p] own gh ∧
        (1 < n → gs2[p].ghostWeights = some (Mem.ofList (gh.map (weightOf ins own)))) := by
      by_cases hn1 : 1 < n
      · obtain ⟨gh, a, b⟩ := r5 hn1
        exact ⟨gh, a, fun _ => b⟩
      · obtain ⟨gh, a⟩ := hw2.2 p hp2 hp
        exact ⟨gh, a, fun h => absurd h hn1⟩
    obtain ⟨gh, hrep, hgw⟩ := hex
    rw [hget2 p hp2]
    refine ⟨gh, fun _ => hrep, ?_, hgw, fun t ht => (r1 t ht).1, fun t ht => (r1 t ht).2, ?_, ?_⟩
    · rw [r3]; simp only [List.getElem_map, List.getElem_range, hg1]
    · rw [r2]; simp only [List.getElem_map, List.getElem_range, hg1]
      rw [hr0.total]
    · rw [r4]; simp only [List.getElem_map, List.getElem_range, hg1]; exact hr0.orig
  obtain ⟨GH, hGH⟩ := choose_part h3
  exact ⟨g0, _, GH, e0, e1, by rw [e2]; exact congrArg _ hgs2, hGH⟩

end Verif.Io
