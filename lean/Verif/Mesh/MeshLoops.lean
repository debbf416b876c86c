import Verif.Mesh.MeshSpec
import Verif.Agi.Residence
import Verif.Agi.MigList
/-!
# The loops of the mesh graph
-/
namespace Verif.Mesh
open Verif.Agi

theorem store_over {α : Type} (A : List α) (c : Option α) (R : Mem α) (x : α) :
    (Mem.ofList A ++ c :: R).store A.length x = .ok (Mem.ofList (A ++ [x]) ++ R) := by
  rw [Mem.store_ok _ (by simp [Mem.ofList])]
  congr 1
  simp only [Mem.ofList]
  rw [List.set_append_right _ _ (by simp)]
  simp

/-! ## vertices -/

/-- the owned entities -/
def ownedL (l : List Elm) : List Elm := l.filter (fun x => x.owned)

theorem ownedL_snoc (l : List Elm) (x : Elm) : ownedL (l ++ [x]) = if x.owned then ownedL l ++ [x] else ownedL l := by
  unfold ownedL
  rw [List.filter_append]
  cases h : x.owned <;> simp [h]

/-- the graph after `setupPrimary` -/
def primGraph (self peers : Nat) (total : Int) (m : MeshPart) : Graph :=
  { emptyGraph self peers with isHyper := true, globalVerts := total, numLocal := m.verts.length, weights := Mem.ofList (m.verts.map (fun _ => 1)), coords := some (Mem.ofList ((ownedL m.elms).map Elm.centroid)), localUnmap := Mem.ofList m.verts, vtxMap := lookup m.verts }

theorem verts_eq (m : MeshPart) : m.verts = (ownedL m.elms).map Elm.gid := rfl

theorem setupPrimary_eq (self peers : Nat) (total : Int) (ht : total ≠ 0) (m : MeshPart) (hn : m.verts.Nodup) :
    setupPrimary self peers total m = .ok ⟨primGraph self peers total m, [], []⟩ := by
  unfold setupPrimary
  rw [if_neg ht]
  obtain ⟨s, e, hs⟩ := foldlM_inv primStep
    (fun pre (s : Graph × Nat) => s = ({ emptyGraph self peers with isHyper := true, globalVerts := total, numLocal := m.verts.length, weights := Mem.ofList ((ownedL pre).map (fun _ => 1)) ++ Mem.ofList (List.replicate (m.verts.length - (ownedL pre).length) 0), coords := some (Mem.ofList ((ownedL pre).map Elm.centroid) ++ Mem.alloc (m.verts.length - (ownedL pre).length)), localUnmap := Mem.ofList ((ownedL pre).map Elm.gid) ++ Mem.alloc (m.verts.length - (ownedL pre).length), vtxMap := lookup ((ownedL pre).map Elm.gid) }, (ownedL pre).length))
    m.elms
    (by
      intro pre x s hpre hs
      subst hs
      unfold primStep
      cases hx : x.owned
      · refine ⟨_, rfl, ?_⟩
        rw [ownedL_snoc, hx]
        rfl
      · have hsub : (ownedL (pre ++ [x])).length ≤ m.verts.length := by
          rw [verts_eq, List.length_map]
          obtain ⟨r, hr⟩ := hpre
          rw [← hr]
          unfold ownedL
          rw [List.filter_append (pre ++ [x]) r, List.length_append]
          omega
        have hnd : ((ownedL (pre ++ [x])).map Elm.gid).Nodup := by
          refine List.Nodup.sublist ?_ hn
          rw [verts_eq]
          obtain ⟨r, hr⟩ := hpre
          rw [← hr]
          unfold ownedL
          rw [List.filter_append (pre ++ [x]) r, List.map_append]
          exact List.sublist_append_left _ _
        rw [ownedL_snoc, hx, if_pos rfl] at hsub hnd ⊢
        rw [List.length_append, List.length_singleton] at hsub
        obtain ⟨r, hr⟩ : ∃ r, m.verts.length - (ownedL pre).length = r + 1 :=
          ⟨m.verts.length - (ownedL pre).length - 1, by omega⟩
        have hr' : m.verts.length - ((ownedL pre).length + 1) = r := by omega
        rw [List.map_append, List.map_singleton, List.nodup_append] at hnd
        have hnx : x.gid ∉ (ownedL pre).map Elm.gid := fun h => hnd.2.2 _ h _ (by simp) rfl
        have e1 := store_over ((ownedL pre).map (fun _ => (1 : Wgt))) (some 0) (Mem.ofList (List.replicate r 0)) 1
        have e2 := store_over ((ownedL pre).map Elm.centroid) none (Mem.alloc r) x.centroid
        have e3 := store_over ((ownedL pre).map Elm.gid) none (Mem.alloc r) x.gid
        rw [List.length_map] at e1 e2 e3
        have e4 := lookup_snoc hnx
        rw [List.length_map] at e4
        refine ⟨_, ?_, rfl⟩
        simp only [hr, if_true, Mem.alloc, Mem.ofList, List.replicate_succ, List.map_cons] at e1 e2 e3 ⊢
        rw [e1, Outcome.bind_ok]
        simp only [deref, Outcome.ofOption_some, Outcome.bind_ok]
        rw [e2, Outcome.bind_ok, e3, Outcome.bind_ok, e4]
        simp only [List.length_append, List.length_singleton, hr', List.map_append, List.map_cons, List.map_nil]
        rfl)
    ({ emptyGraph self peers with isHyper := true, globalVerts := total, numLocal := m.numOwned, weights := Mem.ofList (List.replicate m.numOwned 0), coords := some (Mem.alloc m.numOwned), localUnmap := Mem.alloc m.numOwned }, 0)
    (by
      have : m.numOwned = m.verts.length := by simp [MeshPart.numOwned, MeshPart.verts]
      rw [this]
      simp only [ownedL, List.filter_nil, List.map_nil, List.length_nil, Nat.sub_zero]
      have : lookup ([] : List Gid) = GMap.empty := by funext v; simp [lookup, GMap.empty]
      rw [this]
      rfl)
  simp only
  rw [e, Outcome.bind_ok, hs]
  have hl : m.verts.length - (ownedL m.elms).length = 0 := by simp [verts_eq]
  rw [hl]
  simp only [primGraph, List.replicate_zero, Mem.ofList, Mem.alloc, List.map_nil, List.append_nil, verts_eq, List.map_map]
  rfl

/-! ## edges -/

/-- the edge type after `setupSecondary` -/
def secType (dof : Bool) (total : Int) (es : List Ent) : EType :=
  { numEdges := es.length, numPins := 0, globalEdges := total, globalPins := 0, weights := Mem.ofList (es.map (entW dof)), degreeList := [], edgeList := [], pinDegree := [], pinList := [], edgeMap := lookup (es.map Ent.gid), unmap := Mem.ofList (es.map Ent.gid) }

theorem setupSecondary_eq (dof : Bool) {t : Nat} (total : Int) {m : MeshPart} {s : MGraph} (hT : s.g.numTypes ≠ maxTypes)
    (ht : t < m.ents.length) (hn : ((m.entsOf t).map Ent.gid).Nodup) :
    setupSecondary dof t total m s = .ok { s with g := { s.g with numTypes := s.g.numTypes + 1, types := s.g.types.set t (some (secType dof total (m.entsOf t))) } } := by
  unfold setupSecondary
  rw [if_neg hT, rd_ok ht, Outcome.bind_ok]
  have hes : m.ents[t] = m.entsOf t := by
    unfold MeshPart.entsOf
    rw [List.getD_eq_getElem?_getD, List.getElem?_eq_getElem ht, Option.getD_some]
  rw [hes]
  set es := m.entsOf t with hesdef
  obtain ⟨r, e, hr⟩ := foldlM_inv (secStep dof)
    (fun pre (s : EType × Nat) => s = ({ secType dof total es with weights := Mem.ofList (pre.map (entW dof)) ++ Mem.alloc (es.length - pre.length), unmap := Mem.ofList (pre.map Ent.gid) ++ Mem.alloc (es.length - pre.length), edgeMap := lookup (pre.map Ent.gid) }, pre.length))
    es
    (by
      intro pre x s hpre hs
      subst hs
      have hle := hpre.length_le
      rw [List.length_append, List.length_singleton] at hle
      obtain ⟨r, hr⟩ : ∃ r, es.length - pre.length = r + 1 := ⟨es.length - pre.length - 1, by omega⟩
      have hr' : es.length - (pre.length + 1) = r := by omega
      have hnd : ((pre ++ [x]).map Ent.gid).Nodup := List.Nodup.sublist (hpre.sublist.map _) hn
      rw [List.map_append, List.map_singleton, List.nodup_append] at hnd
      have hnx : x.gid ∉ pre.map Ent.gid := fun h => hnd.2.2 _ h _ (by simp) rfl
      have e1 := store_over (pre.map (entW dof)) none (Mem.alloc r) (entW dof x)
      have e3 := store_over (pre.map Ent.gid) none (Mem.alloc r) x.gid
      have e4 := lookup_snoc hnx
      rw [List.length_map] at e1 e3 e4
      refine ⟨_, ?_, rfl⟩
      unfold secStep setEdge
      simp only [hr, Mem.alloc, List.replicate_succ] at e1 e3 ⊢
      rw [e3, Outcome.bind_ok, e1, Outcome.bind_ok, e4]
      simp only [List.length_append, List.length_singleton, hr', List.map_append, List.map_cons, List.map_nil]
      rfl)
    ({ numEdges := es.length, numPins := 0, globalEdges := total, globalPins := 0, weights := Mem.alloc es.length, degreeList := [], edgeList := [], pinDegree := [], pinList := [], edgeMap := GMap.empty, unmap := Mem.alloc es.length }, 0)
    (by
      have : lookup ([] : List Gid) = GMap.empty := by funext v; simp [lookup, GMap.empty]
      simp only [List.map_nil, List.length_nil, Nat.sub_zero, this, secType]
      rfl)
  simp only
  rw [e, Outcome.bind_ok, hr]
  simp only [Nat.sub_self, Mem.alloc, List.replicate_zero, List.append_nil, secType]
  rfl

/-! ## vertices to edges -/

/-- offset of block `i` in the concatenation -/
def off {α : Type} (l : List (List α)) (i : Nat) : Nat := (l.take i).flatten.length

theorem off_succ {α : Type} (l : List (List α)) {i : Nat} (h : i < l.length) : off l (i + 1) = off l i + l[i].length := by
  unfold off
  rw [List.take_succ_eq_append_getElem h, List.flatten_append, List.length_append]
  simp

theorem off_mono {α : Type} (l : List (List α)) {i j : Nat} (h : i ≤ j) : off l i ≤ off l j := by
  unfold off
  have : l.take i = (l.take j).take i := by rw [List.take_take, Nat.min_eq_left h]
  rw [this]
  conv => rhs; rw [← List.take_append_drop i (l.take j)]
  rw [List.flatten_append, List.length_append]
  omega

theorem flatten_get {α : Type} (l : List (List α)) {i j : Nat} (hi : i < l.length) (hj : j < l[i].length) :
    l.flatten[off l i + j]? = some l[i][j] := by
  have h : l = l.take i ++ l[i] :: l.drop (i + 1) := by
    rw [List.getElem_cons_drop]; simp
  have hf : l.flatten = (l.take i).flatten ++ (l[i] ++ (l.drop (i + 1)).flatten) := by
    conv => lhs; rw [h]
    rw [List.flatten_append, List.flatten_cons]
  unfold off
  rw [hf, List.getElem?_append_right (by omega), Nat.add_sub_cancel_left, List.getElem?_append_left hj, List.getElem?_eq_getElem hj]

/-- the local edge numbers next to the owned entities -/
def adjL (t : Nat) (e : EType) (l : List Elm) : List (List Nat) :=
  (ownedL l).map (fun x => (x.down.getD t []).map (eidx e))

theorem connectToEdges_eq {t : Nat} {m : MeshPart} {s : MGraph} {e : EType} (he : s.g.types[t]? = some (some e))
    {ghosts : List Gid} (hk : (m.verts ++ ghosts).Nodup) (hmap : s.g.vtxMap = lookup (m.verts ++ ghosts))
    (hl : s.g.numLocal = m.verts.length) (hd : ∀ x ∈ m.elms, x.owned = true → t < x.down.length) :
    connectToEdges t m s = .ok ({ s with g := { s.g with types := s.g.types.set t (some { e with degreeList := Mem.ofList ((List.range (m.verts.length + 1)).map (off (adjL t e m.elms))), edgeList := Mem.ofList (adjL t e m.elms).flatten }) } }, (adjL t e m.elms).flatten.length) := by
  unfold connectToEdges
  rw [Graph.slot_ok he, Outcome.bind_ok, hl]
  have e0 := store_over ([] : List Nat) none (Mem.alloc m.verts.length) 0
  simp only [Mem.ofList, List.map_nil, List.nil_append, List.length_nil, Mem.alloc, ← List.replicate_succ] at e0
  simp only [Mem.alloc]
  rw [e0, Outcome.bind_ok]
  simp only [List.map_cons, List.map_nil, List.singleton_append]
  obtain ⟨r, e', hr⟩ := foldlM_inv (edgeStep t s.g e)
    (fun pre (r : Mem Nat × List Nat) => r = (Mem.ofList ((List.range ((ownedL pre).length + 1)).map (off (adjL t e m.elms))) ++ Mem.alloc (m.verts.length - (ownedL pre).length), (adjL t e pre).flatten))
    m.elms
    (by
      intro pre x s hpre hs
      subst hs
      unfold edgeStep
      cases hx : x.owned
      · refine ⟨_, rfl, ?_⟩
        unfold adjL
        rw [ownedL_snoc, hx]
        rfl
      · have hxm : x ∈ m.elms := hpre.subset (by simp)
        obtain ⟨R, hR⟩ := hpre
        have hfull : ownedL m.elms = ownedL pre ++ x :: ownedL R := by
          rw [← hR]; unfold ownedL; simp [hx]
        have hlen : m.verts.length = (ownedL pre).length + ((ownedL R).length + 1) := by
          rw [verts_eq, hfull]; simp
        have hidx : (m.verts ++ ghosts).idxOf x.gid = (ownedL pre).length := by
          have hlt : (ownedL pre).length < (m.verts ++ ghosts).length := by rw [List.length_append]; omega
          have : (m.verts ++ ghosts)[(ownedL pre).length] = x.gid := by
            rw [List.getElem_append_left (by omega)]
            simp [verts_eq, hfull]
          rw [← this]
          exact hk.idxOf_getElem _ _
        have hmem : x.gid ∈ m.verts ++ ghosts := by
          rw [verts_eq, hfull]; simp
        have hlk : Graph.lookup0 { emptyGraph 0 0 with vtxMap := lookup (m.verts ++ ghosts) } x.gid = (ownedL pre).length := by
          unfold Graph.lookup0
          simp only
          rw [lookup_of_mem hmem, Option.getD_some, hidx]
        rw [if_pos rfl, rd_ok (hd x hxm hx), Outcome.bind_ok]
        have hdn : x.down[t]'(hd x hxm hx) = x.down.getD t [] := by
          rw [List.getD_eq_getElem?_getD, List.getElem?_eq_getElem (hd x hxm hx), Option.getD_some]
        have hlk' : ∀ g : Graph, g.vtxMap = lookup (m.verts ++ ghosts) → g.lookup0 x.gid = (ownedL pre).length := by
          intro g hg
          unfold Graph.lookup0
          rw [hg, lookup_of_mem hmem, Option.getD_some, hidx]
        rw [hlk' _ hmap, hdn]
        have hr : m.verts.length - (ownedL pre).length = (ownedL R).length + 1 := by omega
        have hoff : (adjL t e pre).flatten.length + (x.down.getD t []).length =
            off (adjL t e m.elms) ((ownedL pre).length + 1) := by
          unfold off
          congr 1
          have : (adjL t e m.elms).take ((ownedL pre).length + 1) = adjL t e pre ++ [(x.down.getD t []).map (eidx e)] := by
            unfold adjL
            rw [hfull, List.map_append, List.map_cons]
            have hL : ((ownedL pre).map (fun x => (x.down.getD t []).map (eidx e))).length = (ownedL pre).length := by simp
            rw [List.take_append, hL, Nat.add_sub_cancel_left, List.take_of_length_le (by rw [hL]; omega)]
            rfl
          rw [this]
          simp
        have e1 := store_over ((List.range ((ownedL pre).length + 1)).map (off (adjL t e m.elms))) none
          (Mem.alloc (ownedL R).length) ((adjL t e pre).flatten.length + (x.down.getD t []).length)
        rw [List.length_map, List.length_range] at e1
        simp only [hr, Mem.alloc, List.replicate_succ] at e1 ⊢
        rw [e1, Outcome.bind_ok]
        refine ⟨_, rfl, ?_⟩
        unfold adjL at hoff ⊢
        rw [ownedL_snoc, hx, if_pos rfl]
        have hr2 : m.verts.length - (ownedL pre ++ [x]).length = (ownedL R).length := by simp; omega
        rw [hr2]
        congr 1
        · congr 2
          rw [List.length_append, List.length_singleton, List.range_succ (n := (ownedL pre).length + 1), List.map_append]
          rw [hoff]
          rfl
        · simp)
    (some 0 :: List.replicate m.verts.length none, [])
    (by simp [ownedL, adjL, off, Mem.ofList, Mem.alloc])
  rw [e', Outcome.bind_ok, hr]
  have hl' : (ownedL m.elms).length = m.verts.length := by simp [verts_eq]
  simp only [hl', Nat.sub_self, Mem.alloc, List.replicate_zero, List.append_nil]
  rfl

end Verif.Mesh
