import Verif.Vtk.VtkSpec
import Verif.Mesh.MeshBuild
import Verif.Agi.MigProps
import Mathlib.Algebra.Order.Ring.Rat
/-!
# The pieces of a `.vtu` file
-/
namespace Verif.Vtk
open Verif.Agi

/-! ## loops that print -/

theorem iterLoop_flat {σ α β : Type} {step : σ → Outcome (Handle × σ)} {f : Handle → Outcome (List β)} {hd : α → Handle}
    {F : α → List β} {xs : List α} {s : σ} {fuel : Nat} (hy : Yields step s (xs.map hd)) (hf : xs.length < fuel)
    (hb : ∀ x ∈ xs, f (hd x) = .ok (F x)) :
    iterLoop step (fun acc v => do
      let x ← f v
      return (acc ++ x, false)) fuel s [] = .ok (xs.flatMap F) := by
  rw [iterLoop_yields _ _ s fuel [] hy (by simpa using hf)]
  have : ∀ (xs : List α) (acc : List β), (∀ x ∈ xs, f (hd x) = .ok (F x)) →
      loopList (fun acc v => do
        let x ← f v
        return (acc ++ x, false)) (xs.map hd) acc = .ok (acc ++ xs.flatMap F) := by
    intro xs
    induction xs with
    | nil => intro acc _; simp [loopList]
    | cons x xs ih =>
      intro acc h
      rw [List.map_cons, loopList]
      simp only
      rw [h x (by simp)]
      simp only [Outcome.bind_ok, Outcome.pure_eq]
      have := ih (acc ++ F x) (fun y hy => h y (by simp [hy]))
      simp only [Outcome.pure_eq] at this
      rw [if_neg (by simp), this]
      simp
  simpa using this xs [] hb

section
variable {g : Graph} {hyper : Bool} {V G : List Gid} {types : List EdgeInput}

theorem eachVertex_eq {β : Type} (hv : VRep g V G) {f : Handle → Outcome (List β)} {F : Gid → List β}
    (hb : ∀ v ∈ V, f (getVertex ((V ++ G).idxOf v)) = .ok (F v)) : eachVertex g f = .ok (V.flatMap F) := by
  unfold eachVertex
  exact iterLoop_flat (yields_verts hv) (by unfold Graph.bound; rw [hv.nl]; omega) hb

theorem eachEdge_eq {β : Type} (h : CRep g hyper V G types) (ht : 0 < types.length) {f : Handle → Outcome (List β)}
    {F : Nat → List β} (hb : ∀ k, k < types[0].pins.length → f (g.getEdge k 0) = .ok (F k)) :
    eachEdge g f = .ok ((List.range types[0].pins.length).flatMap F) := by
  unfold eachEdge
  obtain ⟨it, e, hy⟩ := yields_edgeBegin h ht
  rw [e, Outcome.bind_ok]
  obtain ⟨e, he, hr, -⟩ := h.typ 0 ht
  refine iterLoop_flat hy ?_ (fun k hk => hb k (List.mem_range.mp hk))
  rw [List.length_range]
  have := bound_ge he
  rw [hr.numE] at this
  omega

theorem eachPin_eq {β : Type} (h : CRep g true V G types) (ht : 0 < types.length) {k : Nat} (hk : k < types[0].pins.length)
    {f : Handle → Outcome (List β)} {F : Gid → List β}
    (hb : ∀ v ∈ types[0].pins[k], f (getVertex ((V ++ G).idxOf v)) = .ok (F v)) :
    eachPin g (g.getEdge k 0) f = .ok (types[0].pins[k].flatMap F) := by
  unfold eachPin
  obtain ⟨it, e, hy⟩ := yields_pins_hyper h ht hk
  rw [e, Outcome.bind_ok]
  obtain ⟨e, he, hr, -⟩ := h.typ 0 ht
  refine iterLoop_flat hy ?_ hb
  have := bound_ge he
  have h1 : types[0].pins[k].length ≤ types[0].pins.flatten.length := by
    rw [List.length_flatten]
    exact le_sum_of_mem (List.mem_map.mpr ⟨_, List.getElem_mem hk, rfl⟩)
  rw [hr.numP] at this
  omega

/-! ## the coordinates of the ghosts -/

theorem coordStore_eq {c : Gid → Coord} {own : Gid → Nat} (hv : VRep g V G) (ho : ORep g G (fun v => (own v : Int)))
    (hs : ∀ v ∈ G, (own v : Int) ≠ g.self) (a : Mem Coord) {m : Nat × (Gid × Coord)} (hm : m.2.1 ∈ G) :
    coordStore g a m = g.ghostStore a m := by
  have hnv : m.2.1 ∉ V := fun h => (List.nodup_append.mp hv.nodup).2.2 _ h _ hm rfl
  have hk : m.2.1 ∈ V ++ G := by simp [hm]
  unfold coordStore Graph.ghostStore
  rw [findGID_eq hv hk, Outcome.bind_ok, owner_eq hv ho hk, Outcome.bind_ok]
  simp only [ownerOf, hnv, if_false]
  rw [if_neg (hs _ hm)]
  have := vidx_getVertex ((V ++ G).idxOf m.2.1)
  rw [this, Outcome.bind_ok, lookup0_eq hv hk]

theorem mapM_agree {α β : Type} {f f' : α → Outcome β} {l : List α} (h : ∀ x ∈ l, f x = f' x) : l.mapM f = l.mapM f' := by
  induction l with
  | nil => rfl
  | cons a l ih =>
    rw [List.mapM_cons, List.mapM_cons, h a (by simp), ih (fun x hx => h x (by simp [hx]))]

theorem foldlM_agree {α β : Type} {f f' : β → α → Outcome β} : ∀ (l : List α) (b : β), (∀ b, ∀ x ∈ l, f b x = f' b x) →
    l.foldlM f b = l.foldlM f' b := by
  intro l
  induction l with
  | nil => intro b _; rfl
  | cons a l ih =>
    intro b h
    rw [List.foldlM_cons, List.foldlM_cons, h b a (by simp)]
    cases hh : f' b a with
    | ok x => rw [Outcome.bind_ok, Outcome.bind_ok]; exact ih x (fun b x hx => h b x (by simp [hx]))
    | fail => rfl
    | ub => rfl

end

theorem ghostCoords_eq {n : Nat} {gr : Nat → Graph} {V G : Nat → List Gid} {own : Gid → Nat} {val : Gid → Coord}
    (hv : ∀ p, p < n → VRep (gr p) (V p) (G p)) (ho : ∀ p, p < n → ORep (gr p) (G p) (fun v => (own v : Int)))
    (hself : ∀ p, p < n → (gr p).self = (p : Int)) (hgn : ∀ p, p < n → ∀ v ∈ G p, own v ≠ p)
    (hgo : ∀ p, p < n → ∀ v ∈ G p, own v < n ∧ v ∈ V (own v))
    (hcb : ∀ q, q < n → ∀ v ∈ V q, (gr q).coord (getVertex ((V q ++ G q).idxOf v)) = .ok (val v))
    {o1 o2 : Nat → List Nat} (ho1 : Orders n o1) (ho2 : Orders n o2) :
    ghostCoords ((List.range n).map gr) o1 o2 = .ok ((List.range n).map (fun p => Mem.ofList ((G p).map val))) := by
  unfold ghostCoords
  rw [mapM_range (G := fun p => (G p).map (fun v => ((own v : Int), v))) (fun p hp => Mesh.ghostReq_eq (hv p hp) (ho p hp)), Outcome.bind_ok]
  rw [exchange_range (by
    intro p hp m hm
    obtain ⟨v, hv', rfl⟩ := List.mem_map.mp hm
    have := (hgo p hp v hv').1
    simp only
    omega), Outcome.bind_ok, zip_range]
  set I1 := fun q => inbox ((List.range n).map (fun p => (G p).map (fun v => ((own v : Int), v)))) (o1 q) q with hI1
  have hmem1 : ∀ q, q < n → ∀ m : Nat × Gid, m ∈ I1 q ↔ m.1 < n ∧ m.2 ∈ G m.1 ∧ own m.2 = q := by
    intro q hq m
    simp only [hI1]
    rw [mem_inbox_range ho1 hq, List.mem_map]
    constructor
    · rintro ⟨h1, v, h2, h3⟩
      rw [Prod.mk.injEq] at h3
      rw [← h3.2]
      exact ⟨h1, h2, by have := h3.1; omega⟩
    · rintro ⟨h1, h2, h3⟩
      exact ⟨h1, m.2, h2, by rw [h3]⟩
  rw [mapM_range (G := fun q => (I1 q).map (fun m => ((m.1 : Int), (m.2, val m.2)))) (by
    intro q hq
    unfold coordReplies
    apply mapM_ok
    intro m hm
    obtain ⟨h1, h2, h3⟩ := (hmem1 q hq m).mp hm
    have hvq := (hgo m.1 h1 m.2 h2).2
    rw [h3] at hvq
    rw [findGID_eq (hv q hq) (List.mem_append_left _ hvq), Outcome.bind_ok, hcb q hq m.2 hvq]
    rfl), Outcome.bind_ok]
  rw [exchange_range (by
    intro q hq m hm
    obtain ⟨x, hx, rfl⟩ := List.mem_map.mp hm
    have := ((hmem1 q hq x).mp hx).1
    simp only
    omega), Outcome.bind_ok, zip_range]
  apply mapM_range
  intro p hp
  simp only
  have hmem2 : ∀ m : Nat × (Gid × Coord), m ∈ inbox ((List.range n).map (fun q => (I1 q).map (fun m => ((m.1 : Int), (m.2, val m.2))))) (o2 p) p ↔
      m.1 < n ∧ m.2.1 ∈ G p ∧ own m.2.1 = m.1 ∧ m.2.2 = val m.2.1 := by
    intro m
    rw [mem_inbox_range ho2 hp, List.mem_map]
    constructor
    · rintro ⟨h1, x, h2, h3⟩
      rw [Prod.mk.injEq] at h3
      obtain ⟨h4, h5, h6⟩ := (hmem1 m.1 h1 x).mp h2
      have hxp : x.1 = p := by have := h3.1; omega
      rw [← h3.2]
      exact ⟨h1, by rw [← hxp]; exact h5, h6, rfl⟩
    · rintro ⟨h1, h2, h3, h4⟩
      refine ⟨h1, (p, m.2.1), ?_, ?_⟩
      · rw [hmem1 m.1 h1]
        exact ⟨hp, h2, h3⟩
      · rw [Prod.mk.injEq]
        exact ⟨rfl, by rw [← h4]⟩
  obtain ⟨tag, et, htl, hta⟩ := ghostStore_fold (hv p hp) val _ (fun m hm => by
    obtain ⟨-, h2, -, h4⟩ := (hmem2 m).mp hm
    exact ⟨h2, h4⟩)
  rw [foldlM_agree (f' := (gr p).ghostStore) _ _ (fun a m hm => coordStore_eq (c := val) (hv p hp) (ho p hp) (by
    intro v hvg
    have := hgn p hp v hvg
    rw [hself p hp]
    omega) a ((hmem2 m).mp hm).2.1), et]
  congr 1
  apply ofList_of_get
  · simpa using htl
  · intro j hj
    have hj' : j < (G p).length := by simpa using hj
    rw [List.getElem_map]
    apply hta j hj'
    have hvj : (G p)[j] ∈ G p := List.getElem_mem hj'
    exact ⟨(own (G p)[j], ((G p)[j], val (G p)[j])), (hmem2 _).mpr ⟨(hgo p hp _ hvj).1, hvj, rfl, rfl⟩, rfl⟩

/-! ## one part -/

/-- what part `p` knows: its vertices, its ghosts, who owns them, and coordinates of its vertices -/
structure VPart (g : Graph) (hyper : Bool) (V G : List Gid) (types : List EdgeInput) (own : Gid → Nat) (c : Gid → Coord) (p : Nat) : Prop where
  core : CRep g hyper V G types
  one : 0 < types.length
  owns : ORep g G (fun v => (own v : Int))
  rank : g.self = (p : Int)
  mine : ∀ v ∈ V, own v = p
  theirs : ∀ v ∈ G, own v ≠ p
  coord : ∀ v ∈ V, g.coord (getVertex ((V ++ G).idxOf v)) = .ok (c v)

section
variable {g : Graph} {hyper : Bool} {V G : List Gid} {types : List EdgeInput} {own : Gid → Nat} {c : Gid → Coord} {p : Nat}

theorem VPart.owner (h : VPart g hyper V G types own c p) {v : Gid} (hv : v ∈ V ++ G) :
    g.owner (getVertex ((V ++ G).idxOf v)) = .ok (own v : Int) := by
  rw [owner_eq h.core.v h.owns hv]
  unfold ownerOf
  split
  · next hm => rw [h.rank, h.mine v hm]
  · rfl

theorem VPart.pin (h : VPart g hyper V G types own c p) {v : Gid} (hv : v ∈ V ++ G) :
    pinCoord g (Mem.ofList (G.map c)) (getVertex ((V ++ G).idxOf v)) = .ok (c v) := by
  unfold pinCoord
  rw [h.owner hv, Outcome.bind_ok, h.rank]
  by_cases hm : v ∈ V
  · rw [if_neg (by rw [h.mine v hm]; simp), h.coord v hm]
  · have hg : v ∈ G := by
      rcases List.mem_append.mp hv with h1 | h1
      · exact absurd h1 hm
      · exact h1
    have hlt := List.idxOf_lt_length_of_mem hg
    have := h.theirs v hg
    rw [if_pos (by omega), vidx_getVertex, Outcome.bind_ok, List.idxOf_append_of_notMem hm, h.core.v.nl, if_neg (by omega),
      Nat.add_sub_cancel_left, Mem.load_ofList (by simpa using hlt)]
    simp

end

end Verif.Vtk
