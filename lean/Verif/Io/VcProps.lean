import Verif.Io.VcMove
import Verif.Io.FileWitness
/-!
# Property C64: `binGraph::migrate` puts every edge on the part chosen for it

The edges arrive where they should (`c64_moved_partial`), but no run that gives some part an edge between two vertices
gets to its end: the copy of the counts reads beyond their array (`c64_ub`).
-/
namespace Verif.Io
open Verif.Agi Verif.Part

/-! ## what arrives is what was assigned -/

theorem arrived_perm {gs : List Graph} {Fs : List (List (Nat × Nat))} {maps : List (List (Nat × Part))} {o1 : Nat → List Nat}
    (hl : maps.length = gs.length) (ho : Orders gs.length o1) {q : Nat} (hq : q < gs.length) :
    (arrived Fs maps o1 q).Perm (assigned Fs maps q) := by
  unfold arrived assigned
  rw [hl]
  exact List.Perm.flatMap_right _ (ho q hq)

/-- every entry is for one part -/
theorem dests_sum (P : Nat) (l : List (Nat × Part)) (h : ∀ x ∈ l, 0 ≤ x.2 ∧ x.2 < (P : Int)) :
    ((List.range P).map (fun q : Nat => (l.filter (fun x => decide (x.2 = (q : Int)))).length)).sum = l.length := by
  induction l with
  | nil => simp
  | cons x l ih =>
    obtain ⟨h1, h2⟩ := h x (by simp)
    have e : ∀ q : Nat, ((x :: l).filter (fun x => decide (x.2 = (q : Int)))).length =
        (if x.2.toNat = q then 1 else 0) + (l.filter (fun x => decide (x.2 = (q : Int)))).length := by
      intro q
      rw [List.filter_cons]
      by_cases hq : x.2 = (q : Int)
      · rw [if_pos (by simpa using hq), if_pos (by omega), List.length_cons]; omega
      · rw [if_neg (by simpa using hq), if_neg (by omega)]; omega
    simp only [e]
    rw [List.sum_map_add, sum_range_indicator P x.2.toNat (by omega), ih (fun y hy => h y (by simp [hy])), List.length_cons]
    omega

theorem total_edges {gs : List Graph} {Fs : List (List (Nat × Nat))} {maps : List (List (Nat × Part))} {n : Nat}
    (h : VcStart gs Fs maps n) {o1 : Nat → List Nat} (ho : Orders gs.length o1) :
    ((List.range gs.length).map (fun q => ((arrived Fs maps o1 q).length : Int))).sum =
      ((maps.map List.length).sum : Nat) := by
  have e1 : ((List.range gs.length).map (fun q => ((arrived Fs maps o1 q).length : Int))).sum =
      (((List.range gs.length).map (fun q => (assigned Fs maps q).length)).sum : Nat) := by
    have cs : ∀ l : List Nat, (∀ q ∈ l, q < gs.length) → (l.map (fun q => ((arrived Fs maps o1 q).length : Int))).sum =
        ((l.map (fun q => (assigned Fs maps q).length)).sum : Nat) := by
      intro l hl
      induction l with
      | nil => rfl
      | cons q l ih =>
        simp only [List.map_cons, List.sum_cons]
        rw [ih (fun x hx => hl x (by simp [hx])), (arrived_perm (Fs := Fs) h.lenM ho (hl q (by simp))).length_eq]
        omega
    exact cs _ (fun q hq => List.mem_range.mp hq)
  rw [e1]
  congr 1
  have e2 : ∀ q, (assigned Fs maps q).length = ((List.range maps.length).map (fun p =>
      ((maps.getD p []).filter (fun x => decide (x.2 = (q : Int)))).length)).sum := by
    intro q
    unfold assigned
    rw [List.length_flatMap]
    simp
  simp only [e2]
  have sw : ∀ (A B : List Nat) (f : Nat → Nat → Nat), (A.map (fun a => (B.map (fun b => f a b)).sum)).sum =
      (B.map (fun b => (A.map (fun a => f a b)).sum)).sum := by
    intro A B f
    induction A with
    | nil => simp
    | cons a A ih => simp only [List.map_cons, List.sum_cons, ih, List.sum_map_add]
  rw [sw]
  have e3 : maps.map List.length = (List.range maps.length).map (fun p => (maps.getD p []).length) := by
    apply List.ext_getElem
    · simp
    · intro k h1 h2
      have : k < maps.length := by simpa using h1
      simp [this]
  rw [e3]
  congr 1
  apply List.map_congr_left
  intro p hp
  have hp' : p < gs.length := by have := List.mem_range.mp hp; rw [h.lenM] at this; exact this
  exact dests_sum gs.length _ (fun x hx => (h.keys p hp' x hx).2)

/-- **C64, the edges.**  For every way the messages arrive: after the exchange and the construction part `q` has exactly
the edges the maps sent to it, between the vertices they joined before; its vertices are the ends of those edges, each
once and of weight 1; all parts agree on the number of edges.  Missing: the shared vertices (`c64_ub`). -/
theorem c64_moved_partial {gs : List Graph} {Fs : List (List (Nat × Nat))} {maps : List (List (Nat × Part))} {n : Nat}
    (h : VcStart gs Fs maps n) {o1 : Nat → List Nat} (ho : Orders gs.length o1) (o2 o3 : Nat → List Nat) :
    ∃ gs', vcMove gs maps o1 o2 o3 = .ok gs' ∧ gs'.length = gs.length ∧ ∀ q (hq : q < gs'.length),
      ∃ (F : List (Nat × Nat)) (vs : List Gid), F.Perm (assigned Fs maps q) ∧ VcShows gs'[q] F ∧
        gs'[q].numLocalEdges 0 = .ok F.length ∧ gs'[q].numGlobalEdges 0 = .ok (((maps.map List.length).sum : Nat) : Int) ∧
        vs.Nodup ∧ (∀ z : Gid, z ∈ vs ↔ ∃ e ∈ assigned Fs maps q, z = (e.1 : Int) ∨ z = (e.2 : Int)) ∧
        gs'[q].numLocal = vs.length ∧
        ∀ k (hk : k < vs.length), gs'[q].globalID (getVertex k) = .ok vs[k] ∧ gs'[q].vtxMap vs[k] = some k ∧
          gs'[q].weight (getVertex k) = .ok 1 := by
  obtain ⟨gs', e, hl, hm⟩ := vcMove_spec h ho o2 o3
  refine ⟨gs', e, hl, fun q hq => ?_⟩
  have hM := hm q hq
  have hp := arrived_perm (Fs := Fs) h.lenM ho (show q < gs.length by omega)
  refine ⟨vcOrder q (arrived Fs maps o1 q), vcIds q (arrived Fs maps o1 q), (order_perm q _).trans hp, hM.shows_, ?_, ?_,
    nodup_vcIds _ _, ?_, hM.count, ?_⟩
  · rw [hM.edges, (order_perm q _).length_eq]
  · rw [hM.gedges, total_edges h ho]
  · intro z
    rw [mem_vcIds]
    constructor
    · rintro ⟨x, hx, rfl⟩
      obtain ⟨e, he, hxe⟩ := mem_flat.mp hx
      refine ⟨e, hp.mem_iff.mp he, ?_⟩
      rcases hxe with rfl | rfl
      · exact Or.inl rfl
      · exact Or.inr rfl
    · rintro ⟨e, he, hz | hz⟩
      · exact ⟨e.1, mem_flat.mpr ⟨e, hp.mem_iff.mpr he, Or.inl rfl⟩, hz⟩
      · exact ⟨e.2, mem_flat.mpr ⟨e, hp.mem_iff.mpr he, Or.inr rfl⟩, hz⟩
  · intro k hk
    refine ⟨?_, ?_, hM.weight k (by rw [hM.count]; exact hk)⟩
    · unfold Graph.globalID
      rw [vidx_getVertex, Outcome.bind_ok, if_neg (by rw [hM.count]; omega), hM.unmap, Mem.load_ofList hk]
    · rw [hM.map, lookup_of_mem (List.getElem_mem hk), (nodup_vcIds _ _).idxOf_getElem]

/-! ## nothing but undefined behaviour goes wrong before the copy -/

theorem bind_nofail {α β : Type} {x : Outcome α} {f : α → Outcome β} (h : x ≠ .fail) (hf : ∀ a, x = .ok a → f a ≠ .fail) :
    (x >>= f) ≠ .fail := by
  cases x with
  | ok a => exact hf a rfl
  | fail => exact absurd rfl h
  | ub => intro hc; cases hc

theorem load_nofail {α : Type} (m : Mem α) (i : Nat) : m.load i ≠ .fail := by
  unfold Mem.load
  split <;> (intro h; cases h)

theorem store_nofail {α : Type} (m : Mem α) (i : Nat) (x : α) : m.store i x ≠ .fail := by
  unfold Mem.store
  split <;> (intro h; cases h)

theorem mapM_nofail {α β : Type} {f : α → Outcome β} {l : List α} (h : ∀ x ∈ l, f x ≠ .fail) : l.mapM f ≠ .fail := by
  induction l with
  | nil => intro hc; cases hc
  | cons a l ih =>
    rw [List.mapM_cons]
    refine bind_nofail (h a (by simp)) (fun b _ => bind_nofail (ih (fun x hx => h x (by simp [hx]))) (fun bs _ => ?_))
    intro hc; cases hc

theorem foldlM_nofail {α σ : Type} {f : σ → α → Outcome σ} {l : List α} (h : ∀ s, ∀ x ∈ l, f s x ≠ .fail) (s : σ) :
    l.foldlM f s ≠ .fail := by
  induction l generalizing s with
  | nil => intro hc; cases hc
  | cons a l ih =>
    rw [List.foldlM_cons]
    exact bind_nofail (h s a (by simp)) (fun b _ => ih (fun s x hx => h s x (by simp [hx])) b)

theorem mapM_ub' {α β : Type} {f : α → Outcome β} {l : List α} {x : α} (hx : x ∈ l) (h : f x = .ub)
    (hnf : ∀ y ∈ l, f y ≠ .fail) : l.mapM f = .ub := by
  induction l with
  | nil => simp at hx
  | cons a l ih =>
    rw [List.mapM_cons]
    rcases List.mem_cons.mp hx with rfl | hx
    · rw [h]; rfl
    · cases ha : f a with
      | ok b => rw [Outcome.bind_ok, ih hx (fun y hy => hnf y (by simp [hy]))]; rfl
      | fail => exact absurd ha (hnf a (by simp))
      | ub => rfl

/-- the loop that counts: one count for each vertex heard of that the part has -/
theorem vcHear_spec {g : Graph} {ids : List Gid} (hn : g.numLocal = ids.length) (hm : g.vtxMap = lookup ids)
    (inbox : List (Nat × Gid)) :
    ∃ s c, inbox.foldlM (vcHear g) ⟨[], Mem.ofList (List.replicate (g.numLocal + 1) 0)⟩ = .ok s ∧
      s.deg = Mem.ofList c ∧ c.length = g.numLocal + 1 ∧ c.sum = s.dups.length := by
  have := foldlM_inv (vcHear g) (fun _ s => ∃ c : List Nat, s.deg = Mem.ofList c ∧ c.length = g.numLocal + 1 ∧ c.sum = s.dups.length)
    inbox (by
      intro pre x s _ hI
      obtain ⟨c, h1, h2, h3⟩ := hI
      unfold vcHear
      rw [hm]
      by_cases hx : x.2 ∈ ids
      · rw [lookup_of_mem hx]
        have hlt : ids.idxOf x.2 < ids.length := List.idxOf_lt_length_of_mem hx
        have hc : ids.idxOf x.2 + 1 < c.length := by omega
        unfold incr
        simp only
        rw [h1, Mem.load_ofList hc, Outcome.bind_ok, Mem.store_ok _ (by simpa [Mem.ofList] using hc), Outcome.bind_ok]
        refine ⟨_, rfl, c.set (ids.idxOf x.2 + 1) (c[ids.idxOf x.2 + 1] + 1), by simp [Mem.ofList, List.map_set], by simpa using h2, ?_⟩
        rw [List.length_append, ← h3]
        have hs : ∀ (c : List Nat) (i : Nat) (hi : i < c.length), (c.set i (c[i] + 1)).sum = c.sum + 1 := by
          intro c
          induction c with
          | nil => intro i hi; simp at hi
          | cons a c ih =>
            intro i hi
            cases i with
            | zero => simp; omega
            | succ i =>
              have := ih i (by simpa using hi)
              simp only [List.set_cons_succ, List.getElem_cons_succ, List.sum_cons, this]
              omega
        rw [hs c _ hc]
        rfl
      · rw [lookup_of_not_mem hx]
        exact ⟨s, rfl, c, h1, h2, h3⟩) ⟨[], Mem.ofList (List.replicate (g.numLocal + 1) 0)⟩
    ⟨List.replicate (g.numLocal + 1) 0, rfl, by simp, by simp⟩
  obtain ⟨s, e, c, h1, h2, h3⟩ := this
  exact ⟨s, c, e, h1, h2, h3⟩

/-- the running sums in place -/
theorem vcSum_spec (c : List Nat) (n : Nat) (hc : c.length = n + 1) :
    ∃ d, (List.range' 1 n).foldlM vcSum (Mem.ofList c) = .ok d ∧ d.length = n + 1 ∧ d.load n = .ok c.sum := by
  obtain ⟨d, e, h1, h2⟩ := range_inv vcSum (fun k (d : Mem Nat) => d.length = n + 1 ∧
      ∀ j, j < n + 1 → d[j]? = some (some (if j ≤ k then (c.take (j + 1)).sum else c.getD j 0))) 1 n (by
    intro k d hk hI
    obtain ⟨hl, hI⟩ := hI
    have ha : d.load (1 + k) = .ok (c.getD (1 + k) 0) := by
      apply Mem.load_ok
      rw [hI _ (by omega), if_neg (by omega)]
    have hb : d.load (1 + k - 1) = .ok ((c.take (k + 1)).sum) := by
      apply Mem.load_ok
      rw [show 1 + k - 1 = k by omega, hI _ (by omega), if_pos (Nat.le_refl _)]
    unfold vcSum
    rw [ha, Outcome.bind_ok, hb, Outcome.bind_ok, Mem.store_ok _ (by omega)]
    refine ⟨_, rfl, by simpa using hl, ?_⟩
    intro j hj
    rw [List.getElem?_set]
    by_cases hjk : 1 + k = j
    · subst hjk
      rw [if_pos rfl, if_pos (by omega), if_pos (by omega)]
      have : (c.take (1 + k + 1)).sum = (c.take (k + 1)).sum + c.getD (1 + k) 0 := by
        rw [show 1 + k + 1 = (k + 1) + 1 by omega, List.take_add_one, List.sum_append, show 1 + k = k + 1 by omega]
        have : k + 1 < c.length := by omega
        simp [this]
      rw [this, Nat.add_comm]
    · rw [if_neg hjk, hI j hj]
      by_cases hjk' : j ≤ k
      · rw [if_pos hjk', if_pos (by omega)]
      · rw [if_neg hjk', if_neg (by omega)]) (Mem.ofList c) (by
    refine ⟨by simp [Mem.ofList, hc], ?_⟩
    intro j hj
    have hj' : j < c.length := by omega
    by_cases h0 : j ≤ 0
    · have : j = 0 := by omega
      subst this
      cases c with
      | nil => simp at hj'
      | cons a c => simp [Mem.ofList]
    · rw [if_neg h0]
      simp [Mem.ofList, hj'])
  refine ⟨d, e, h1, ?_⟩
  apply Mem.load_ok
  rw [h2 n (by omega), if_pos (Nat.le_refl _), List.take_of_length_le (by omega)]

/-- the steps up to the copy are defined and the assertion holds; with two vertices or more the copy is undefined -/
theorem vcSplit_out {g : Graph} {ids : List Gid} (hn : g.numLocal = ids.length) (hm : g.vtxMap = lookup ids) (little : Bool)
    (inbox : List (Nat × Gid)) :
    vcSplit little g inbox ≠ .fail ∧ (2 ≤ g.numLocal → vcSplit little g inbox = .ub) := by
  obtain ⟨s, c, e1, h1, h2, h3⟩ := vcHear_spec hn hm inbox
  obtain ⟨d, e2, h4, h5⟩ := vcSum_spec c g.numLocal h2
  unfold vcSplit
  rw [e1, Outcome.bind_ok, h1, e2, Outcome.bind_ok, h5, Outcome.bind_ok, if_neg (by rw [h3]; simp)]
  constructor
  · refine bind_nofail ?_ (fun t _ => bind_nofail (foldlM_nofail (fun s x _ => ?_) _) (fun r _ => by intro hc; cases hc))
    · unfold vcCopy
      split
      · intro hc; cases hc
      · refine bind_nofail (mapM_nofail (fun k _ => ?_)) (fun r _ => by intro hc; cases hc)
        exact bind_nofail (load_nofail _ _) (fun a _ => bind_nofail (load_nofail _ _) (fun b _ => by intro hc; cases hc))
    · unfold vcPut cursorPut
      exact bind_nofail (load_nofail _ _) (fun a _ => bind_nofail (store_nofail _ _ _) (fun b _ =>
        bind_nofail (store_nofail _ _ _) (fun r _ => by intro hc; cases hc)))
  · intro h
    unfold vcCopy
    rw [if_pos (by omega)]
    rfl

/-- **C64 is false of the code.**  Whatever the graph, the map, the order of the messages and of the bytes: as soon as
one part is given an edge between two different vertices, the call is undefined (binGraph.cpp:130 copies `8*n` bytes out
of an array of `4*(n+1)`). -/
theorem c64_ub {gs : List Graph} {Fs : List (List (Nat × Nat))} {maps : List (List (Nat × Part))} {n : Nat}
    (h : VcStart gs Fs maps n) {o1 : Nat → List Nat} (ho : Orders gs.length o1) (o2 o3 o4 : Nat → List Nat) (little : Bool)
    {q : Nat} (hq : q < gs.length) {e : Nat × Nat} (he : e ∈ assigned Fs maps q) (hne : e.1 ≠ e.2) :
    vcMigrate little gs maps o1 o2 o3 o4 = .ub := by
  obtain ⟨gs', em, hl, hm⟩ := vcMove_spec h ho o2 o3
  unfold vcMigrate
  rw [em, Outcome.bind_ok]
  obtain ⟨tells, et, htl, ht⟩ := mapM_idx (f := fun q => do
      let g ← rd gs' q
      vcTell g gs'.length q)
    (fun _ (l : List (Part × Gid)) => ∀ m ∈ l, 0 ≤ m.1 ∧ m.1 < (gs'.length : Int)) (List.range gs'.length) (by
      intro p hp
      have hp' : p < gs'.length := by simpa using hp
      simp only [List.getElem_range]
      have hM := hm p hp'
      rw [rd_ok hp', Outcome.bind_ok]
      unfold vcTell
      rw [mapM_ok (g := fun k => (vcIds p (arrived Fs maps o1 p)).getD k 0) (by
        intro k hk
        have hk' : k < (vcIds p (arrived Fs maps o1 p)).length := by rw [← hM.count]; exact List.mem_range.mp hk
        rw [hM.unmap, Mem.load_ofList hk', getD_in 0 hk']), Outcome.bind_ok]
      refine ⟨_, rfl, ?_⟩
      intro m hmm
      obtain ⟨v, -, hv⟩ := List.mem_flatMap.mp hmm
      obtain ⟨j, -, rfl⟩ := List.mem_map.mp hv
      have : (p + j) % gs'.length < gs'.length := Nat.mod_lt _ (by omega)
      constructor
      · exact Int.natCast_nonneg _
      · show (((p + j) % gs'.length : Nat) : Int) < _
        exact_mod_cast this)
  rw [List.length_range] at htl
  rw [et, Outcome.bind_ok, exchange_ok _ (by
    intro o hoo m hmm
    obtain ⟨p, hp, rfl⟩ := List.mem_iff_getElem.mp hoo
    rw [htl]
    exact ht p hp m hmm), Outcome.bind_ok]
  have hq' : q < gs'.length := by omega
  rw [mapM_ub' (x := (gs'[q], inbox tells (o4 q) q)) (by
      refine List.mem_iff_getElem.mpr ⟨q, by simp [htl, hq'], ?_⟩
      simp) ?_ ?_]
  · rfl
  · refine (vcSplit_out (hm q hq').count (hm q hq').map little _).2 ?_
    rw [(hm q hq').count]
    have hp := arrived_perm (Fs := Fs) h.lenM ho hq
    have h1 : (e.1 : Int) ∈ vcIds q (arrived Fs maps o1 q) := mem_vcIds.mpr ⟨_, mem_flat.mpr ⟨e, hp.mem_iff.mpr he, Or.inl rfl⟩, rfl⟩
    have h2 : (e.2 : Int) ∈ vcIds q (arrived Fs maps o1 q) := mem_vcIds.mpr ⟨_, mem_flat.mpr ⟨e, hp.mem_iff.mpr he, Or.inr rfl⟩, rfl⟩
    have hne' : (e.1 : Int) ≠ (e.2 : Int) := by omega
    match hv : vcIds q (arrived Fs maps o1 q) with
    | [] => rw [hv] at h1; simp at h1
    | [a] =>
      rw [hv] at h1 h2
      simp only [List.mem_singleton] at h1 h2
      exact absurd (h1.trans h2.symm) hne'
    | a :: b :: l => simp
  · intro y hy
    obtain ⟨p, hp, rfl⟩ := List.mem_iff_getElem.mp hy
    have hp' : p < gs'.length := by simp at hp; omega
    rw [List.getElem_zip]
    exact (vcSplit_out (hm p hp').count (hm p hp').map little _).1

/-! ## a case: rank 0 has read a graph of four vertices and five edges, rank 1 is empty -/

/-- as `create_dist_csr` leaves it on one rank -/
def vcWhole : Graph :=
  match createDistCsr 1 0 4 5 (Mem.ofList [0, 0, 0, 0]) (Mem.ofList [0, 1, 1, 2, 2, 3, 0, 2, 3, 0]) with
  | .ok g => g
  | _ => emptyGraph 0 1

def vcFs : List (List (Nat × Nat)) := [[(0, 1), (0, 2), (1, 2), (2, 3), (3, 0)], []]

/-- edges 1, 3 and 4 stay, edges 0 and 2 go -/
def vcMaps : List (List (Nat × Part)) := [[(3, 0), (0, 1), (1, 0), (4, 0), (2, 1)], []]

theorem vcSample : VcStart [vcWhole, emptyGraph 1 1] vcFs vcMaps 4 := by
  refine ⟨rfl, rfl, by decide +kernel, by decide, ?_, ?_, ?_, ?_⟩
  · intro g hg
    rcases List.mem_cons.mp hg with rfl | hg
    · exact ⟨by decide +kernel, by decide +kernel, by decide +kernel, by decide +kernel⟩
    · rw [List.mem_singleton.mp hg]
      exact ⟨rfl, rfl, by decide, by decide⟩
  · intro p h hne
    have h1 : p = 0 ∨ p = 1 := by simp at h; omega
    rcases h1 with rfl | rfl
    · show vcWhole.numTypes = 1
      decide +kernel
    · exact absurd rfl hne
  · intro p h
    have h1 : p = 0 ∨ p = 1 := by simp at h; omega
    rcases h1 with rfl | rfl
    · show VcShows vcWhole [(0, 1), (0, 2), (1, 2), (2, 3), (3, 0)]
      intro l hl
      have h2 : l = 0 ∨ l = 1 ∨ l = 2 ∨ l = 3 ∨ l = 4 := by simp at hl; omega
      rcases h2 with rfl | rfl | rfl | rfl | rfl
      · exact ⟨0, 1, by decide +kernel, by decide +kernel, by decide +kernel, show _ = Outcome.ok (0 : Int) by decide +kernel, by decide +kernel, show _ = Outcome.ok (1 : Int) by decide +kernel⟩
      · exact ⟨0, 2, by decide +kernel, by decide +kernel, by decide +kernel, show _ = Outcome.ok (0 : Int) by decide +kernel, by decide +kernel, show _ = Outcome.ok (2 : Int) by decide +kernel⟩
      · exact ⟨1, 2, by decide +kernel, by decide +kernel, by decide +kernel, show _ = Outcome.ok (1 : Int) by decide +kernel, by decide +kernel, show _ = Outcome.ok (2 : Int) by decide +kernel⟩
      · exact ⟨2, 3, by decide +kernel, by decide +kernel, by decide +kernel, show _ = Outcome.ok (2 : Int) by decide +kernel, by decide +kernel, show _ = Outcome.ok (3 : Int) by decide +kernel⟩
      · exact ⟨3, 0, by decide +kernel, by decide +kernel, by decide +kernel, show _ = Outcome.ok (3 : Int) by decide +kernel, by decide +kernel, show _ = Outcome.ok (0 : Int) by decide +kernel⟩
    · intro l hl
      exact absurd hl (by simp [vcFs])
  · intro p h
    have h1 : p = 0 ∨ p = 1 := by simp at h; omega
    rcases h1 with rfl | rfl
    · show ∀ x ∈ [((3 : Nat), (0 : Int)), (0, 1), (1, 0), (4, 0), (2, 1)], x.1 < 5 ∧ 0 ≤ x.2 ∧ x.2 < 2
      decide
    · intro x hx
      simp [vcMaps] at hx

example : assigned vcFs vcMaps 0 = [(2, 3), (0, 2), (3, 0)] ∧ assigned vcFs vcMaps 1 = [(0, 1), (1, 2)] := by decide

example (o2 o3 : Nat → List Nat) := c64_moved_partial vcSample orders_two.1 o2 o3

/-- the edges of the two parts after the exchange, by the ids of their ends -/
example : (do
    let gs : List Graph ← vcMove [vcWhole, emptyGraph 1 1] vcMaps twoOrder twoOrder flipOrder
    gs.mapM (fun (g : Graph) => do
      let n ← g.numLocalEdges 0
      (List.range n).mapM (fun l => do
        let u ← g.uEdge (g.getEdge l 0)
        let v ← g.vOf (g.getEdge l 0)
        let a ← g.globalID u
        let b ← g.globalID v
        return (a, b)))) = .ok [[((2 : Int), (3 : Int)), (3, 0), (0, 2)], [(0, 1), (1, 2)]] := by decide +kernel

/-- **finding:** this call is undefined -/
theorem c64_sample_ub (little : Bool) (o4 : Nat → List Nat) :
    vcMigrate little [vcWhole, emptyGraph 1 1] vcMaps twoOrder twoOrder flipOrder o4 = .ub :=
  c64_ub vcSample orders_two.1 _ _ _ little (q := 0) (by decide) (e := (2, 3)) (by decide) (by decide)

end Verif.Io
