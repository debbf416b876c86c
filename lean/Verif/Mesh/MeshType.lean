import Verif.Mesh.MeshMsgs
/-!
# One edge type of a mesh graph on all parts
-/
namespace Verif.Mesh
open Verif.Agi

/-- the local numbers of the edges next to the vertices -/
def adjN (t : Nat) (m : MeshPart) : List (List Nat) :=
  (ownedL m.elms).map (fun x => (x.down.getD t []).map (fun e => (lookup ((m.entsOf t).map Ent.gid) e).getD 0))

/-- the pins of the edges -/
def pinLists (ms : List MeshPart) (t : Nat) (ord : Nat → List Nat) (p : Nat) : List (List Gid) :=
  ((part ms p).entsOf t).map (fun x => pinsAt ms t ord p x.gid)

/-- the number of pins in the whole graph -/
def pinTotal (ms : List MeshPart) (t : Nat) : Int :=
  ((List.range ms.length).map (fun p => ((adjN t (part ms p)).flatten.length : Int))).sum

/-- the finished edge type -/
def meshType (dof : Bool) (ms : List MeshPart) (t : Nat) (total : Int) (ord : Nat → List Nat) (p : Nat) (known : List Gid) : EType :=
  { numEdges := ((part ms p).entsOf t).length, numPins := (pinLists ms t ord p).flatten.length, globalEdges := total, globalPins := pinTotal ms t, weights := Mem.ofList (((part ms p).entsOf t).map (entW dof)), degreeList := Mem.ofList ((List.range ((part ms p).verts.length + 1)).map (off (adjN t (part ms p)))), edgeList := Mem.ofList (adjN t (part ms p)).flatten, pinDegree := Mem.ofList ((List.range ((pinLists ms t ord p).length + 1)).map (off (pinLists ms t ord p))), pinList := Mem.ofList ((pinLists ms t ord p).flatten.map (fun v => known.idxOf v)), edgeMap := lookup (((part ms p).entsOf t).map Ent.gid), unmap := Mem.ofList (((part ms p).entsOf t).map Ent.gid) }

/-- the graph under construction on part `p` after `t` edge types -/
structure St (dof : Bool) (ms : List MeshPart) (own : Gid → Nat) (tot : Nat → Int) (ord : Nat → Nat → List Nat) (gv : Int)
    (t p : Nat) (s : MGraph) : Prop where
  base : s.g = { primGraph p ms.length gv (part ms p) with numTypes := t, numGhost := s.ghosts.length, vtxMap := lookup ((part ms p).verts ++ s.ghosts), types := s.g.types }
  slots : s.g.types.length = maxTypes
  types : ∀ t', t' < t → s.g.types[t']? = some (some (meshType dof ms t' (tot t') (ord t') p ((part ms p).verts ++ s.ghosts)))
  nodup : ((part ms p).verts ++ s.ghosts).Nodup
  owns : s.owns = s.ghosts.map (fun v => (own v : Int))
  ghosts : ∀ v, v ∈ s.ghosts ↔ v ∉ (part ms p).verts ∧ ∃ t', t' < t ∧ ∃ x ∈ (part ms p).entsOf t', v ∈ pinsAt ms t' (ord t') p x.gid

theorem verts_nodup {ms : List MeshPart} {T : Nat} {own : Gid → Nat} (h : MeshOk ms T own) {p : Nat} (hp : p < ms.length) :
    (part ms p).verts.Nodup :=
  List.Nodup.sublist ((List.filter_sublist).map _) (h.elms p hp).1

theorem set_get {α : Type} {l : List α} {t : Nat} (h : t < l.length) (x : α) : (l.set t x)[t]? = some x := by
  rw [List.getElem?_set, if_pos rfl, if_pos h]

instance : Inhabited MGraph := ⟨⟨emptyGraph 0 0, [], []⟩⟩

theorem addType_spec {ms : List MeshPart} {T : Nat} {own : Gid → Nat} (h : MeshOk ms T own) {tot : Nat → Int}
    {ord : Nat → Nat → List Nat} {gv : Int} {t : Nat} (ht : t < T) {dof : Bool} {oc : Nat → List Nat}
    (hoc : Orders ms.length oc) (hop : Orders ms.length (ord t)) {S : Nat → MGraph}
    (hS : ∀ p, p < ms.length → St dof ms own tot ord gv t p (S p)) :
    ∃ S' : Nat → MGraph, addType dof ms t (tot t) oc (ord t) ((List.range ms.length).map S) =
      .ok ((List.range ms.length).map S') ∧ ∀ p, p < ms.length → St dof ms own tot ord gv (t + 1) p (S' p) := by
  have hms : ms = (List.range ms.length).map (part ms) := list_range ms ⟨[], []⟩
  have htl : ∀ p, p < ms.length → t < (S p).g.types.length := fun p hp => by
    rw [(hS p hp).slots]; exact Nat.lt_of_lt_of_le ht h.few
  have hte : ∀ p, p < ms.length → t < (part ms p).ents.length := fun p hp => by rw [(h.ents p hp).1]; exact ht
  have hnd : ∀ p, p < ms.length → (((part ms p).entsOf t).map Ent.gid).Nodup := fun p hp => (h.ents p hp).2 t ht
  have hnt : ∀ p, p < ms.length → (S p).g.numTypes = t := fun p hp => by rw [(hS p hp).base]
  have hmap0 : ∀ p, p < ms.length → (S p).g.vtxMap = lookup ((part ms p).verts ++ (S p).ghosts) := fun p hp => by
    rw [(hS p hp).base]
  have hnl0 : ∀ p, p < ms.length → (S p).g.numLocal = (part ms p).verts.length := fun p hp => by
    rw [(hS p hp).base]; rfl
  have hng0 : ∀ p, p < ms.length → (S p).g.numGhost = (S p).ghosts.length := fun p hp => by
    rw [(hS p hp).base]
  -- the graphs in between
  let mid : (Nat → EType) → Nat → MGraph := fun E p =>
    { S p with g := { (S p).g with numTypes := t + 1, types := (S p).g.types.set t (some (E p)) } }
  have hget : ∀ (E : Nat → EType) p, p < ms.length → (mid E p).g.types[t]? = some (some (E p)) := fun E p hp =>
    set_get (htl p hp) _
  let E1 : Nat → EType := fun p => secType dof (tot t) ((part ms p).entsOf t)
  let E2 : Nat → EType := fun p => { E1 p with degreeList := Mem.ofList ((List.range ((part ms p).verts.length + 1)).map (off (adjN t (part ms p)))), edgeList := Mem.ofList (adjN t (part ms p)).flatten }
  let E3 : Nat → EType := fun p => { E2 p with globalPins := pinTotal ms t }
  let E4 : Nat → EType := fun p => { E3 p with pinDegree := Mem.ofList ((List.range ((pinLists ms t (ord t) p).length + 1)).map (off (pinLists ms t (ord t) p))), numPins := (pinLists ms t (ord t) p).flatten.length, pinList := Mem.alloc (pinLists ms t (ord t) p).flatten.length }
  have s1 : (ms.zip ((List.range ms.length).map S)).mapM (fun x => setupSecondary dof t (tot t) x.1 x.2) =
      .ok ((List.range ms.length).map (mid E1)) := by
    conv => lhs; rw [hms]
    rw [List.length_map, List.length_range, zip_range]
    apply mapM_range
    intro p hp
    simp only
    rw [setupSecondary_eq dof (tot t) (by rw [hnt p hp]; exact Nat.ne_of_lt (Nat.lt_of_lt_of_le ht h.few)) (hte p hp) (hnd p hp), hnt p hp]
  have s2 : (ms.zip ((List.range ms.length).map (mid E1))).mapM (fun x => connectToEdges t x.1 x.2) =
      .ok ((List.range ms.length).map (fun p => (mid E2 p, (adjN t (part ms p)).flatten.length))) := by
    conv => lhs; rw [hms]
    rw [List.length_map, List.length_range, zip_range]
    apply mapM_range
    intro p hp
    simp only
    rw [connectToEdges_eq (hget E1 p hp) (hS p hp).nodup (hmap0 p hp) (hnl0 p hp)
      (fun x hx ho => by rw [(h.down p hp x hx ho).1]; exact ht)]
    simp only [mid, List.set_set]
    rfl
  have s3 : (((List.range ms.length).map (fun p => (mid E2 p, (adjN t (part ms p)).flatten.length))).map Prod.fst).mapM
      (setGlobalPins t ((((List.range ms.length).map (fun p => (mid E2 p, (adjN t (part ms p)).flatten.length))).map (fun x => (x.2 : Int))).sum)) =
      .ok ((List.range ms.length).map (mid E3)) := by
    rw [List.map_map, List.map_map]
    apply mapM_range
    intro p hp
    simp only [Function.comp_apply]
    unfold setGlobalPins
    rw [Graph.slot_ok (hget E2 p hp), Outcome.bind_ok]
    simp only [mid, List.set_set, Outcome.pure_eq]
    rfl
  -- counts
  obtain ⟨C, hC⟩ := choose_part (n := ms.length)
    (P := fun p (pdl : List (Option Nat)) => countPins dof t p (part ms p) (mid E3 p) = .ok (pdl, countMsgs p ((part ms p).entsOf t)) ∧
      pdl.length = ((part ms p).entsOf t).length + 1 ∧ pdl[0]? = some (some 0) ∧
      ∀ k (h : k < ((part ms p).entsOf t).length), pdl[k + 1]? = some (some ((part ms p).entsOf t)[k].mine.length))
    (fun p hp => countPins_eq (hget E3 p hp) (hte p hp) (hnd p hp) rfl rfl)
  have s4 : ((ms.zip ((List.range ms.length).map (mid E3))).zipIdx).mapM (fun x => countPins dof t x.2 x.1.1 x.1.2) =
      .ok ((List.range ms.length).map (fun p => (C p, countMsgs p ((part ms p).entsOf t)))) := by
    conv => lhs; rw [hms]
    rw [List.length_map, List.length_range, zip_range, zipIdx_range]
    apply mapM_range
    intro p hp
    exact (hC p hp).1
  let I1 : Nat → List (Nat × (Gid × Nat)) := fun p =>
    inbox ((List.range ms.length).map (fun q => countMsgs q ((part ms q).entsOf t))) (oc p) p
  have s5 : exchange (((List.range ms.length).map (fun p => (C p, countMsgs p ((part ms p).entsOf t)))).map Prod.snd) oc =
      .ok ((List.range ms.length).map I1) := by
    rw [List.map_map]
    apply exchange_range
    intro q hq m hm
    obtain ⟨r, hr, hlt, -⟩ := countMsgs_to h hq ht hm
    rw [hr]; omega
  have hplen : ∀ p, (pinLists ms t (ord t) p).length = (((part ms p).entsOf t).map Ent.gid).length := by
    intro p; simp [pinLists]
  have s6 : (((List.range ms.length).map (mid E3)).zip ((((List.range ms.length).map (fun p => (C p, countMsgs p ((part ms p).entsOf t)))).map Prod.fst).zip
      ((List.range ms.length).map I1))).mapM (fun x => finishCounts t x.1 x.2.1 x.2.2) =
      .ok ((List.range ms.length).map (mid E4)) := by
    rw [List.map_map, zip_range, zip_range]
    apply mapM_range
    intro p hp
    simp only [Function.comp_apply]
    obtain ⟨-, c2, c3, c4⟩ := hC p hp
    rw [finishCounts_eq (hget E3 p hp) (hnd p hp) (by simp [E3, E2, E1, secType]) rfl
      (fun k => (pinsFrom (part ms p) t ((((part ms p).entsOf t).map Ent.gid).getD k 0)).length) (C p) (by simpa using c2) c3
      (by
        intro k hk
        rw [List.length_map] at hk
        rw [c4 k hk]
        congr 2
        -- the part's own pins of an edge
        have hg : (((part ms p).entsOf t).map Ent.gid).getD k 0 = ((part ms p).entsOf t)[k].gid := by
          rw [List.getD_eq_getElem?_getD, List.getElem?_eq_getElem (by simpa using hk), Option.getD_some, List.getElem_map]
        rw [hg]
        have hnn := hnd p hp
        unfold pinsFrom
        have hkm : ((part ms p).entsOf t)[k] ∈ (part ms p).entsOf t := List.getElem_mem hk
        generalize ((part ms p).entsOf t)[k] = y at hkm
        generalize (part ms p).entsOf t = L at hnn hkm
        induction L with
        | nil => simp at hkm
        | cons z L ih =>
          rw [List.map_cons, List.nodup_cons] at hnn
          rw [List.flatMap_cons, List.length_append]
          rcases List.mem_cons.mp hkm with rfl | hk'
          · have : (L.flatMap (fun x => if x.gid = y.gid then x.mine else [])) = [] := by
              rw [List.flatMap_eq_nil_iff]
              intro w hw
              rw [if_neg]
              intro e
              exact hnn.1 (List.mem_map.mpr ⟨w, hw, e⟩)
            rw [this]; simp
          · have hne : z.gid ≠ y.gid := fun e => hnn.1 (List.mem_map.mpr ⟨y, hk', e.symm⟩)
            rw [if_neg hne, ← ih hnn.2 hk']; simp)
      (I1 p)
      (by
        intro m hm
        rw [mem_inbox_range hoc hp] at hm
        obtain ⟨r, hr, -, hmem⟩ := countMsgs_to h hm.1 ht hm.2
        have : r = p := by simp only at hr; omega
        rw [← this]; exact hmem)
      (pinLists ms t (ord t) p) (hplen p)
      (by
        intro k hk
        have hk' : k < ((part ms p).entsOf t).length := by simpa using hk
        have hx : (((part ms p).entsOf t).map Ent.gid)[k] ∈ ((part ms p).entsOf t).map Ent.gid := List.getElem_mem hk
        rw [counted_inbox h hp ht hx hoc]
        have hg : (((part ms p).entsOf t).map Ent.gid).getD k 0 = (((part ms p).entsOf t).map Ent.gid)[k] := by
          rw [List.getD_eq_getElem?_getD, List.getElem?_eq_getElem hk, Option.getD_some]
        rw [hg]
        have hps : (pinLists ms t (ord t) p)[k]'(by rw [hplen]; exact hk) = pinsAt ms t (ord t) p (((part ms p).entsOf t).map Ent.gid)[k] := by
          simp [pinLists]
        rw [hps]
        unfold pinsAt
        rw [List.length_append, List.length_flatMap]
        congr 1
        exact (((hop p hp).trans (hoc p hp).symm).map _).sum_nat)]
    simp only [mid, List.set_set]
    rfl
  -- pins
  let I2 : Nat → List (Nat × (Gid × Gid)) := fun p =>
    inbox ((List.range ms.length).map (fun q => pinMsgs q ((part ms q).entsOf t))) (ord t p) p
  let K : Nat → List Gid := fun p => extend ((part ms p).verts ++ (S p).ghosts) ((I2 p).map (fun m => m.2.2))
  have hall : ∀ p, p < ms.length → ∀ a ∈ ownPins ((part ms p).entsOf t) ++ (I2 p).map Prod.snd, a.1 ∈ ((part ms p).entsOf t).map Ent.gid := by
    intro p hp a ha
    rcases List.mem_append.mp ha with ha | ha
    · obtain ⟨y, hy, ha⟩ := List.mem_flatMap.mp ha
      obtain ⟨v, -, rfl⟩ := List.mem_map.mp ha
      exact List.mem_map.mpr ⟨y, hy, rfl⟩
    · obtain ⟨m, hm, rfl⟩ := List.mem_map.mp ha
      rw [mem_inbox_range hop hp] at hm
      obtain ⟨⟨r, hr, -, hmem⟩, -⟩ := pinMsgs_to h hm.1 ht hm.2
      have : r = p := by simp only at hr; omega
      rw [← this]; exact hmem
  have hps : ∀ p, p < ms.length → ∀ u (hu : u < (((part ms p).entsOf t).map Ent.gid).length),
      (pinLists ms t (ord t) p)[u]'(by rw [hplen]; exact hu) =
        pinsOf (((part ms p).entsOf t).map Ent.gid)[u] (ownPins ((part ms p).entsOf t) ++ (I2 p).map Prod.snd) := by
    intro p hp u hu
    rw [pinsOf_inbox h hp ht (List.getElem_mem hu) hop]
    simp [pinLists]
  obtain ⟨F, hF⟩ := choose_part (n := ms.length)
    (P := fun p (f : List (Option Nat) × List (Option Nat)) => localPins t p (part ms p) (mid E4 p) = .ok (f, pinMsgs p ((part ms p).entsOf t)) ∧
      FillInv ((part ms p).entsOf t).length (fun u => ((pinLists ms t (ord t) p).getD u []).length)
        (coded (((part ms p).entsOf t).map Ent.gid) (K p) (ownPins ((part ms p).entsOf t))) f.1 f.2)
    (fun p hp => localPins_eq (hget E4 p hp) (hte p hp) (hnd p hp) rfl rfl (by simpa using hplen p) rfl rfl
      (extend_prefix _ _) (hmap0 p hp)
      (fun x hx v hv => List.mem_append_left _ (mine_own h hp ht hx hv).1)
      (List.prefix_append _ _) (hall p hp)
      (fun u hu => by
        rw [← hps p hp u hu, List.getD_eq_getElem?_getD, List.getElem?_eq_getElem (by rw [hplen]; exact hu), Option.getD_some]))
  have s7 : ((ms.zip ((List.range ms.length).map (mid E4))).zipIdx).mapM (fun x => localPins t x.2 x.1.1 x.1.2) =
      .ok ((List.range ms.length).map (fun p => (F p, pinMsgs p ((part ms p).entsOf t)))) := by
    conv => lhs; rw [hms]
    rw [List.length_map, List.length_range, zip_range, zipIdx_range]
    apply mapM_range
    intro p hp
    exact (hF p hp).1
  have s8 : exchange (((List.range ms.length).map (fun p => (F p, pinMsgs p ((part ms p).entsOf t)))).map Prod.snd) (ord t) =
      .ok ((List.range ms.length).map I2) := by
    rw [List.map_map]
    apply exchange_range
    intro q hq m hm
    obtain ⟨⟨r, hr, hlt, -⟩, -⟩ := pinMsgs_to h hq ht hm
    rw [hr]; omega
  obtain ⟨G, hG⟩ := choose_part (n := ms.length)
    (P := fun p (gh : List Gid) => (part ms p).verts ++ gh = K p ∧ finishPins t (mid E4 p) (F p) (I2 p) =
      .ok ⟨{ (mid E4 p).g with vtxMap := lookup ((part ms p).verts ++ gh), numGhost := gh.length, types := (mid E4 p).g.types.set t (some { E4 p with pinList := Mem.ofList ((pinLists ms t (ord t) p).flatten.map (fun v => ((part ms p).verts ++ gh).idxOf v)) }) }, gh, gh.map (fun v => (own v : Int))⟩)
    (fun p hp => by
      have := finishPins_eq (s := mid E4 p) (hget E4 p hp) (hnd p hp) (by simp [E4, E3, E2, E1, secType]) rfl (hplen p) rfl
        (hS p hp).nodup (hmap0 p hp) (hnl0 p hp) (hng0 p hp) (own := own) (hS p hp).owns (I2 p)
        (fun m hm => hall p hp m.2 (List.mem_append_right _ (List.mem_map.mpr ⟨m, hm, rfl⟩)))
        (fun m hm => by
          rw [mem_inbox_range hop hp] at hm
          exact (pinMsgs_to h hm.1 ht hm.2).2.symm)
        (own0 := ownPins ((part ms p).entsOf t))
        (fun m hm => hall p hp m (List.mem_append_left _ hm))
        (fun m hm => by
          obtain ⟨y, hy, hm⟩ := List.mem_flatMap.mp hm
          obtain ⟨v, hv, rfl⟩ := List.mem_map.mp hm
          exact List.mem_append_left _ (mine_own h hp ht hy hv).1)
        (hps p hp) (f := F p) (by simpa using (hF p hp).2)
      exact this)
  let S' : Nat → MGraph := fun p => ⟨{ (mid E4 p).g with vtxMap := lookup ((part ms p).verts ++ G p), numGhost := (G p).length, types := (mid E4 p).g.types.set t (some { E4 p with pinList := Mem.ofList ((pinLists ms t (ord t) p).flatten.map (fun v => ((part ms p).verts ++ G p).idxOf v)) }) }, G p, (G p).map (fun v => (own v : Int))⟩
  refine ⟨S', ?_, ?_⟩
  · unfold addType
    rw [s1, Outcome.bind_ok, s2, Outcome.bind_ok, s3, Outcome.bind_ok, s4, Outcome.bind_ok, s5, Outcome.bind_ok, s6, Outcome.bind_ok,
      s7, Outcome.bind_ok, s8, Outcome.bind_ok, List.map_map, zip_range, zip_range]
    apply mapM_range
    intro p hp
    exact (hG p hp).2
  · intro p hp
    obtain ⟨hg1, -⟩ := hG p hp
    have hst := hS p hp
    have hKnd : ((part ms p).verts ++ G p).Nodup := by
      rw [hg1]; exact nodup_extend _ hst.nodup
    have hpre : (part ms p).verts ++ (S p).ghosts <+: (part ms p).verts ++ G p := by rw [hg1]; exact extend_prefix _ _
    have hmemK : ∀ v, v ∈ (part ms p).verts ++ G p ↔ v ∈ (part ms p).verts ++ (S p).ghosts ∨ ∃ m ∈ I2 p, m.2.2 = v := by
      intro v
      rw [hg1, mem_extend, List.mem_map]
    have hnew : ∀ v, v ∉ (part ms p).verts → ((∃ m ∈ I2 p, m.2.2 = v) ↔ ∃ x ∈ (part ms p).entsOf t, v ∈ pinsAt ms t (ord t) p x.gid) := by
      intro v hv
      constructor
      · rintro ⟨m, hm, rfl⟩
        have hx := hall p hp m.2 (List.mem_append_right _ (List.mem_map.mpr ⟨m, hm, rfl⟩))
        obtain ⟨x, hxm, hxe⟩ := List.mem_map.mp hx
        refine ⟨x, hxm, ?_⟩
        rw [hxe, ← pinsOf_inbox h hp ht hx hop]
        unfold pinsOf
        rw [List.mem_map]
        exact ⟨m.2, by rw [List.mem_filter]; exact ⟨List.mem_append_right _ (List.mem_map.mpr ⟨m, hm, rfl⟩), by simp⟩, rfl⟩
      · rintro ⟨x, hx, hvx⟩
        rw [← pinsOf_inbox h hp ht (List.mem_map.mpr ⟨x, hx, rfl⟩) hop] at hvx
        unfold pinsOf at hvx
        obtain ⟨a, ha, rfl⟩ := List.mem_map.mp hvx
        rw [List.mem_filter] at ha
        rcases List.mem_append.mp ha.1 with h1 | h1
        · exfalso
          obtain ⟨y, hy, h1⟩ := List.mem_flatMap.mp h1
          obtain ⟨w, hw, rfl⟩ := List.mem_map.mp h1
          exact hv (mine_own h hp ht hy hw).1
        · obtain ⟨m, hm, rfl⟩ := List.mem_map.mp h1
          exact ⟨m, hm, rfl⟩
    refine ⟨?_, ?_, ?_, hKnd, rfl, ?_⟩
    · simp only [S', mid]
      rw [hst.base]
    · simp only [S', mid, List.length_set]
      exact hst.slots
    · intro t' ht'
      simp only [S', mid, List.set_set]
      by_cases hlt : t' < t
      · rw [List.getElem?_set, if_neg (by omega), hst.types t' hlt]
        congr 2
        unfold meshType
        congr 2
        apply List.map_congr_left
        intro v hv
        obtain ⟨l, hl, hvl⟩ := List.mem_flatten.mp hv
        obtain ⟨x, hx, rfl⟩ := List.mem_map.mp hl
        refine (idxOf_prefix hpre ?_).symm
        by_cases hvv : v ∈ (part ms p).verts
        · exact List.mem_append_left _ hvv
        · exact List.mem_append_right _ ((hst.ghosts v).mpr ⟨hvv, t', hlt, x, hx, hvl⟩)
      · have : t' = t := by omega
        subst this
        rw [set_get (htl p hp)]
        rfl
    · intro v
      simp only [S']
      have hdis : v ∈ G p → v ∉ (part ms p).verts := fun h1 h2 => (List.nodup_append.mp hKnd).2.2 v h2 v h1 rfl
      constructor
      · intro hv
        have hnv := hdis hv
        refine ⟨hnv, ?_⟩
        rcases (hmemK v).mp (List.mem_append_right _ hv) with h1 | h1
        · rcases List.mem_append.mp h1 with h1 | h1
          · exact absurd h1 hnv
          · obtain ⟨-, t', ht', r⟩ := (hst.ghosts v).mp h1
            exact ⟨t', by omega, r⟩
        · exact ⟨t, by omega, (hnew v hnv).mp h1⟩
      · rintro ⟨hnv, t', ht', r⟩
        have : v ∈ (part ms p).verts ++ G p := by
          rw [hmemK]
          by_cases hlt : t' < t
          · exact Or.inl (List.mem_append_right _ ((hst.ghosts v).mpr ⟨hnv, t', hlt, r⟩))
          · have : t' = t := by omega
            subst this
            exact Or.inr ((hnew v hnv).mpr r)
        rcases List.mem_append.mp this with h1 | h1
        · exact absurd h1 hnv
        · exact h1

end Verif.Mesh
