import Verif.Agi.IterProps
/-!
# Owners and residence: lemmas
-/
namespace Verif.Agi

/-- the owner table: the owner of the `k`-th ghost is `own` of its gid -/
def ORep (g : Graph) (ghosts : List Gid) (own : Gid → Part) : Prop :=
  (ghosts = [] ∧ g.owners = none) ∨ g.owners = some (Mem.ofList (ghosts.map own))

/-- the owner of a vertex as seen from part `me` with local vertices `verts` -/
def ownerOf (me : Part) (verts : List Gid) (own : Gid → Part) (v : Gid) : Part :=
  if v ∈ verts then me else own v

theorem owner_eq {g : Graph} {verts ghosts : List Gid} {own : Gid → Part} (h : VRep g verts ghosts)
    (ho : ORep g ghosts own) {v : Gid} (hv : v ∈ verts ++ ghosts) :
    g.owner (getVertex ((verts ++ ghosts).idxOf v)) = .ok (ownerOf g.self verts own v) := by
  unfold Graph.owner ownerOf
  simp only [getVertex, fromPtr, if_neg (Nat.succ_ne_zero _), Nat.add_sub_cancel]
  have hlt := List.idxOf_lt_length_of_mem hv
  rw [List.length_append] at hlt
  rw [h.nl, h.ng, if_neg (by omega)]
  by_cases hm : v ∈ verts
  · rw [if_pos hm, if_pos (idxOf_lt_iff.mpr hm)]
  · rw [if_neg hm, if_neg (fun hc => hm (idxOf_lt_iff.mp hc))]
    have hge : verts.length ≤ (verts ++ ghosts).idxOf v := by
      rcases Nat.lt_or_ge ((verts ++ ghosts).idxOf v) verts.length with h1 | h1
      · exact absurd (idxOf_lt_iff.mp h1) hm
      · exact h1
    rcases ho with ⟨h1, -⟩ | h1
    · subst h1; simp only [List.append_nil, List.length_nil, Nat.add_zero] at hlt hge; omega
    · rw [h1]
      simp only [deref, Outcome.ofOption_some, Outcome.bind_ok]
      rw [Mem.load_ofList (by simp; omega)]
      simp only [List.getElem_map]
      congr 2
      have := List.getElem_idxOf (List.idxOf_lt_length_of_mem hv)
      rw [List.getElem_append_right hge] at this
      exact this

theorem owner_local {g : Graph} {verts ghosts : List Gid} (h : VRep g verts ghosts) {u : Nat}
    (hu : u < verts.length) : g.owner (getVertex u) = .ok g.self := by
  unfold Graph.owner
  simp only [getVertex, fromPtr, if_neg (Nat.succ_ne_zero _), Nat.add_sub_cancel]
  rw [h.nl, h.ng, if_neg (by omega), if_pos hu]

theorem fillOwners_spec {g : Graph} {verts ghosts : List Gid} (h : VRep g verts ghosts) (owns : GMap Part) :
    ∃ g', g.fillOwners owns = .ok g' ∧ ORep g' ghosts (fun v => (owns v).getD 0) ∧
      g' = { g with owners := g'.owners } := by
  unfold Graph.fillOwners
  by_cases hz : g.numGhost = 0
  · rw [if_pos hz]
    refine ⟨_, rfl, .inl ⟨?_, rfl⟩, rfl⟩
    rw [h.ng] at hz; exact List.length_eq_zero_iff.mp hz
  · rw [if_neg hz]
    rcases h.gho with ⟨h1, -⟩ | h1
    · rw [h.ng, h1] at hz; simp at hz
    · rw [h1]
      simp only [deref, Outcome.ofOption_some, Outcome.bind_ok]
      obtain ⟨m, e, hl, ha⟩ := range_inv (fun (m : Mem Part) v => do
          let gid ← (Mem.ofList ghosts).load v
          m.store v ((owns gid).getD 0))
        (fun k m => m.length = ghosts.length ∧ ∀ j (_ : j < k) (h : j < ghosts.length),
          m[j]? = some (some ((owns ghosts[j]).getD 0))) 0 ghosts.length
        (by
          intro k m hk ⟨hl, ha⟩
          rw [Nat.zero_add, Mem.load_ofList hk, Outcome.bind_ok, Mem.store_ok _ (by omega)]
          refine ⟨_, rfl, by simpa using hl, ?_⟩
          intro j hj hjg
          rw [List.getElem?_set]
          by_cases he : k = j
          · subst he; rw [if_pos rfl, if_pos (by omega)]
          · rw [if_neg he]; exact ha j (by omega) hjg)
        (Mem.alloc ghosts.length) ⟨by simp, by omega⟩
      rw [h.ng, e]
      refine ⟨_, rfl, .inr ?_, ?_⟩
      · simp only [Option.some.injEq]
        apply ofList_of_get
        · simpa using hl
        · intro k hk
          have hk' : k < ghosts.length := by simpa using hk
          rw [ha k hk' hk']; simp
      · have hng := h.ng; cases g; simp only [Graph.mk.injEq] at *

theorem CRep.of_eq {g g' : Graph} {hyper : Bool} {verts ghosts : List Gid} {types : List EdgeInput}
    (h : CRep g hyper verts ghosts types) (e : g' = { g with owners := g'.owners }) :
    CRep g' hyper verts ghosts types := by
  rw [e]
  exact ⟨⟨h.v.nl, h.v.ng, h.v.nodup, h.v.map, h.v.loc, h.v.gho⟩, h.hyp, h.numTypes, h.typ, h.pins, h.wf⟩

/-! ## sets -/

theorem Peers.mem_insert (p q : Part) (s : Peers) : p ∈ Peers.insert q s ↔ p = q ∨ p ∈ s := by
  induction s with
  | nil => simp [Peers.insert]
  | cons a s ih =>
    rw [Peers.insert]
    split
    · simp
    · split
      · rename_i h; subst h; simp
      · rw [List.mem_cons, ih, List.mem_cons]; tauto

theorem Peers.sorted_insert (q : Part) (s : Peers) (h : s.Pairwise (· < ·)) :
    (Peers.insert q s).Pairwise (· < ·) := by
  induction s with
  | nil => simp [Peers.insert]
  | cons a s ih =>
    rw [Peers.insert]
    rw [List.pairwise_cons] at h
    split
    · rename_i hq
      rw [List.pairwise_cons]
      refine ⟨?_, by rw [List.pairwise_cons]; exact h⟩
      intro b hb
      rcases List.mem_cons.mp hb with rfl | hb
      · exact hq
      · have := h.1 b hb; omega
    · split
      · rw [List.pairwise_cons]; exact h
      · rw [List.pairwise_cons]
        refine ⟨?_, ih h.2⟩
        intro b hb
        rcases (Peers.mem_insert b q s).mp hb with rfl | hb
        · omega
        · exact h.1 b hb

theorem Peers.foldl_insert (os : List Part) : ∀ (s : Peers), s.Pairwise (· < ·) →
    (os.foldl (fun s o => Peers.insert o s) s).Pairwise (· < ·) ∧
    ∀ p, p ∈ os.foldl (fun s o => Peers.insert o s) s ↔ p ∈ s ∨ p ∈ os := by
  induction os with
  | nil => intro s h; simp [h]
  | cons o os ih =>
    intro s h
    obtain ⟨h1, h2⟩ := ih (Peers.insert o s) (Peers.sorted_insert o s h)
    refine ⟨h1, fun p => ?_⟩
    rw [List.foldl_cons, h2, Peers.mem_insert, List.mem_cons]; tauto

/-! ## rounds of the residence loops -/

/-- successive rounds give these owners -/
def Rounds (g : Graph) : PinIt → List Part → Prop
  | _, [] => True
  | it, o :: os => ∃ it', g.nextOwner it = .ok (o, it') ∧ Rounds g it' os

theorem residence_fold {g : Graph} : ∀ (os : List Part) (it : PinIt) (s : Peers) (lo : Nat), Rounds g it os →
    ∃ it', (List.range' lo os.length).foldlM (fun (s : Peers × PinIt) (_ : Nat) => do
      let (o, it') ← g.nextOwner s.2
      return (Peers.insert o s.1, it')) (s, it) =
        .ok (os.foldl (fun s o => Peers.insert o s) s, it') := by
  intro os
  induction os with
  | nil => intro it s lo _; exact ⟨it, rfl⟩
  | cons o os ih =>
    intro it s lo ⟨it', h, hr⟩
    obtain ⟨it2, e⟩ := ih it' (Peers.insert o s) (lo + 1) hr
    refine ⟨it2, ?_⟩
    rw [List.length_cons, List.range'_succ, List.foldlM_cons]
    simp only
    rw [h, Outcome.bind_ok]
    simp only [Outcome.pure_eq, Outcome.bind_ok]
    exact e

theorem residentLoop_eq {g : Graph} (peer : Part) : ∀ (os : List Part) (it : PinIt), Rounds g it os →
    g.residentLoop peer os.length it = .ok (decide (peer ∈ os)) := by
  intro os
  induction os with
  | nil => intro it _; rfl
  | cons o os ih =>
    intro it ⟨it', h, hr⟩
    rw [List.length_cons, Graph.residentLoop, h, Outcome.bind_ok]
    simp only
    by_cases ho : o = peer
    · simp [ho]
    · rw [if_neg ho, ih it' hr]
      congr 1
      have : peer ≠ o := fun h => ho h.symm
      simp [this]

theorem rounds_of_yields {g : Graph} (own : Handle → Part) : ∀ (hs : List Handle) (it : PinIt),
    Yields g.iterPin it hs → (∀ h ∈ hs, g.owner h = .ok (own h)) → Rounds g it (hs.map own) := by
  intro hs
  induction hs with
  | nil => intro it _ _; trivial
  | cons h hs ih =>
    intro it ⟨_, it', e, hy⟩ ho
    refine ⟨it', ?_, ih it' hy (fun h hh => ho h (by simp [hh]))⟩
    unfold Graph.nextOwner
    rw [e, Outcome.bind_ok]
    simp only
    rw [ho h (by simp)]; rfl

theorem getResidence_eq {g : Graph} {h : Handle} {it : PinIt} {os : List Part} {d : Int}
    (hp : g.pins h = .ok it) (hd : g.degreeE h = .ok d) (hl : d.toNat = os.length)
    (hr : Rounds g it os) (s : Peers) :
    g.getResidence h s = .ok (os.foldl (fun s o => Peers.insert o s) s) := by
  obtain ⟨it', e⟩ := residence_fold os it s 0 hr
  unfold Graph.getResidence
  rw [hp, Outcome.bind_ok, hd, Outcome.bind_ok, hl, List.range_eq_range', e]
  rfl

theorem isResidentOn_eq {g : Graph} {h : Handle} {it : PinIt} {os : List Part} {d : Int}
    (hp : g.pins h = .ok it) (hd : g.degreeE h = .ok d) (hl : d.toNat = os.length)
    (hr : Rounds g it os) (p : Part) : g.isResidentOn h p = .ok (decide (p ∈ os)) := by
  unfold Graph.isResidentOn
  rw [hp, Outcome.bind_ok, hd, Outcome.bind_ok, hl]
  exact residentLoop_eq p os it hr

/-! ## cut edges -/

theorem cut_loop {g : Graph} (own : Handle → Part) (p : Part) (hp : p ≠ -1) : ∀ (hs : List Handle),
    (∀ h ∈ hs, g.owner h = .ok (own h)) →
    ∃ b, loopList g.cutBody hs (p, false) = .ok (p, b) ∧ (b = true ↔ ∃ h ∈ hs, own h ≠ p) := by
  intro hs
  induction hs with
  | nil => intro _; exact ⟨false, rfl, by simp⟩
  | cons h hs ih =>
    intro ho
    rw [loopList]
    unfold Graph.cutBody
    rw [ho h (by simp), Outcome.bind_ok]
    simp only
    rw [if_neg hp]
    by_cases he : p ≠ own h
    · rw [if_pos he]
      exact ⟨true, rfl, by simp only [true_iff]; exact ⟨h, by simp, fun h => he h.symm⟩⟩
    · rw [if_neg he]
      obtain ⟨b, e, hb⟩ := ih (fun h hh => ho h (by simp [hh]))
      have he' : own h = p := by
        rcases eq_or_ne p (own h) with h1 | h1
        · exact h1.symm
        · exact absurd h1 he
      refine ⟨b, e, ?_⟩
      rw [hb]
      simp [he']

theorem isCut_eq {g : Graph} {h : Handle} {hs : List Handle} (own : Handle → Part)
    (hy : YieldsFrom (g.pins h) g.iterPin hs) (hl : hs.length < g.bound)
    (ho : ∀ h ∈ hs, g.owner h = .ok (own h)) (hne : ∀ h ∈ hs, own h ≠ -1) :
    ∃ b, g.isCut h = .ok b ∧ (b = true ↔ ∃ a ∈ hs, ∃ c ∈ hs, own a ≠ own c) := by
  obtain ⟨it, hp, hy⟩ := hy
  unfold Graph.isCut
  rw [hp, Outcome.bind_ok, iterLoop_yields _ hs it g.bound (-1, false) hy hl]
  cases hs with
  | nil => exact ⟨false, rfl, by simp⟩
  | cons x hs =>
    have hx : loopList g.cutBody (x :: hs) (-1, false) = loopList g.cutBody hs (own x, false) := by
      rw [loopList]
      unfold Graph.cutBody
      rw [ho x (by simp), Outcome.bind_ok]
      simp
    rw [hx]
    obtain ⟨b, e, hb⟩ := cut_loop own (own x) (hne x (by simp)) hs (fun h hh => ho h (by simp [hh]))
    rw [e]
    refine ⟨b, rfl, ?_⟩
    rw [hb]
    constructor
    · rintro ⟨y, hy1, hy2⟩
      exact ⟨y, by simp [hy1], x, by simp, hy2⟩
    · rintro ⟨a, ha, c, hc, hac⟩
      by_cases hax : own a = own x
      · have hcx : own c ≠ own x := fun h => hac (hax.trans h.symm)
        rcases List.mem_cons.mp hc with rfl | hc
        · exact absurd rfl hcx
        · exact ⟨c, hc, hcx⟩
      · rcases List.mem_cons.mp ha with rfl | ha
        · exact absurd rfl hax
        · exact ⟨a, ha, hax⟩

theorem le_sum_of_mem {l : List Nat} {x : Nat} (h : x ∈ l) : x ≤ l.sum := by
  induction l with
  | nil => simp at h
  | cons a l ih =>
    rw [List.sum_cons]
    rcases List.mem_cons.mp h with rfl | h
    · omega
    · have := ih h; omega

theorem bound_ge {g : Graph} {t : Nat} {e : EType} (h : g.types[t]? = some (some e)) :
    e.numEdges + e.numPins + e.edgeList.length + 3 + g.numLocal + g.numGhost ≤ g.bound := by
  unfold Graph.bound
  have hm : some e ∈ g.types := List.mem_of_getElem? h
  have h1 : slotSize (some e) ≤ (g.types.map slotSize).sum :=
    le_sum_of_mem (List.mem_map.mpr ⟨some e, hm, rfl⟩)
  simp only [slotSize] at h1
  omega

end Verif.Agi
