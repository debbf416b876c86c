import Verif.Agi.DistModel
import Verif.Agi.ResidenceProps
/-!
# Lemmas about the collective operations
-/
namespace Verif

/-- `mapM` with a postcondition per position -/
theorem mapM_idx {α β : Type} {f : α → Outcome β} (P : Nat → β → Prop) : ∀ (l : List α),
    (∀ k (h : k < l.length), ∃ b, f l[k] = .ok b ∧ P k b) →
    ∃ bs, l.mapM f = .ok bs ∧ bs.length = l.length ∧ ∀ k (h : k < bs.length), P k bs[k] := by
  intro l
  induction l generalizing P with
  | nil => intro _; exact ⟨[], rfl, rfl, by simp⟩
  | cons a l ih =>
    intro h
    obtain ⟨b, e, hb⟩ := h 0 (by simp)
    obtain ⟨bs, es, hl, hbs⟩ := ih (fun k => P (k + 1)) (fun k hk => h (k + 1) (by simpa using hk))
    refine ⟨b :: bs, ?_, by simp [hl], ?_⟩
    · rw [List.mapM_cons]
      simp only [List.getElem_cons_zero] at e
      rw [e, Outcome.bind_ok, es]; rfl
    · intro k hk
      cases k with
      | zero => exact hb
      | succ k => exact hbs k (by simpa using hk)

namespace Agi

theorem mem_inbox {M : Type} {outs : List (List (Part × M))} {order : List Nat} {q : Nat} {x : Nat × M} :
    x ∈ inbox outs order q ↔ x.1 ∈ order ∧ ((q : Int), x.2) ∈ outs.getD x.1 [] := by
  unfold inbox
  rw [List.mem_flatMap]
  constructor
  · rintro ⟨p, hp, hx⟩
    rw [List.mem_map] at hx
    obtain ⟨m, hm, rfl⟩ := hx
    rw [List.mem_filter] at hm
    have := of_decide_eq_true hm.2
    refine ⟨hp, ?_⟩
    simp only
    rw [← this]; exact hm.1
  · rintro ⟨h1, h2⟩
    refine ⟨x.1, h1, ?_⟩
    rw [List.mem_map]
    exact ⟨((q : Int), x.2), by rw [List.mem_filter]; exact ⟨h2, by simp⟩, rfl⟩

theorem exchange_ok {M : Type} {outs : List (List (Part × M))} (orders : Nat → List Nat)
    (h : ∀ o ∈ outs, ∀ m ∈ o, 0 ≤ m.1 ∧ m.1 < (outs.length : Int)) :
    exchange outs orders = .ok ((List.range outs.length).map (fun q => inbox outs (orders q) q)) := by
  unfold exchange; rw [if_pos h]

/-- what the graph of part `me` of `n` represents -/
structure PartRep (g : Graph) (me n : Nat) (i : Input) (own : Gid → Nat) (ghosts : List Gid) : Prop where
  core : CRep g i.hyper i.verts ghosts i.types
  rank : g.self = (me : Int)
  peers : g.peers = n
  owners : ORep g ghosts (fun v => (own v : Int))
  weights : g.weights = Mem.ofList (vertWeights i.verts i.wgts)
  ghosts_eq : i.verts ++ ghosts = extend i.verts i.allPins

theorem PartRep.mem_ghosts {g : Graph} {me n : Nat} {i : Input} {own : Gid → Nat} {ghosts : List Gid}
    (h : PartRep g me n i own ghosts) (v : Gid) : v ∈ ghosts ↔ v ∈ i.allPins ∧ v ∉ i.verts := by
  have h1 : v ∈ i.verts ++ ghosts ↔ v ∈ i.verts ∨ v ∈ i.allPins := by rw [h.ghosts_eq, mem_extend]
  have h2 := h.core.v.nodup
  rw [List.mem_append] at h1
  have h3 : v ∈ ghosts → v ∉ i.verts := fun hg hv =>
    (List.nodup_append.mp h2).2.2 v hv v hg rfl
  tauto

/-- ghosts of part `p` of a consistent distribution: owned by another part, which has the vertex -/
structure Dist (ins : List Input) (own : Gid → Nat) : Prop where
  wf : ∀ i ∈ ins, i.WF
  verts : ∀ p (h : p < ins.length), ∀ v ∈ ins[p].verts, own v = p
  pins : ∀ p (h : p < ins.length), ∀ v ∈ ins[p].allPins, ∃ h' : own v < ins.length, v ∈ ins[own v].verts

/-- the graphs of all parts -/
def World (gs : List Graph) (ins : List Input) (own : Gid → Nat) : Prop :=
  gs.length = ins.length ∧ ∀ p (h : p < gs.length) (h' : p < ins.length),
    ∃ ghosts, PartRep gs[p] p ins.length ins[p] own ghosts

theorem ghostRequests_eq {g : Graph} {me n : Nat} {i : Input} {own : Gid → Nat} {ghosts : List Gid}
    (h : PartRep g me n i own ghosts) :
    g.ghostRequests = .ok (ghosts.map (fun v => ((own v : Int), v))) := by
  unfold Graph.ghostRequests
  have hy := yields_ghosts g
  have hlist : (List.range g.numGhost).map (fun k => getVertex (g.numLocal + k)) =
      ghosts.map (fun v => getVertex ((i.verts ++ ghosts).idxOf v)) := by
    apply List.ext_getElem
    · simp [h.core.v.ng]
    · intro k h1 h2
      simp only [List.length_map] at h2
      simp only [List.getElem_map, List.getElem_range]
      congr 1
      have hk : i.verts.length + k < (i.verts ++ ghosts).length := by simp [h2]
      have hg : ghosts[k] = (i.verts ++ ghosts)[i.verts.length + k] := by simp
      rw [hg, h.core.v.nodup.idxOf_getElem, h.core.v.nl]
  rw [iterLoop_yields _ _ _ g.bound [] hy (by
    rw [List.length_map, List.length_range]; unfold Graph.bound; omega)]
  rw [hlist, loopList_fold (f := fun acc v => do
    let gid ← g.globalID v
    let o ← g.owner v
    return (acc ++ [(o, gid)]))]
  · have key : ∀ (l acc : List _) (_ : ∀ v ∈ l, v ∈ ghosts),
        (l.map (fun v => getVertex ((i.verts ++ ghosts).idxOf v))).foldlM (fun acc v => do
          let gid ← g.globalID v
          let o ← g.owner v
          return (acc ++ [(o, gid)])) acc = .ok (acc ++ l.map (fun v => ((own v : Int), v))) := by
      intro l
      induction l with
      | nil => intro acc _; simp
      | cons v l ih =>
        intro acc hl
        have hv : v ∈ i.verts ++ ghosts := by simp [hl v (by simp)]
        have hnv : v ∉ i.verts := ((h.mem_ghosts v).mp (hl v (by simp))).2
        rw [List.map_cons, List.foldlM_cons]
        rw [globalID_eq h.core.v hv, Outcome.bind_ok, owner_eq h.core.v h.owners hv, Outcome.bind_ok]
        have := ih (acc ++ [((own v : Int), v)]) (fun v hv => hl v (by simp [hv]))
        simp only [ownerOf, hnv, if_false, Outcome.pure_eq, Outcome.bind_ok] at this ⊢
        rw [this]
        simp
    simpa using key ghosts [] (fun v hv => hv)
  · intro b x _
    cases g.globalID x <;> cases g.owner x <;> rfl

theorem lookup0_eq {g : Graph} {verts ghosts : List Gid} (h : VRep g verts ghosts) {v : Gid}
    (hv : v ∈ verts ++ ghosts) : g.lookup0 v = (verts ++ ghosts).idxOf v := by
  unfold Graph.lookup0
  rw [h.map, lookup_of_mem hv]; rfl

theorem ghostStore_fold {α : Type} {g : Graph} {verts ghosts : List Gid} (h : VRep g verts ghosts)
    (f : Gid → α) (msgs : List (Nat × (Gid × α)))
    (hm : ∀ m ∈ msgs, m.2.1 ∈ ghosts ∧ m.2.2 = f m.2.1) :
    ∃ tag, msgs.foldlM g.ghostStore (Mem.alloc g.numGhost) = .ok tag ∧ tag.length = ghosts.length ∧
      ∀ j (hj : j < ghosts.length), (∃ m ∈ msgs, m.2.1 = ghosts[j]) → tag[j]? = some (some (f ghosts[j])) := by
  obtain ⟨tag, e, hl, ha⟩ := foldlM_inv g.ghostStore
    (fun pre (tag : Mem α) => tag.length = ghosts.length ∧
      ∀ j (hj : j < ghosts.length), (∃ m ∈ pre, m.2.1 = ghosts[j]) → tag[j]? = some (some (f ghosts[j])))
    msgs
    (by
      intro pre x tag hpre ⟨hl, ha⟩
      have hx := hm x (hpre.subset (by simp))
      have hidx : g.lookup0 x.2.1 = verts.length + ghosts.idxOf x.2.1 := by
        rw [lookup0_eq h (by simp [hx.1]), List.idxOf_append_of_notMem]
        intro hv
        exact (List.nodup_append.mp h.nodup).2.2 _ hv _ hx.1 rfl
      have hlt := List.idxOf_lt_length_of_mem hx.1
      unfold Graph.ghostStore
      rw [hidx, h.nl, if_neg (by omega), Nat.add_sub_cancel_left, Mem.store_ok _ (by omega)]
      refine ⟨_, rfl, by simpa using hl, ?_⟩
      intro j hj hjm
      rw [List.getElem?_set]
      by_cases he : ghosts.idxOf x.2.1 = j
      · subst he
        rw [if_pos rfl, if_pos (by omega), hx.2, List.getElem_idxOf]
      · rw [if_neg he]
        apply ha j hj
        obtain ⟨m, hm', e⟩ := hjm
        rcases List.mem_append.mp hm' with hm' | hm'
        · exact ⟨m, hm', e⟩
        · rw [List.mem_singleton] at hm'
          subst hm'
          exfalso; apply he
          rw [e]
          exact (List.nodup_append.mp h.nodup).2.1.idxOf_getElem _ _)
    (Mem.alloc g.numGhost) ⟨by simp [h.ng], by simp⟩
  exact ⟨tag, e, hl, ha⟩

/-- **ghost tags**: every ghost gets the value its owner computes -/
theorem createGhostTag_spec {α : Type} {gs : List Graph} {ins : List Input} {own : Gid → Nat}
    (hw : World gs ins own) (hd : Dist ins own) (cb : Graph → Handle → Outcome α)
    (val : Gid → α)
    (hcb : ∀ q (h : q < gs.length) (h' : q < ins.length), ∀ v ∈ ins[q].verts, ∀ hv,
      gs[q].findGID v = .ok hv → cb gs[q] hv = .ok (val v))
    {o1 o2 : Nat → List Nat} (ho1 : Orders gs.length o1) (ho2 : Orders gs.length o2) :
    ∃ tags, createGhostTag gs cb o1 o2 = .ok tags ∧ tags.length = gs.length ∧
      ∀ p (h : p < tags.length) (hg : p < gs.length) (h' : p < ins.length), ∃ ghosts,
        PartRep gs[p] p ins.length ins[p] own ghosts ∧ tags[p] = Mem.ofList (ghosts.map val) := by
  obtain ⟨hlen, hrep⟩ := hw
  unfold createGhostTag
  obtain ⟨reqs, e1, hl1, hr1⟩ := mapM_idx (f := Graph.ghostRequests)
    (fun p r => ∀ (h : p < gs.length) (h' : p < ins.length), ∃ ghosts,
      PartRep gs[p] p ins.length ins[p] own ghosts ∧ r = ghosts.map (fun v => ((own v : Int), v))) gs
    (fun p hp => by
      obtain ⟨ghosts, hg⟩ := hrep p hp (by omega)
      exact ⟨_, ghostRequests_eq hg, fun _ _ => ⟨ghosts, hg, rfl⟩⟩)
  rw [e1, Outcome.bind_ok]
  have hvalid : ∀ o ∈ reqs, ∀ m ∈ o, 0 ≤ m.1 ∧ m.1 < (reqs.length : Int) := by
    intro o ho m hm
    obtain ⟨p, hp, rfl⟩ := List.mem_iff_getElem.mp ho
    obtain ⟨ghosts, hg, e⟩ := hr1 p hp (by omega) (by omega)
    rw [e, List.mem_map] at hm
    obtain ⟨v, hv, rfl⟩ := hm
    obtain ⟨h, -⟩ := hd.pins p (by omega) v ((hg.mem_ghosts v).mp hv).1
    simp only
    omega
  rw [exchange_ok o1 hvalid, Outcome.bind_ok]
  -- replies
  have hzl : (gs.zip ((List.range reqs.length).map (fun q => inbox reqs (o1 q) q))).length = gs.length := by
    simp [hl1]
  obtain ⟨reps, e2, hl2, hr2⟩ := mapM_idx
    (f := fun p : Graph × List (Nat × Gid) => p.1.ghostReplies cb p.2)
    (fun q r => r = (inbox reqs (o1 q) q).map (fun m => ((m.1 : Int), (m.2, val m.2))))
    (gs.zip ((List.range reqs.length).map (fun q => inbox reqs (o1 q) q)))
    (fun q hq => by
      rw [hzl] at hq
      simp only [List.getElem_zip, List.getElem_map, List.getElem_range]
      refine ⟨_, ?_, rfl⟩
      unfold Graph.ghostReplies
      apply mapM_ok
      intro m hm
      rw [mem_inbox] at hm
      obtain ⟨h1, h2⟩ := hm
      have hp : m.1 < gs.length := by
        have := (ho1 q hq).mem_iff.mp h1; simpa using this
      rw [List.getD_eq_getElem?_getD, List.getElem?_eq_getElem (by omega), Option.getD_some] at h2
      obtain ⟨ghosts, hg, e⟩ := hr1 m.1 (by omega) hp (by omega)
      rw [e, List.mem_map] at h2
      obtain ⟨v, hv, hev⟩ := h2
      rw [Prod.mk.injEq] at hev
      obtain ⟨hq', hmv⟩ := hev
      have hq2 : own v = q := by exact_mod_cast hq'
      obtain ⟨h3, h4⟩ := hd.pins m.1 (by omega) v ((hg.mem_ghosts v).mp hv).1
      subst hq2
      obtain ⟨gh, hgh⟩ := hrep (own v) hq (by omega)
      have hmem : v ∈ ins[own v].verts ++ gh := by simp [h4]
      rw [← hmv, lookup0_eq hgh.core.v hmem, hcb (own v) hq (by omega) v h4 _ (findGID_eq hgh.core.v hmem)]
      rfl)
  rw [e2, Outcome.bind_ok]
  rw [hzl] at hl2
  have hvalid2 : ∀ o ∈ reps, ∀ m ∈ o, 0 ≤ m.1 ∧ m.1 < (reps.length : Int) := by
    intro o ho m hm
    obtain ⟨q, hq, rfl⟩ := List.mem_iff_getElem.mp ho
    rw [hr2 q hq, List.mem_map] at hm
    obtain ⟨x, hx, rfl⟩ := hm
    rw [mem_inbox] at hx
    have := (ho1 q (by omega)).mem_iff.mp hx.1
    simp only [List.mem_range] at this
    simp only
    omega
  rw [exchange_ok o2 hvalid2, Outcome.bind_ok]
  have hzl2 : (gs.zip ((List.range reps.length).map (fun q => inbox reps (o2 q) q))).length = gs.length := by
    simp [hl2]
  obtain ⟨tags, e3, hl3, hr3⟩ := mapM_idx
    (f := fun p : Graph × List (Nat × (Gid × α)) => p.2.foldlM p.1.ghostStore (Mem.alloc p.1.numGhost))
    (fun p tag => ∀ (hg : p < gs.length) (h' : p < ins.length), ∃ ghosts,
        PartRep gs[p] p ins.length ins[p] own ghosts ∧ tag = Mem.ofList (ghosts.map val))
    (gs.zip ((List.range reps.length).map (fun q => inbox reps (o2 q) q)))
    (fun p hp => by
      rw [hzl2] at hp
      simp only [List.getElem_zip, List.getElem_map, List.getElem_range]
      obtain ⟨ghosts, hg, er⟩ := hr1 p (by omega) hp (by omega)
      obtain ⟨tag, et, htl, hta⟩ := ghostStore_fold hg.core.v val (inbox reps (o2 p) p) (by
        intro m hm
        rw [mem_inbox] at hm
        obtain ⟨h1, h2⟩ := hm
        have hm1 : m.1 < gs.length := by have := (ho2 p hp).mem_iff.mp h1; simpa using this
        rw [List.getD_eq_getElem?_getD, List.getElem?_eq_getElem (by omega), Option.getD_some,
          hr2 m.1 (by omega), List.mem_map] at h2
        obtain ⟨x, hx, e⟩ := h2
        rw [Prod.mk.injEq] at e
        rw [mem_inbox] at hx
        have hxp : x.1 = p := by exact_mod_cast e.1
        rw [hxp, List.getD_eq_getElem?_getD, List.getElem?_eq_getElem (by omega), Option.getD_some,
          er, List.mem_map] at hx
        obtain ⟨v, hv, e'⟩ := hx.2
        rw [Prod.mk.injEq] at e'
        rw [← e.2]
        simp only
        rw [← e'.2]
        exact ⟨hv, trivial⟩)
      refine ⟨tag, et, fun _ _ => ⟨ghosts, hg, ?_⟩⟩
      apply ofList_of_get
      · simpa using htl
      · intro j hj
        have hj' : j < ghosts.length := by simpa using hj
        rw [List.getElem_map]
        apply hta j hj'
        -- the answer is in the inbox
        have hv : ghosts[j] ∈ ghosts := List.getElem_mem hj'
        obtain ⟨h3, h4⟩ := hd.pins p (by omega) ghosts[j] ((hg.mem_ghosts _).mp hv).1
        refine ⟨(own ghosts[j], (ghosts[j], val ghosts[j])), ?_, rfl⟩
        rw [mem_inbox]
        refine ⟨(ho2 p hp).mem_iff.mpr (by simp; omega), ?_⟩
        simp only
        rw [List.getD_eq_getElem?_getD, List.getElem?_eq_getElem (by omega), Option.getD_some,
          hr2 _ (by omega), List.mem_map]
        refine ⟨(p, ghosts[j]), ?_, rfl⟩
        rw [mem_inbox]
        refine ⟨(ho1 _ (by omega)).mem_iff.mpr (by simpa using hp), ?_⟩
        simp only
        rw [List.getD_eq_getElem?_getD, List.getElem?_eq_getElem (by omega), Option.getD_some, er,
          List.mem_map]
        exact ⟨_, hv, rfl⟩)
  exact ⟨tags, e3, by omega, fun p h hg h' => hr3 p h hg h'⟩

end Agi
end Verif
