import Verif.Part.SplitModel
import Verif.Part.ParmetisProps
import Verif.Agi.RemoveProps
import Verif.Agi.MigMain
import Verif.Io.FileProps
/-!
# Lemmas for `split`
-/
namespace Verif.Part
open Verif.Agi

/-- the new placement: the rank, in the large communicator, of the part a vertex is on -/
def rankOf (ranks : List Nat) (own : Gid → Nat) (v : Gid) : Nat := ranks.getD (own v) 0

theorem getD_rank {ranks : List Nat} {k : Nat} (h : k < ranks.length) : ranks.getD k 0 = ranks[k] := by
  rw [List.getD_eq_getElem?_getD, List.getElem?_eq_getElem h, Option.getD_some]

/-- `changeOwners` on a part that knows its ghosts -/
theorem changeOwners_rep {g : Graph} {verts ghosts : List Gid} (hv : VRep g verts ghosts) {own : Gid → Nat}
    (ho : ORep g ghosts (fun v => (own v : Int))) {ranks : List Nat} (hlt : ∀ v ∈ ghosts, own v < ranks.length) :
    ∃ g', g.changeOwners (ranks.map Int.ofNat) = .ok g' ∧ g' = { g with owners := g'.owners } ∧
      ORep g' ghosts (fun v => (rankOf ranks own v : Int)) := by
  unfold Graph.changeOwners
  by_cases h0 : g.numGhost = 0
  · rw [if_pos h0]
    have hnil : ghosts = [] := by
      have := hv.ng; rw [h0] at this; exact List.eq_nil_of_length_eq_zero this.symm
    subst hnil
    refine ⟨g, rfl, rfl, ?_⟩
    rcases ho with h | h
    · exact .inl h
    · right; simpa using h
  · rw [if_neg h0]
    have hoo : g.owners = some (Mem.ofList (ghosts.map (fun v => (own v : Int)))) := by
      rcases ho with h | h
      · exact absurd (by rw [hv.ng, h.1]; rfl) h0
      · exact h
    rw [hoo]
    rw [show deref (some (Mem.ofList (ghosts.map (fun v => (own v : Int))))) = .ok (Mem.ofList (ghosts.map (fun v => (own v : Int)))) from rfl,
      Outcome.bind_ok]
    obtain ⟨o, e, hinv⟩ := range_inv (changeOwner (ranks.map Int.ofNat))
      (fun k (m : Mem Part) => m = Mem.ofList ((ghosts.take k).map (fun v => (rankOf ranks own v : Int)) ++
        (ghosts.drop k).map (fun v => (own v : Int)))) 0 g.numGhost (by
      intro k m hk hm
      have hk' : k < ghosts.length := by rw [← hv.ng]; exact hk
      have hlk := hlt _ (List.getElem_mem hk')
      refine ⟨_, ?_, rfl⟩
      subst hm
      unfold changeOwner
      have hload : Mem.load (Mem.ofList ((ghosts.take k).map (fun v => (rankOf ranks own v : Int)) ++
          (ghosts.drop k).map (fun v => (own v : Int)))) (0 + k) = .ok (own ghosts[k] : Int) := by
        apply Mem.load_ok
        unfold Mem.ofList
        rw [Nat.zero_add, List.getElem?_map, List.getElem?_append_right (by simp), List.drop_eq_getElem_cons hk']
        simp [Nat.min_eq_left (Nat.le_of_lt hk'), hk']
      rw [hload, Outcome.bind_ok, if_neg (by omega), Int.toNat_natCast, rd_ok (by simpa using hlk), Outcome.bind_ok,
        Mem.store_ok _ (by unfold Mem.ofList; simp; omega)]
      congr 1
      rw [Nat.zero_add]
      unfold Mem.ofList
      rw [← List.map_set]
      congr 1
      rw [List.set_append_right _ _ (by simp), List.drop_eq_getElem_cons hk', List.map_cons, List.take_add_one,
        List.getElem?_eq_getElem hk']
      have : k - ((ghosts.take k).map (fun v => (rankOf ranks own v : Int))).length = 0 := by simp; omega
      rw [this, List.set_cons_zero]
      simp only [List.getElem_map, Option.toList_some, List.map_append, List.map_cons, List.map_nil, List.append_assoc,
        List.singleton_append]
      unfold rankOf
      rw [getD_rank hlk]; rfl) (Mem.ofList (ghosts.map (fun v => (own v : Int)))) (by simp)
    rw [e]
    refine ⟨_, rfl, rfl, .inr ?_⟩
    simp only
    rw [hinv, hv.ng]
    simp

theorem on_rank {G : GG} {m : Nat} {own : Gid → Nat} (hG : G.WF m own) {ranks : List Nat} (hl : ranks.length = m)
    (hnd : ranks.Nodup) {p : Nat} (hp : p < m) :
    (∀ v ∈ G.verts, rankOf ranks own v = ranks.getD p 0 ↔ own v = p) ∧ G.on (rankOf ranks own) (ranks.getD p 0) = G.on own p := by
  have h1 : ∀ v ∈ G.verts, rankOf ranks own v = ranks.getD p 0 ↔ own v = p := by
    intro v hv
    have := hG.own v hv
    unfold rankOf
    rw [getD_rank (by omega), getD_rank (by omega), hnd.getElem_inj_iff]
  refine ⟨h1, ?_⟩
  unfold GG.on
  apply List.filter_congr
  intro E hE
  congr 1
  apply propext
  constructor
  · rintro ⟨v, hv, he⟩; exact ⟨v, hv, (h1 v (hG.pins E hE v hv)).mp he⟩
  · rintro ⟨v, hv, he⟩; exact ⟨v, hv, (h1 v (hG.pins E hE v hv)).mpr he⟩

theorem off_rank {G : GG} {m : Nat} {own : Gid → Nat} (hG : G.WF m own) {ranks : List Nat} (hl : ranks.length = m)
    {r : Nat} (hr : r ∉ ranks) {v : Gid} (hv : v ∈ G.verts) : rankOf ranks own v ≠ r := by
  have := hG.own v hv
  unfold rankOf
  rw [getD_rank (by omega)]
  intro h
  exact hr (h ▸ List.getElem_mem _)

/-- `G`, with the original owners `oo` -/
def withOO (G : GG) (oo : Gid → Part) : GG := { G with oo := oo }

theorem withOO_wf {G : GG} {n : Nat} {own : Gid → Nat} (h : G.WF n own) (oo : Gid → Part) : (withOO G oo).WF n own :=
  ⟨h.some_vertex, h.nodup, h.ids, h.ne, h.pins, h.own⟩

/-- the original owners after the split: as they were, or, if there were none, the new ranks -/
def splitOO (G : GG) (ranks : List Nat) (own : Gid → Nat) (kept : Bool) : Gid → Part :=
  if kept then G.oo else fun v => (rankOf ranks own v : Int)

theorem partRep_fields {g g' : Graph} {me me' n n' : Nat} {i : Input} {own own' : Gid → Nat} {ghosts : List Gid}
    (h : PartRep g me n i own ghosts) {o : Option (Mem Part)} {q : Option (Mem Part)}
    (e : g' = { g with owners := o, originalOwners := q, self := (me' : Int), peers := n' })
    (ho : ORep g' ghosts (fun v => (own' v : Int))) : PartRep g' me' n' i own' ghosts := by
  subst e
  exact ⟨⟨⟨h.core.v.nl, h.core.v.ng, h.core.v.nodup, h.core.v.map, h.core.v.loc, h.core.v.gho⟩,
    h.core.hyp, h.core.numTypes, h.core.typ, h.core.pins, h.core.wf⟩, rfl, rfl, ho, h.weights, h.ghosts_eq⟩

/-- an original part, expanded and switched to the large communicator -/
theorem expand_part {G : GG} {m n p : Nat} {own : Gid → Nat} (hG : G.WF m own) {g : Graph} {i : Input} {gh : List Gid}
    (hd : PartDone G own m p g.setOriginalOwners i gh) (hp : p < m) {ranks : List Nat} (hl : ranks.length = m)
    (hnd : ranks.Nodup) (kept : Bool) (hk : g.originalOwners.isSome = kept) :
    ∃ g', g.changeOwners (ranks.map Int.ofNat) = .ok g' ∧
      PartInv (withOO G (splitOO G ranks own kept)) (rankOf ranks own) n (ranks.getD p 0)
        (Graph.switchComm g' ((ranks.getD p 0 : Nat) : Int) n).setOriginalOwners i gh := by
  have hself : g = { g.setOriginalOwners with originalOwners := g.originalOwners } := by
    unfold Graph.setOriginalOwners
    cases h : g.originalOwners <;> simp only <;> rw [← h]
  have hrep : PartRep g p m i own gh := by rw [hself]; exact hd.inv.rep.of_orig _
  have hgl : ∀ v ∈ gh, own v < ranks.length := by
    intro v hv
    obtain ⟨ez, hz⟩ := hd.inv.pv hG
    obtain ⟨E, hE, hvE⟩ := hz.gho v hv
    have := hG.own v (hG.pins E (GG.mem_on.mp hE).1 v hvE)
    omega
  obtain ⟨g', e, heq, ho⟩ := changeOwners_rep hrep.core.v hrep.owners hgl
  refine ⟨g', e, ?_⟩
  obtain ⟨hon1, hon2⟩ := on_rank hG hl hnd hp
  set r := ranks.getD p 0 with hr
  have hform : ∃ q, (Graph.switchComm g' (r : Int) n).setOriginalOwners =
      { g with owners := g'.owners, originalOwners := q, self := (r : Int), peers := n } := by
    rw [heq]
    unfold Graph.switchComm Graph.setOriginalOwners
    cases h : g.originalOwners with
    | none => exact ⟨_, rfl⟩
    | some a => exact ⟨some a, by simp only⟩
  obtain ⟨q, hq⟩ := hform
  have hmem : ∀ v, v ∈ i.verts ↔ v ∈ G.verts ∧ rankOf ranks own v = r := by
    intro v
    rw [hd.inv.verts v]
    constructor
    · rintro ⟨a, b⟩; exact ⟨a, (hon1 v a).mpr b⟩
    · rintro ⟨a, b⟩; exact ⟨a, (hon1 v a).mp b⟩
  have htypes : (Graph.switchComm g' (r : Int) n).setOriginalOwners.types = g.setOriginalOwners.types := by
    rw [hq]; unfold Graph.setOriginalOwners; cases g.originalOwners <;> rfl
  have hcoords : (Graph.switchComm g' (r : Int) n).setOriginalOwners.coords = g.setOriginalOwners.coords := by
    rw [hq]; unfold Graph.setOriginalOwners; cases g.originalOwners <;> rfl
  refine ⟨partRep_fields hrep hq (by rw [hq]; exact ho), hmem, hd.inv.wts, ?_, ?_, ?_, ?_⟩
  · rcases hd.inv.shape with ⟨h1, e', h2, h3⟩ | h
    · exact .inl ⟨h1, e', h2, by
        show e'.edges.Perm (G.on _ _)
        rw [hon2]; exact h3⟩
    · rw [htypes]; exact .inr h
  · have hnl := hrep.core.v.nl
    have hg' : g'.originalOwners = g.originalOwners := by rw [heq]
    have hn' : g'.numLocal = g.numLocal := by rw [heq]
    cases kept with
    | true =>
      have hso : g.setOriginalOwners = g := by
        unfold Graph.setOriginalOwners
        cases h : g.originalOwners with
        | none => rw [h] at hk; simp at hk
        | some a => rfl
      rcases hd.inv.orig with h | h
      · exact .inl h
      · right
        rw [hso] at h
        unfold Graph.setOriginalOwners Graph.switchComm
        simp only [hg', h]
        rfl
    | false =>
      have hnone : g.originalOwners = none := by
        cases h : g.originalOwners with
        | none => rfl
        | some a => rw [h] at hk; simp at hk
      right
      unfold Graph.setOriginalOwners Graph.switchComm
      simp only [hg', hnone, hn', hnl]
      congr 2
      symm
      rw [List.eq_replicate_iff]
      refine ⟨by simp, ?_⟩
      intro b hb
      obtain ⟨v, hv, rfl⟩ := List.mem_map.mp hb
      show ((rankOf ranks own v : Nat) : Int) = _
      rw [((hmem v).mp hv).2]
  · intro hc; rw [hcoords]; exact hd.inv.cnone hc
  · intro c hc; rw [hcoords]; exact hd.inv.csome c hc

/-- the part of a rank outside the small communicator -/
theorem empty_part {G : GG} {m n r : Nat} {own : Gid → Nat} (hG : G.WF m own) {ranks : List Nat} (hl : ranks.length = m)
    (hr : r ∉ ranks) (oo : Gid → Part) :
    PartInv (withOO G oo) (rankOf ranks own) n r (emptyGraph (r : Int) n).setOriginalOwners ⟨false, [], [], []⟩ [] := by
  refine ⟨⟨⟨⟨rfl, rfl, by simp, ?_, rfl, .inl ⟨rfl, rfl⟩⟩, rfl, rfl, ?_, ?_, ?_⟩, rfl, rfl, .inl ⟨rfl, rfl⟩, rfl, ?_⟩,
    ?_, ?_, .inr ⟨rfl, rfl, rfl⟩, .inl rfl, ?_, ?_⟩
  · funext x; simp [emptyGraph, Graph.setOriginalOwners, lookup, GMap.empty]
  · intro t ht; simp at ht
  · intro t ht; simp at ht
  · intro e he; simp at he
  · simp [Input.allPins, extend]
  · intro v
    constructor
    · intro h; simp at h
    · rintro ⟨h1, h2⟩; exact absurd h2 (off_rank hG hl hr h1)
  · rfl
  · intro _; rfl
  · intro c _; exact .inl rfl

end Verif.Part
