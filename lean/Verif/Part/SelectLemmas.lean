import Verif.Part.SelectModel
import Verif.Part.QueueLemmas
import Verif.Part.CancelLemmas
import Verif.Part.ContLemmas
/-!
# Lemmas on the selection of vertices, for one part
-/
namespace Verif.Part
open Verif.Agi

/-- what the API answers about the edges of type 0 (`EH`, with the pins `pinsOf`) and the vertices of a part: `vs` are
its vertices, `known` these and the ghosts, `hnd` gives handles, `own` owners -/
structure SelFacts (g : Graph) (vs known : List Gid) (hnd : Gid → Handle) (EH : List Handle)
    (pinsOf : Handle → List Gid) (own : Gid → Part) (inc : Gid → Nat → List Handle) : Prop where
  numLocal : g.numLocal = vs.length
  nodup : vs.Nodup
  handle : ∀ v ∈ vs, hnd v = getVertex (vs.idxOf v)
  pins : ∀ e ∈ EH, YieldsFrom (g.pins e) g.iterPin ((pinsOf e).map hnd) ∧ (pinsOf e).length < g.bound ∧
    ∀ v ∈ pinsOf e, v ∈ known
  owner : ∀ v ∈ known, g.owner (hnd v) = .ok (own v)
  mine : ∀ v ∈ known, own v = g.self ↔ v ∈ vs
  edges0 : ∀ v ∈ vs, YieldsFrom (g.edges (hnd v) 0) g.iterEdge (inc v 0) ∧ (inc v 0).length < g.bound ∧
    ∀ e ∈ inc v 0, e ∈ EH

section
variable {g : Graph} {vs known : List Gid} {hnd : Gid → Handle} {EH : List Handle} {pinsOf : Handle → List Gid}
  {own : Gid → Part} {inc : Gid → Nat → List Handle} {dims : List Int} {wt : Gid → Rat} {res : Handle → Part → Bool}
  {ew : Handle → Rat}

theorem SelFacts.inj (hs : SelFacts g vs known hnd EH pinsOf own inc) {a b : Gid} (ha : a ∈ vs) (hb : b ∈ vs)
    (h : hnd a = hnd b) : a = b := by
  rw [hs.handle a ha, hs.handle b hb] at h
  have h1 : vs.idxOf a = vs.idxOf b := by unfold getVertex at h; omega
  have h2 := List.getElem_idxOf (List.idxOf_lt_length_of_mem ha)
  have h3 := List.getElem_idxOf (List.idxOf_lt_length_of_mem hb)
  rw [← h2, ← h3]
  simp only [h1]

theorem setLoop_eq {step : EdgeIt → Outcome (Handle × EdgeIt)} {it : EdgeIt} {l : List Handle} {fuel : Nat}
    (hy : Yields step it l) (hf : l.length < fuel) (s : List Handle) :
    iterLoop step (fun s e => (.ok (insertSet s e, false) : Outcome (List Handle × Bool))) fuel it s =
      .ok (l.foldl insertSet s) := by
  rw [iterLoop_yields _ _ _ _ _ hy hf]
  clear hy hf
  induction l generalizing s with
  | nil => rfl
  | cons a l ih =>
    rw [loopList, Outcome.bind_ok]
    simp only [Bool.false_eq_true, if_false]
    rw [ih, List.foldl_cons]

theorem getCavity_eq (hs : SelFacts g vs known hnd EH pinsOf own inc) {e : Handle} (he : e ∈ EH) :
    ∃ c : List Gid, getCavity g e = .ok (c.map hnd) ∧ c.Nodup ∧ ∀ v, v ∈ c ↔ v ∈ pinsOf e ∧ v ∈ vs := by
  obtain ⟨⟨it, e1, hy⟩, hb, hk⟩ := hs.pins e he
  unfold getCavity
  rw [e1, Outcome.bind_ok, iterLoop_yields _ _ _ _ _ hy (by simpa using hb)]
  have H : ∀ (ps : List Gid) (c : List Gid), (∀ v ∈ ps, v ∈ known) → c.Nodup → (∀ v ∈ c, v ∈ vs) →
      ∃ c' : List Gid, loopList (cavityBody g) (ps.map hnd) (c.map hnd) = .ok (c'.map hnd) ∧ c'.Nodup ∧
        ∀ v, v ∈ c' ↔ v ∈ c ∨ v ∈ ps ∧ v ∈ vs := by
    intro ps
    induction ps with
    | nil => intro c _ hc _; exact ⟨c, rfl, hc, by simp⟩
    | cons p ps ih =>
      intro c hps hc hcv
      have hp := hps p (by simp)
      rw [List.map_cons, loopList]
      by_cases hv : p ∈ vs
      · have hbody : cavityBody g (c.map hnd) (hnd p) = .ok ((insertSet c p).map hnd, false) := by
          unfold cavityBody
          rw [hs.owner p hp, Outcome.bind_ok, if_pos ((hs.mine p hp).mpr hv)]
          unfold insertSet
          by_cases hpc : p ∈ c
          · rw [if_pos (List.mem_map.mpr ⟨p, hpc, rfl⟩), if_pos hpc]; rfl
          · have : hnd p ∉ c.map hnd := by
              intro hm
              obtain ⟨x, hx, hxe⟩ := List.mem_map.mp hm
              exact hpc (hs.inj (hcv x hx) hv hxe ▸ hx)
            rw [if_neg this, if_neg hpc]
            simp
        rw [hbody, Outcome.bind_ok]
        obtain ⟨c', e2, h1, h2⟩ := ih (insertSet c p) (fun v h => hps v (by simp [h])) (nodup_insertSet hc) (by
          intro v h
          rcases mem_insertSet.mp h with h | rfl
          · exact hcv v h
          · exact hv)
        refine ⟨c', e2, h1, ?_⟩
        intro v
        rw [h2, mem_insertSet, List.mem_cons]
        constructor
        · rintro ((h | rfl) | h)
          · exact .inl h
          · exact .inr ⟨.inl rfl, hv⟩
          · exact .inr ⟨.inr h.1, h.2⟩
        · rintro (h | ⟨rfl | h, h'⟩)
          · exact .inl (.inl h)
          · exact .inl (.inr rfl)
          · exact .inr ⟨h, h'⟩
      · have hbody : cavityBody g (c.map hnd) (hnd p) = .ok (c.map hnd, false) := by
          unfold cavityBody
          rw [hs.owner p hp, Outcome.bind_ok, if_neg (fun h => hv ((hs.mine p hp).mp h))]
          rfl
        rw [hbody, Outcome.bind_ok]
        obtain ⟨c', e2, h1, h2⟩ := ih c (fun v h => hps v (by simp [h])) hc hcv
        refine ⟨c', e2, h1, ?_⟩
        intro v
        rw [h2, List.mem_cons]
        constructor
        · rintro (h | h)
          · exact .inl h
          · exact .inr ⟨.inr h.1, h.2⟩
        · rintro (h | ⟨rfl | h, h'⟩)
          · exact .inl h
          · exact absurd h' hv
          · exact .inr ⟨h, h'⟩
  obtain ⟨c, e2, h1, h2⟩ := H (pinsOf e) [] hk List.nodup_nil (by simp)
  exact ⟨c, e2, h1, fun v => by rw [h2]; simp⟩

/-! ## peers of a cavity -/

/-- where a vertex is or is planned to go -/
def dstOf (me : Part) (own : Gid → Part) (f : Gid → Option Part) (v : Gid) : Option Part :=
  if own v ≠ me then some (own v) else f v

/-- the edge has a vertex that is on part `p` (a part other than this one), or is planned to go there -/
def Joins (me : Part) (own : Gid → Part) (f : Gid → Option Part) (pins : List Gid) (p : Part) : Prop :=
  ∃ v ∈ pins, dstOf me own f v = some p

instance (me : Part) (own : Gid → Part) (f : Gid → Option Part) (pins : List Gid) (p : Part) :
    Decidable (Joins me own f pins p) := by unfold Joins; infer_instance

theorem lookup_getD_putA (m : List (Part × List Handle)) (p q : Part) (s : List Handle) :
    ((putA p s m).lookup q).getD [] = if q = p then s else (m.lookup q).getD [] := by
  rw [lookup_putA]
  split <;> rfl

/-- the peer map: `J e p` holds for the edges `e` that have been counted for part `p` -/
structure PeerMap (m : List (Part × List Handle)) (J : Handle → Part → Prop) : Prop where
  keys : (m.map Prod.fst).Nodup
  nodup : ∀ p, ((m.lookup p).getD []).Nodup
  mem : ∀ p e, e ∈ (m.lookup p).getD [] ↔ J e p
  key : ∀ p, p ∈ m.map Prod.fst ↔ ∃ e, J e p

theorem PeerMap.add {m : List (Part × List Handle)} {J : Handle → Part → Prop} (h : PeerMap m J) (p : Part)
    (e : Handle) : PeerMap (addPeer m p e) (fun x q => J x q ∨ (x = e ∧ q = p)) := by
  unfold addPeer
  refine ⟨nodup_putA _ _ _ h.keys, ?_, ?_, ?_⟩
  · intro q
    rw [lookup_getD_putA]
    split
    · exact nodup_insertSet (h.nodup _)
    · exact h.nodup q
  · intro q x
    rw [lookup_getD_putA]
    by_cases hq : q = p
    · subst hq
      rw [if_pos rfl, mem_insertSet, h.mem]
      simp
    · rw [if_neg hq, h.mem]
      simp [hq]
  · intro q
    rw [keys_putA]
    split
    · rename_i hp
      rw [h.key]
      constructor
      · rintro ⟨x, hx⟩; exact ⟨x, .inl hx⟩
      · rintro ⟨x, hx | ⟨-, rfl⟩⟩
        · exact ⟨x, hx⟩
        · exact (h.key q).mp hp
    · rw [List.mem_append, List.mem_singleton, h.key]
      constructor
      · rintro (⟨x, hx⟩ | rfl)
        · exact ⟨x, .inl hx⟩
        · exact ⟨e, .inr ⟨rfl, rfl⟩⟩
      · rintro ⟨x, hx | ⟨-, rfl⟩⟩
        · exact .inl ⟨x, hx⟩
        · exact .inr rfl

theorem PeerMap.congr {m : List (Part × List Handle)} {J J' : Handle → Part → Prop} (h : PeerMap m J)
    (hJ : ∀ e p, J e p ↔ J' e p) : PeerMap m J' :=
  ⟨h.keys, h.nodup, fun p e => by rw [h.mem, hJ], fun p => by
    rw [h.key]; exact ⟨fun ⟨e, he⟩ => ⟨e, (hJ e p).mp he⟩, fun ⟨e, he⟩ => ⟨e, (hJ e p).mpr he⟩⟩⟩

theorem peerBody_eq (hs : SelFacts g vs known hnd EH pinsOf own inc) {plan : Plan} {s : List Gid}
    {f : Gid → Option Part} (hp : PlanRep vs plan s f) (e : Handle) (m : List (Part × List Handle)) {v : Gid}
    (hv : v ∈ known) :
    peerBody g plan e m (hnd v) = .ok (match dstOf g.self own f v with | some p => addPeer m p e | none => m, false) := by
  unfold peerBody dstOf
  rw [hs.owner v hv, Outcome.bind_ok]
  by_cases ho : own v = g.self
  · have hvs := (hs.mine v hv).mp ho
    rw [if_neg (by simpa using ho), if_neg (by simpa using ho)]
    rw [hs.handle v hvs, planHas_eq hp hs.numLocal hvs, Outcome.bind_ok, planGet_eq hp hs.numLocal hvs]
    cases f v with
    | none => simp
    | some d => simp
  · rw [if_pos ho, if_pos ho]
    rfl

theorem peerEdge_eq (hs : SelFacts g vs known hnd EH pinsOf own inc) {plan : Plan} {s : List Gid}
    {f : Gid → Option Part} (hp : PlanRep vs plan s f) {e : Handle} (he : e ∈ EH) {m : List (Part × List Handle)}
    {J : Handle → Part → Prop} (hm : PeerMap m J) :
    ∃ m', peerEdge g plan m e = .ok m' ∧
      PeerMap m' (fun x q => J x q ∨ (x = e ∧ Joins g.self own f (pinsOf e) q)) := by
  obtain ⟨⟨it, e1, hy⟩, hb, hk⟩ := hs.pins e he
  unfold peerEdge
  rw [e1, Outcome.bind_ok, iterLoop_yields _ _ _ _ _ hy (by simpa using hb)]
  unfold Joins
  generalize pinsOf e = ps at hk
  clear hy hb e1
  induction ps generalizing m J with
  | nil => exact ⟨m, rfl, hm.congr (by simp)⟩
  | cons p ps ih =>
    rw [List.map_cons, loopList, peerBody_eq hs hp e m (hk p (by simp)), Outcome.bind_ok]
    simp only [Bool.false_eq_true, if_false]
    cases hd : dstOf g.self own f p with
    | none =>
      obtain ⟨m', e2, h2⟩ := ih hm (fun v h => hk v (by simp [h]))
      refine ⟨m', e2, h2.congr ?_⟩
      intro x q
      simp [hd]
    | some d =>
      obtain ⟨m', e2, h2⟩ := ih (hm.add d e) (fun v h => hk v (by simp [h]))
      refine ⟨m', e2, h2.congr ?_⟩
      intro x q
      simp only [List.mem_cons, exists_eq_or_imp, hd, Option.some.injEq]
      constructor
      · rintro ((h | ⟨h1, h2⟩) | ⟨h1, h2⟩)
        · exact .inl h
        · exact .inr ⟨h1, .inl h2.symm⟩
        · exact .inr ⟨h1, .inr h2⟩
      · rintro (h | ⟨h1, h2 | h2⟩)
        · exact .inl (.inl h)
        · exact .inl (.inr ⟨h1, h2.symm⟩)
        · exact .inr ⟨h1, h2⟩

theorem peerEdges_eq (hs : SelFacts g vs known hnd EH pinsOf own inc) {plan : Plan} {s : List Gid}
    {f : Gid → Option Part} (hp : PlanRep vs plan s f) : ∀ (es : List Handle), (∀ e ∈ es, e ∈ EH) →
    ∀ {m : List (Part × List Handle)} {J : Handle → Part → Prop}, PeerMap m J →
    ∃ m', es.foldlM (peerEdge g plan) m = .ok m' ∧
      PeerMap m' (fun x q => J x q ∨ (x ∈ es ∧ Joins g.self own f (pinsOf x) q))
  | [], _, m, J, hm => ⟨m, rfl, hm.congr (by simp)⟩
  | e :: es, he, m, J, hm => by
    obtain ⟨m1, e1, h1⟩ := peerEdge_eq hs hp (he e (by simp)) hm
    obtain ⟨m2, e2, h2⟩ := peerEdges_eq hs hp es (fun x hx => he x (by simp [hx])) h1
    refine ⟨m2, by rw [List.foldlM_cons, e1]; exact e2, h2.congr ?_⟩
    intro x q
    rw [List.mem_cons]
    constructor
    · rintro ((h | ⟨rfl, h⟩) | ⟨h, h'⟩)
      · exact .inl h
      · exact .inr ⟨.inl rfl, h⟩
      · exact .inr ⟨.inr h, h'⟩
    · rintro (h | ⟨rfl | h, h'⟩)
      · exact .inl (.inl h)
      · exact .inl (.inr ⟨rfl, h'⟩)
      · exact .inr ⟨h, h'⟩

theorem edgesOfVertices_eq (hs : SelFacts g vs known hnd EH pinsOf own inc) : ∀ (c : List Gid), (∀ v ∈ c, v ∈ vs) →
    ∀ s : List Handle, (c.map hnd).foldlM (edgesOfVertex g) s =
      .ok ((c.flatMap (fun v => inc v 0)).foldl insertSet s)
  | [], _, s => rfl
  | v :: c, hc, s => by
    obtain ⟨⟨it, e1, hy⟩, hb, -⟩ := hs.edges0 v (hc v (by simp))
    have hbody : edgesOfVertex g s (hnd v) = .ok ((inc v 0).foldl insertSet s) := by
      unfold edgesOfVertex
      rw [e1, Outcome.bind_ok, setLoop_eq hy hb]
    rw [List.map_cons, List.foldlM_cons, hbody, Outcome.bind_ok,
      edgesOfVertices_eq hs c (fun v hv => hc v (by simp [hv])), List.flatMap_cons, List.foldl_append]

/-! ## the reversed map -/

/-- decreasing in the first component -/
def Desc (l : List (Nat × Part)) : Prop := l.Pairwise (fun a b => b.1 < a.1)

theorem mem_insertCount {n : Nat} {p : Part} : ∀ {l : List (Nat × Part)} {x : Nat × Part},
    x ∈ insertCount n p l → x = (n, p) ∨ x ∈ l
  | [], x, h => by simp [insertCount] at h; exact .inl h
  | a :: l, x, h => by
    unfold insertCount at h
    split at h
    · rcases List.mem_cons.mp h with h | h
      · exact .inl h
      · exact .inr h
    · split at h
      · exact .inr h
      · rcases List.mem_cons.mp h with h | h
        · exact .inr (by simp [h])
        · rcases mem_insertCount h with h | h
          · exact .inl h
          · exact .inr (by simp [h])

theorem insertCount_keep {n : Nat} {p : Part} : ∀ {l : List (Nat × Part)} {x : Nat × Part}, x ∈ l →
    x ∈ insertCount n p l
  | [], x, h => by simp at h
  | a :: l, x, h => by
    unfold insertCount
    split
    · simp only [List.mem_cons] at h ⊢; exact .inr h
    · split
      · exact h
      · rcases List.mem_cons.mp h with h | h
        · simp [h]
        · simp [insertCount_keep h]

theorem insertCount_has {n : Nat} {p : Part} : ∀ (l : List (Nat × Part)), ∃ q, (n, q) ∈ insertCount n p l
  | [] => ⟨p, by simp [insertCount]⟩
  | a :: l => by
    unfold insertCount
    split
    · exact ⟨p, by simp⟩
    · split
      · rename_i h1 h2
        exact ⟨a.2, by simp [← h2]⟩
      · obtain ⟨q, hq⟩ := insertCount_has (n := n) (p := p) l
        exact ⟨q, by simp [hq]⟩

theorem insertCount_desc {n : Nat} {p : Part} : ∀ {l : List (Nat × Part)}, Desc l → Desc (insertCount n p l)
  | [], _ => by simp [insertCount, Desc]
  | a :: l, h => by
    unfold Desc at h ⊢
    rw [List.pairwise_cons] at h
    unfold insertCount
    split
    · rename_i ha
      rw [List.pairwise_cons, List.pairwise_cons]
      refine ⟨?_, h⟩
      intro x hx
      rcases List.mem_cons.mp hx with rfl | hx
      · exact ha
      · have := h.1 x hx; simp only; omega
    · split
      · rw [List.pairwise_cons]; exact h
      · rw [List.pairwise_cons]
        refine ⟨?_, insertCount_desc h.2⟩
        intro x hx
        rcases mem_insertCount hx with rfl | hx
        · simp only; omega
        · exact h.1 x hx

theorem reversed_spec (cnt : Part → Nat) : ∀ (ps : List Part) (l : List (Nat × Part)), Desc l →
    (∀ x ∈ l, x.1 = cnt x.2) →
    Desc (ps.foldl (fun l p => insertCount (cnt p) p l) l) ∧
    (∀ x ∈ ps.foldl (fun l p => insertCount (cnt p) p l) l, x.1 = cnt x.2 ∧ (x ∈ l ∨ x.2 ∈ ps)) ∧
    (∀ x ∈ l, x ∈ ps.foldl (fun l p => insertCount (cnt p) p l) l) ∧
    (∀ p ∈ ps, ∃ x ∈ ps.foldl (fun l p => insertCount (cnt p) p l) l, x.1 = cnt p)
  | [], l, h, hl => ⟨h, fun x hx => ⟨hl x hx, .inl hx⟩, fun x hx => hx, by simp⟩
  | p :: ps, l, h, hl => by
    have h1 : ∀ x ∈ insertCount (cnt p) p l, x.1 = cnt x.2 := by
      intro x hx
      rcases mem_insertCount hx with rfl | hx
      · rfl
      · exact hl x hx
    obtain ⟨a, b, c, d⟩ := reversed_spec cnt ps (insertCount (cnt p) p l) (insertCount_desc h) h1
    rw [List.foldl_cons]
    refine ⟨a, ?_, ?_, ?_⟩
    · intro x hx
      obtain ⟨b1, b2⟩ := b x hx
      refine ⟨b1, ?_⟩
      rcases b2 with b2 | b2
      · rcases mem_insertCount b2 with rfl | b2
        · exact .inr (by simp)
        · exact .inl b2
      · exact .inr (by simp [b2])
    · intro x hx; exact c x (insertCount_keep hx)
    · intro q hq
      rcases List.mem_cons.mp hq with rfl | hq
      · obtain ⟨r, hr⟩ := insertCount_has (n := cnt q) (p := q) l
        exact ⟨_, c _ hr, rfl⟩
      · exact d q hq

/-- iteration orders are rearrangements -/
structure HashOrd.Ok (ord : HashOrd) : Prop where
  parts : ∀ l, (ord.parts l).Perm l
  verts : ∀ l, (ord.verts l).Perm l

/-- the edges of the vertices `c` -/
def cavityEdges (inc : Gid → Nat → List Handle) (c : List Gid) : List Handle := (c.flatMap (fun v => inc v 0)).dedup

/-- how many of the edges of the vertices `c` join them to part `p` -/
def surface (me : Part) (own : Gid → Part) (f : Gid → Option Part) (pinsOf : Handle → List Gid)
    (inc : Gid → Nat → List Handle) (c : List Gid) (p : Part) : Nat :=
  (cavityEdges inc c).countP (fun e => decide (Joins me own f (pinsOf e) p))

theorem ordVerts_map {ord : HashOrd} (ho : ord.Ok) (c : List Gid) (hnd : Gid → Handle) (hc : c.Nodup) :
    ∃ c' : List Gid, ord.verts (c.map hnd) = c'.map hnd ∧ c'.Perm c := by
  have hp := ho.verts (c.map hnd)
  generalize ord.verts (c.map hnd) = L at hp
  -- a permutation of a mapped list is a mapped permutation
  induction L generalizing c with
  | nil =>
    have : c = [] := List.eq_nil_of_length_eq_zero (by simpa using hp.length_eq.symm)
    subst this
    exact ⟨[], rfl, List.Perm.refl _⟩
  | cons a L ih =>
    have ha : a ∈ c.map hnd := hp.subset (by simp)
    obtain ⟨v, hv, rfl⟩ := List.mem_map.mp ha
    have hpe := List.perm_cons_erase hv
    have h2 : L.Perm ((c.erase v).map hnd) := by
      have := hp.trans (hpe.map hnd)
      rw [List.map_cons] at this
      exact this.cons_inv
    obtain ⟨c', e, hc'⟩ := ih (c.erase v) (hc.erase v) h2
    exact ⟨v :: c', by simp [e], (hc'.cons v).trans hpe.symm⟩

theorem cavityPeers_eq {ord : HashOrd} (ho : ord.Ok) (hs : SelFacts g vs known hnd EH pinsOf own inc) {plan : Plan}
    {s : List Gid} {f : Gid → Option Part} (hp : PlanRep vs plan s f) {c : List Gid} (hc : ∀ v ∈ c, v ∈ vs)
    (hcn : c.Nodup) :
    ∃ peers : List Part, cavityPeers ord g plan (c.map hnd) = .ok peers ∧
      peers.Pairwise (fun a b => surface g.self own f pinsOf inc c b < surface g.self own f pinsOf inc c a) ∧
      (∀ p ∈ peers, 0 < surface g.self own f pinsOf inc c p) ∧
      (∀ p, 0 < surface g.self own f pinsOf inc c p →
        ∃ q ∈ peers, surface g.self own f pinsOf inc c q = surface g.self own f pinsOf inc c p) := by
  obtain ⟨c', e0, hc'⟩ := ordVerts_map ho c hnd hcn
  have hc'v : ∀ v ∈ c', v ∈ vs := fun v hv => hc v (hc'.subset hv)
  unfold cavityPeers
  rw [e0, edgesOfVertices_eq hs c' hc'v, Outcome.bind_ok]
  set es := (c'.flatMap (fun v => inc v 0)).foldl insertSet [] with hes
  have hmem : ∀ e, e ∈ es ↔ ∃ v ∈ c', e ∈ inc v 0 := by
    intro e; rw [hes, mem_foldSet]; simp
  have hesn : es.Nodup := nodup_foldSet _ List.nodup_nil
  have hesE : ∀ e ∈ es, e ∈ EH := by
    intro e he
    obtain ⟨v, hv, hev⟩ := (hmem e).mp he
    exact (hs.edges0 v (hc'v v hv)).2.2 e hev
  obtain ⟨m, e1, hm⟩ := peerEdges_eq hs hp es hesE (m := []) (J := fun _ _ => False)
    ⟨by simp, by simp, by simp, by simp⟩
  rw [e1, Outcome.bind_ok]
  have hperm : es.Perm (cavityEdges inc c) := by
    unfold cavityEdges
    rw [List.perm_ext_iff_of_nodup hesn (List.nodup_dedup _)]
    intro e
    rw [hmem, List.mem_dedup, List.mem_flatMap]
    constructor
    · rintro ⟨v, hv, h⟩; exact ⟨v, hc'.subset hv, h⟩
    · rintro ⟨v, hv, h⟩; exact ⟨v, hc'.symm.subset hv, h⟩
  have hcnt : ∀ p, ((m.lookup p).getD []).length = surface g.self own f pinsOf inc c p := by
    intro p
    unfold surface
    rw [← hperm.countP_eq, List.countP_eq_length_filter]
    apply List.Perm.length_eq
    rw [List.perm_ext_iff_of_nodup (hm.nodup p) (hesn.filter _)]
    intro e
    rw [hm.mem, List.mem_filter]
    simp
  have hfun : (fun (l : List (Nat × Part)) p => insertCount ((m.lookup p).getD []).length p l) =
      (fun l p => insertCount (surface g.self own f pinsOf inc c p) p l) := by
    funext l p; rw [hcnt]
  have hkey : ∀ p, p ∈ ord.parts (m.map Prod.fst) ↔ 0 < surface g.self own f pinsOf inc c p := by
    intro p
    rw [(ho.parts _).mem_iff, hm.key, ← hcnt, List.length_pos_iff_exists_mem]
    constructor
    · rintro ⟨e, he⟩; exact ⟨e, (hm.mem p e).mpr he⟩
    · rintro ⟨e, he⟩; exact ⟨e, (hm.mem p e).mp he⟩
  obtain ⟨a, b, -, d⟩ := reversed_spec (surface g.self own f pinsOf inc c) (ord.parts (m.map Prod.fst)) []
    (by simp [Desc]) (by simp)
  simp only [Outcome.pure_eq]
  rw [hfun]
  refine ⟨_, rfl, ?_, ?_, ?_⟩
  · rw [List.pairwise_map]
    unfold Desc at a
    apply List.Pairwise.imp_of_mem _ a
    intro x y hx hy hxy
    rw [← (b x hx).1, ← (b y hy).1]
    exact hxy
  · intro p hpp
    obtain ⟨x, hx, rfl⟩ := List.mem_map.mp hpp
    rcases (b x hx).2 with h | h
    · simp at h
    · exact (hkey _).mp h
  · intro p hpp
    obtain ⟨x, hx, h⟩ := d p ((hkey p).mpr hpp)
    exact ⟨x.2, List.mem_map.mpr ⟨x, hx, rfl⟩, by rw [← (b x hx).1, h]⟩

end
end Verif.Part
