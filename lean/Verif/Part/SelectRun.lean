import Verif.Part.SelectLemmas
/-!
# What a selection does to the plan, for one part
-/
namespace Verif.Part
open Verif.Agi

section
variable {g : Graph} {vs known : List Gid} {hnd : Gid → Handle} {EH : List Handle} {pinsOf : Handle → List Gid}
  {own : Gid → Part} {inc : Gid → Nat → List Handle} {dims : List Int} {wt : Gid → Rat} {res : Handle → Part → Bool}
  {ew : Handle → Rat}

/-- after the vertices `a` of a cavity have been added to the plan (`s`, `f`) -/
structure AddInv (vs : List Gid) (wt : Gid → Rat) (inc : Gid → Nat → List Handle) (dim : Int) (peer : Part)
    (s : List Gid) (f : Gid → Option Part) (a : List Gid) (x : Plan × Rat × List Handle) : Prop where
  plan : PlanRep vs x.1 (s ++ a.filter (fun v => decide (f v = none))) (fun v => if v ∈ a then some peer else f v)
  w : x.2.1 = if dim = -1 then ((a.filter (fun v => decide (f v = none))).map wt).sum else 0
  nodup : x.2.2.Nodup
  mem : ∀ e, e ∈ x.2.2 ↔ dim ≠ -1 ∧ ∃ v ∈ a.filter (fun v => decide (f v = none)), e ∈ inc v dim.toNat

theorem targetEdges_eq (hf : Facts g vs hnd dims wt inc res ew) {v : Gid} (hv : v ∈ vs) {dim : Int}
    (hd : dim ∈ dims) (hne : dim ≠ -1) (s : List Handle) :
    targetEdges g dim s (hnd v) = .ok ((inc v dim.toNat).foldl insertSet s) := by
  have h0 : 0 ≤ dim := by have := hf.isdim dim hd; omega
  obtain ⟨t, rfl⟩ := Int.eq_ofNat_of_zero_le h0
  obtain ⟨⟨it, e1, hy⟩, hb⟩ := hf.edges v hv t hd
  unfold targetEdges
  rw [if_neg (by omega)]
  simp only [Int.toNat_natCast]
  rw [e1, Outcome.bind_ok, setLoop_eq hy hb]

theorem addVertex_inv (hs : SelFacts g vs known hnd EH pinsOf own inc) (hf : Facts g vs hnd dims wt inc res ew)
    {dim : Int} (hdim : dim ∈ dims) {peer : Part} (hpe : peer ≠ -1) {s : List Gid} {f : Gid → Option Part}
    {a : List Gid} {x : Plan × Rat × List Handle} (h : AddInv vs wt inc dim peer s f a x) {v : Gid} (hv : v ∈ vs)
    (hva : v ∉ a) : ∃ x', addVertex g peer dim x (hnd v) = .ok x' ∧ AddInv vs wt inc dim peer s f (a ++ [v]) x' := by
  obtain ⟨plan', e1, hp'⟩ := planInsert_rep (g := g) h.plan hs.numLocal hs.nodup hv hpe
  have hfun : planPut (fun v => if v ∈ a then some peer else f v) v peer =
      fun u => if u ∈ a ++ [v] then some peer else f u := by
    funext u
    unfold planPut
    by_cases hu : u = v
    · subst hu; simp
    · simp [hu]
  have hfv : (if v ∈ a then some peer else f v) = f v := if_neg hva
  simp only [hfun, hfv] at e1 hp'
  unfold addVertex
  rw [hs.handle v hv, e1, Outcome.bind_ok, ← hs.handle v hv]
  have hfil : (a ++ [v]).filter (fun v => decide (f v = none)) =
      if f v = none then a.filter (fun v => decide (f v = none)) ++ [v] else a.filter (fun v => decide (f v = none)) := by
    rw [List.filter_append]
    by_cases hz : f v = none <;> simp [hz]
  by_cases hz : f v = none
  · rw [if_pos hz] at hfil
    simp only [hz, decide_true, if_true] at hp' ⊢
    by_cases hd1 : dim = -1
    · rw [if_pos hd1, hf.vweight v hv, Outcome.bind_ok]
      refine ⟨_, rfl, ?_, ?_, h.nodup, ?_⟩
      · rw [hfil, ← List.append_assoc]; exact hp'
      · rw [hfil]
        simp only [h.w, if_pos hd1, List.map_append, List.sum_append, List.map_cons, List.map_nil, List.sum_cons,
          List.sum_nil, add_zero]
      · intro e
        simp only [h.mem, hd1, ne_eq, not_true_eq_false, false_and]
    · rw [if_neg hd1, targetEdges_eq hf hv hdim hd1, Outcome.bind_ok]
      refine ⟨_, rfl, ?_, ?_, nodup_foldSet _ h.nodup, ?_⟩
      · rw [hfil, ← List.append_assoc]; exact hp'
      · simp only [h.w, if_neg hd1]
      · intro e
        simp only [mem_foldSet, h.mem, hfil]
        constructor
        · rintro (⟨-, u, hu, he⟩ | he)
          · exact ⟨hd1, u, by simp [hu], he⟩
          · exact ⟨hd1, v, by simp, he⟩
        · rintro ⟨-, u, hu, he⟩
          rcases List.mem_append.mp hu with hu | hu
          · exact .inl ⟨hd1, u, hu, he⟩
          · rw [List.mem_singleton.mp hu] at he; exact .inr he
  · rw [if_neg hz] at hfil
    simp only [hz, decide_false, Bool.false_eq_true, if_false] at hp' ⊢
    refine ⟨_, rfl, ?_, ?_, h.nodup, ?_⟩
    · rw [hfil]; exact hp'
    · rw [hfil]; exact h.w
    · rw [hfil]; exact h.mem

theorem addVertices_inv (hs : SelFacts g vs known hnd EH pinsOf own inc) (hf : Facts g vs hnd dims wt inc res ew)
    {dim : Int} (hdim : dim ∈ dims) {peer : Part} (hpe : peer ≠ -1) {s : List Gid} {f : Gid → Option Part} :
    ∀ (c a : List Gid) (x : Plan × Rat × List Handle), AddInv vs wt inc dim peer s f a x → (∀ v ∈ c, v ∈ vs) →
      (a ++ c).Nodup → ∃ x', (c.map hnd).foldlM (addVertex g peer dim) x = .ok x' ∧
        AddInv vs wt inc dim peer s f (a ++ c) x'
  | [], a, x, h, _, _ => ⟨x, rfl, by simpa using h⟩
  | v :: c, a, x, h, hc, hn => by
    have hva : v ∉ a := by
      intro hm
      exact (List.nodup_append.mp hn).2.2 v hm v (by simp) rfl
    obtain ⟨x1, e1, h1⟩ := addVertex_inv hs hf hdim hpe h (hc v (by simp)) hva
    obtain ⟨x2, e2, h2⟩ := addVertices_inv hs hf hdim hpe c (a ++ [v]) x1 h1 (fun u hu => hc u (by simp [hu]))
      (by simpa using hn)
    refine ⟨x2, ?_, by simpa using h2⟩
    rw [List.map_cons, List.foldlM_cons, e1]
    exact e2

theorem bringEdges_eq {dim : Int} {peer : Part} : ∀ (l : List Handle) (w : Rat),
    (∀ e ∈ l, g.isResidentOn e peer = .ok (res e peer) ∧ g.weightE e = .ok (ew e)) →
    l.foldlM (bringEdge g peer) w = .ok (w + ((l.filter (fun e => !res e peer)).map ew).sum)
  | [], w, _ => by simp
  | e :: l, w, h => by
    have hb : bringEdge g peer w e = .ok (if res e peer = true then w else w + ew e) := by
      unfold bringEdge
      rw [(h e (by simp)).1, (h e (by simp)).2]
      cases res e peer <;> rfl
    rw [List.foldlM_cons, hb]
    show l.foldlM (bringEdge g peer) (if res e peer = true then w else w + ew e) = _
    rw [bringEdges_eq (dim := dim) l _ (fun x hx => h x (by simp [hx])), List.filter_cons]
    cases res e peer
    · simp only [Bool.false_eq_true, if_false, Bool.not_false, if_true, List.map_cons, List.sum_cons]
      congr 1; ring
    · simp

/-- adding a cavity sends all its vertices to the peer; the weight counted is that of the vertices not planned before -/
theorem addCavity_eq {ord : HashOrd} (ho : ord.Ok) (hs : SelFacts g vs known hnd EH pinsOf own inc)
    (hf : Facts g vs hnd dims wt inc res ew)
    {dim : Int} (hdim : dim ∈ dims) {peer : Part} (hpe : peer ≠ -1) {plan : Plan} {s : List Gid}
    {f : Gid → Option Part} (hp : PlanRep vs plan s f) {c : List Gid} (hc : ∀ v ∈ c, v ∈ vs) (hcn : c.Nodup) :
    ∃ (plan' : Plan) (new : List Gid), addCavity ord g (c.map hnd) peer plan dim =
        .ok (plan', load wt inc res ew dim peer new) ∧
      PlanRep vs plan' (s ++ new) (fun v => if v ∈ c then some peer else f v) ∧
      new.Perm (c.filter (fun v => decide (f v = none))) := by
  obtain ⟨c', e0, hc'⟩ := ordVerts_map ho c hnd hcn
  have hc'v : ∀ v ∈ c', v ∈ vs := fun v hv => hc v (hc'.subset hv)
  obtain ⟨x, e1, h⟩ := addVertices_inv hs hf hdim hpe c' [] (plan, 0, [])
    ⟨by simpa using hp, by simp, by simp, by simp⟩ hc'v (by simpa using hc'.symm.nodup hcn) (s := s) (f := f)
  rw [List.nil_append] at h
  have hres : ∀ e ∈ x.2.2, g.isResidentOn e peer = .ok (res e peer) ∧ g.weightE e = .ok (ew e) := by
    intro e he
    obtain ⟨hd1, v, hv, hev⟩ := (h.mem e).mp he
    have h0 : 0 ≤ dim := by have := hf.isdim dim hdim; omega
    obtain ⟨t, rfl⟩ := Int.eq_ofNat_of_zero_le h0
    obtain ⟨a, b⟩ := hf.edge v (hc'v v (List.mem_filter.mp hv).1) t hdim e (by simpa using hev)
    exact ⟨a peer, b⟩
  unfold addCavity
  rw [e0, e1, Outcome.bind_ok, bringEdges_eq (dim := dim) _ _ hres, Outcome.bind_ok]
  refine ⟨x.1, c'.filter (fun v => decide (f v = none)), ?_, ?_, hc'.filter _⟩
  · have : x.2.1 + ((x.2.2.filter (fun e => !res e peer)).map ew).sum =
        load wt inc res ew dim peer (c'.filter (fun v => decide (f v = none))) := by
      unfold load
      by_cases hd1 : dim = -1
      · have hx : x.2.2 = [] := by
          apply List.eq_nil_iff_forall_not_mem.mpr
          intro e he
          exact ((h.mem e).mp he).1 hd1
        rw [h.w, if_pos hd1, if_pos hd1, hx]; simp
      · rw [h.w, if_neg hd1, if_neg hd1, zero_add]
        apply brought_sum_congr (h.nodup.filter _)
        intro e
        rw [List.mem_filter, h.mem]
        simp [hd1]
    rw [this]; rfl
  · have hfn : (fun v => if v ∈ c' then some peer else f v) = fun v => if v ∈ c then some peer else f v := by
      funext v
      simp only [hc'.mem_iff]
    rw [← hfn]
    exact h.plan

theorem load_subset (hw : ∀ v ∈ vs, 0 ≤ wt v) (he : ∀ e, 0 ≤ ew e) (dim : Int) (d : Part) {a b : List Gid}
    (hb : ∀ v ∈ b, v ∈ vs) (ha : a.Nodup) (h : ∀ v ∈ a, v ∈ b) :
    load wt inc res ew dim d a ≤ load wt inc res ew dim d b := by
  unfold load
  split
  · exact sum_subset ha h (fun v hv => hw v (hb v hv))
  · apply sum_subset (nodup_brought _ _ _ _ _)
    · intro e h'
      rw [mem_brought] at h' ⊢
      obtain ⟨⟨v, hv, hv'⟩, hr⟩ := h'
      exact ⟨⟨v, h v hv, hv'⟩, hr⟩
    · intro e _; exact he e

/-- the cut counts are defined -/
theorem cutCounts_ok (hf : Facts g vs hnd dims wt inc res ew) (h0 : (0 : Int) ∈ dims) (peer : Part) :
    ∀ (c : List Gid) (x : Nat × Nat), (∀ v ∈ c, v ∈ vs) → ∃ y, (c.map hnd).foldlM (cutVertex g peer) x = .ok y
  | [], x, _ => ⟨x, rfl⟩
  | v :: c, x, hc => by
    have hv := hc v (by simp)
    obtain ⟨⟨it, e1, hy⟩, hb⟩ := hf.edges v hv 0 h0
    have H : ∀ (l : List Handle), (∀ e ∈ l, g.isResidentOn e peer = .ok (res e peer)) → ∀ x,
        ∃ y, loopList (cutCount g peer) l x = .ok y := by
      intro l
      induction l with
      | nil => intro _ x; exact ⟨x, rfl⟩
      | cons e l ih =>
        intro hl x
        obtain ⟨z, hz⟩ : ∃ z, cutCount g peer x e = .ok (z, false) := by
          unfold cutCount
          rw [hl e (by simp), Outcome.bind_ok]
          cases res e peer
          · exact ⟨_, rfl⟩
          · exact ⟨_, rfl⟩
        rw [loopList, hz, Outcome.bind_ok]
        simp only [Bool.false_eq_true, if_false]
        exact ih (fun e he => hl e (by simp [he])) z
    obtain ⟨y, hy'⟩ := H (inc v 0) (fun e he => (hf.edge v hv 0 h0 e he).1 peer) x
    have hcv : cutVertex g peer x (hnd v) = .ok y := by
      unfold cutVertex
      have e1' : g.edges (hnd v) 0 = .ok it := e1
      rw [e1', Outcome.bind_ok, iterLoop_yields _ _ _ _ _ hy hb, hy']
    obtain ⟨z, hz⟩ := cutCounts_ok hf h0 peer c y (fun u hu => hc u (by simp [hu]))
    refine ⟨z, ?_⟩
    rw [List.map_cons, List.foldlM_cons, hcv]
    exact hz

theorem peerOk_ok {ord : HashOrd} (ho : ord.Ok) (hf : Facts g vs hnd dims wt inc res ew) (h0 : (0 : Int) ∈ dims)
    (limit : Rat) (targets : Cont Rat) (sending : Part → Rat) (peer : Part) {c : List Gid} (hc : ∀ v ∈ c, v ∈ vs)
    (hcn : c.Nodup) : ∃ b, peerOk ord g limit targets sending (c.map hnd) peer = .ok b ∧
      (b = true → targets.has peer = true ∧ sending peer < targets.get peer) ∧
      (limit ≤ 0 → targets.has peer = true → sending peer < targets.get peer → b = true) := by
  unfold peerOk
  split
  · rename_i h
    unfold growthOk
    split
    · exact ⟨true, rfl, fun _ => h, fun _ _ _ => rfl⟩
    · rename_i hl
      obtain ⟨c', e0, hc'⟩ := ordVerts_map ho c hnd hcn
      obtain ⟨y, hy⟩ := cutCounts_ok hf h0 peer c' (0, 0) (fun v hv => hc v (hc'.subset hv))
      rw [e0, hy, Outcome.bind_ok]
      exact ⟨_, rfl, fun _ => h, fun hl' => absurd hl' hl⟩
  · rename_i h
    exact ⟨false, rfl, by simp, fun _ h1 h2 => absurd ⟨h1, h2⟩ h⟩

end
end Verif.Part
