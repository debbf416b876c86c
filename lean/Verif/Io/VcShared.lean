import Verif.Io.VcProps
/-!
# Property C64, the vertices that several parts have

The copy of the counts is undefined (`c64_ub`); everything around it is right: everybody hears of every vertex of every other part once,
the ghosts and their owners are exactly the other parts' copies, the degrees count them, and with counts copied as numbers the edges lead
from every vertex to its copies.
-/
namespace Verif.Io
open Verif.Agi

/-! ## telling -/

theorem tell_one {P me q : Nat} (hme : me < P) (hq : q < P) (hne : q ≠ me) :
    (List.range' 1 (P - 1)).countP (fun j => decide (((((me + j) % P : Nat) : Int)) = (q : Int))) = 1 := by
  have key : ∀ j, j ∈ List.range' 1 (P - 1) → (decide (((((me + j) % P : Nat) : Int)) = (q : Int)) = true ↔ j = (if me < q then q - me else q + P - me)) := by
    intro j hj
    rw [List.mem_range'_1] at hj
    rw [decide_eq_true_iff, Int.natCast_inj]
    by_cases h : me + j < P
    · rw [Nat.mod_eq_of_lt h]
      split <;> omega
    · rw [Nat.mod_eq_sub_mod (by omega), Nat.mod_eq_of_lt (by omega)]
      split <;> omega
  have h2 : (List.range' 1 (P - 1)).countP (fun j => decide (((((me + j) % P : Nat) : Int)) = (q : Int))) =
      (List.range' 1 (P - 1)).count (if me < q then q - me else q + P - me) := by
    rw [List.count]
    apply List.countP_congr
    intro j hj
    rw [key j hj, beq_iff_eq]
  rw [h2]
  apply List.count_eq_one_of_mem
  · exact List.nodup_range'
  · rw [List.mem_range'_1]
    split <;> omega

theorem tell_self {P me : Nat} (hme : me < P) :
    (List.range' 1 (P - 1)).countP (fun j => decide (((((me + j) % P : Nat) : Int)) = (me : Int))) = 0 := by
  rw [List.countP_eq_zero]
  intro j hj
  rw [List.mem_range'_1] at hj
  rw [decide_eq_true_iff, Int.natCast_inj]
  by_cases h : me + j < P
  · rw [Nat.mod_eq_of_lt h]; omega
  · rw [Nat.mod_eq_sub_mod (by omega), Nat.mod_eq_of_lt (by omega)]; omega

/-- every other part is told every vertex once, in order, and the part itself nothing -/
theorem tell_spec {g : Graph} {vs : List Gid} (hn : g.numLocal = vs.length) (hu : g.localUnmap = Mem.ofList vs) {P me : Nat} (hme : me < P) :
    ∃ out, vcTell g P me = .ok out ∧ (∀ m ∈ out, 0 ≤ m.1 ∧ m.1 < (P : Int)) ∧ ∀ q, q < P →
      (out.filter (fun m => decide (m.1 = (q : Int)))).map (·.2) = if q = me then [] else vs := by
  unfold vcTell
  rw [mapM_ok (g := fun k => vs.getD k 0) (by
    intro k hk
    have hk' : k < vs.length := by rw [← hn]; exact List.mem_range.mp hk
    rw [hu, Mem.load_ofList hk', getD_in 0 hk']), Outcome.bind_ok]
  have hvs : (List.range g.numLocal).map (fun k => vs.getD k 0) = vs := by
    rw [hn]
    apply List.ext_getElem
    · simp
    · intro k h1 h2
      simp [h2]
  rw [hvs]
  refine ⟨_, rfl, ?_, ?_⟩
  · intro m hmm
    obtain ⟨v, -, hv⟩ := List.mem_flatMap.mp hmm
    obtain ⟨j, -, rfl⟩ := List.mem_map.mp hv
    have : (me + j) % P < P := Nat.mod_lt _ (by omega)
    constructor
    · exact Int.natCast_nonneg _
    · show (((me + j) % P : Nat) : Int) < _
      exact_mod_cast this
  · intro q hq
    have one : ∀ v : Gid, ((((List.range' 1 (P - 1)).map (fun j => ((((me + j) % P : Nat) : Int), v))).filter
        (fun m => decide (m.1 = (q : Int)))).map (·.2)) = if q = me then [] else [v] := by
      intro v
      have : ∀ l : List Nat, (((l.map (fun j => ((((me + j) % P : Nat) : Int), v))).filter (fun m => decide (m.1 = (q : Int)))).map (·.2)) =
          List.replicate (l.countP (fun j => decide (((((me + j) % P : Nat) : Int)) = (q : Int)))) v := by
        intro l
        induction l with
        | nil => rfl
        | cons a l ih =>
          rw [List.map_cons, List.filter_cons, List.countP_cons]
          by_cases ha : ((((me + a) % P : Nat) : Int)) = (q : Int)
          · rw [if_pos (decide_eq_true ha), if_pos (decide_eq_true ha), List.map_cons, ih, List.replicate_succ]
          · rw [if_neg (by simpa using ha), if_neg (by simpa using ha), ih, Nat.add_zero]
      rw [this]
      by_cases hqm : q = me
      · rw [if_pos hqm, hqm, tell_self hme]; rfl
      · rw [if_neg hqm, tell_one hme hq hqm]; rfl
    clear hvs hn hu
    induction vs with
    | nil => simp
    | cons v vs ih =>
      rw [List.flatMap_cons, List.filter_append, List.map_append, ih, one v]
      split
      · rfl
      · rfl

/-! ## hearing -/

theorem hear_spec {g : Graph} {ids : List Gid} (hn : g.numLocal = ids.length) (hm : g.vtxMap = lookup ids)
    (inbox : List (Nat × Gid)) :
    ∃ s, inbox.foldlM (vcHear g) ⟨[], Mem.ofList (List.replicate (g.numLocal + 1) 0)⟩ = .ok s ∧
      s.dups = (inbox.filter (fun x => decide (x.2 ∈ ids))).map (fun x => (x.2, x.1)) ∧
      s.deg = Mem.ofList ((List.range (g.numLocal + 1)).map fun j => inbox.countP fun x => decide (x.2 ∈ ids ∧ ids.idxOf x.2 + 1 = j)) := by
  have := foldlM_inv (vcHear g) (fun pre s => s.dups = (pre.filter (fun x => decide (x.2 ∈ ids))).map (fun x => (x.2, x.1)) ∧
      s.deg = Mem.ofList ((List.range (g.numLocal + 1)).map fun j => pre.countP fun x => decide (x.2 ∈ ids ∧ ids.idxOf x.2 + 1 = j)))
    inbox (by
      intro pre x s _ hI
      obtain ⟨h1, h2⟩ := hI
      unfold vcHear
      rw [hm]
      by_cases hx : x.2 ∈ ids
      · rw [lookup_of_mem hx]
        have hlt : ids.idxOf x.2 < ids.length := List.idxOf_lt_length_of_mem hx
        have hc : ids.idxOf x.2 + 1 < ((List.range (g.numLocal + 1)).map fun j => pre.countP fun x => decide (x.2 ∈ ids ∧ ids.idxOf x.2 + 1 = j)).length := by
          simp; omega
        unfold incr
        simp only
        rw [h2, Mem.load_ofList hc, Outcome.bind_ok, Mem.store_ok _ (by simpa [Mem.ofList] using hc), Outcome.bind_ok]
        refine ⟨_, rfl, ?_, ?_⟩
        · rw [h1, List.filter_append, List.map_append]
          simp [hx]
        · show List.set _ _ _ = _
          unfold Mem.ofList
          rw [← List.map_set]
          congr 1
          apply List.ext_getElem
          · simp
          · intro j h3 h4
            rw [List.getElem_set]
            simp only [List.getElem_map, List.getElem_range, List.countP_append]
            by_cases hj : ids.idxOf x.2 + 1 = j
            · rw [if_pos hj]; simp [hx, hj]
            · rw [if_neg hj]; simp [hj]
      · rw [lookup_of_not_mem hx]
        refine ⟨s, rfl, ?_, ?_⟩
        · rw [h1, List.filter_append]
          simp [hx]
        · rw [h2]
          congr 1
          apply List.map_congr_left
          intro j _
          rw [List.countP_append]
          simp [hx]) ⟨[], Mem.ofList (List.replicate (g.numLocal + 1) 0)⟩ (by
      refine ⟨rfl, ?_⟩
      apply List.ext_getElem
      · simp
      · intro j h1 h2
        simp)
  obtain ⟨s, e, h1, h2⟩ := this
  exact ⟨s, e, h1, h2⟩

/-- the running sums, all of them -/
theorem sum_spec (c : List Nat) (n : Nat) (hc : c.length = n + 1) :
    (List.range' 1 n).foldlM vcSum (Mem.ofList c) = .ok (Mem.ofList ((List.range (n + 1)).map fun j => (c.take (j + 1)).sum)) := by
  obtain ⟨d, e, h1, h2⟩ := range_inv vcSum (fun k (d : Mem Nat) => d.length = n + 1 ∧
      ∀ j, j < n + 1 → d[j]? = some (some (if j ≤ k then (c.take (j + 1)).sum else c.getD j 0))) 1 n (by
    intro k d hk hI
    obtain ⟨hl, hI⟩ := hI
    have ha : d.load (1 + k) = .ok (c.getD (1 + k) 0) := by
      apply Mem.load_ok
      rw [hI _ (by omega), if_neg (by omega)]
    have hb : d.load (1 + k - 1) = .ok ((c.take (k + 1)).sum) := by
      apply Mem.load_ok
      rw [show 1 + k - 1 = k by omega, hI _ (by omega), if_pos (Nat.le_refl _)]
    unfold vcSum
    rw [ha, Outcome.bind_ok, hb, Outcome.bind_ok, Mem.store_ok _ (by omega)]
    refine ⟨_, rfl, by simpa using hl, ?_⟩
    intro j hj
    rw [List.getElem?_set]
    by_cases hjk : 1 + k = j
    · subst hjk
      rw [if_pos rfl, if_pos (by omega), if_pos (by omega)]
      have : (c.take (1 + k + 1)).sum = (c.take (k + 1)).sum + c.getD (1 + k) 0 := by
        rw [show 1 + k + 1 = (k + 1) + 1 by omega, List.take_add_one, List.sum_append, show 1 + k = k + 1 by omega]
        have : k + 1 < c.length := by omega
        simp [this]
      rw [this, Nat.add_comm]
    · rw [if_neg hjk, hI j hj]
      by_cases hjk' : j ≤ k
      · rw [if_pos hjk', if_pos (by omega)]
      · rw [if_neg hjk', if_neg (by omega)]) (Mem.ofList c) (by
    refine ⟨by simp [Mem.ofList, hc], ?_⟩
    intro j hj
    have hj' : j < c.length := by omega
    by_cases h0 : j ≤ 0
    · have : j = 0 := by omega
      subst this
      cases c with
      | nil => simp at hj'
      | cons a c => simp [Mem.ofList]
    · rw [if_neg h0]
      simp [Mem.ofList, hj'])
  rw [e]
  congr 1
  apply List.ext_getElem?
  intro j
  by_cases hj : j < n + 1
  · rw [h2 j hj, if_pos (by omega)]
    simp [Mem.ofList, hj]
  · rw [List.getElem?_eq_none (by omega), List.getElem?_eq_none (by simp [Mem.ofList]; omega)]

/-! ## with the counts copied as numbers -/

/-- `vcSplit` with a copy that copies the counts -/
def vcSplitRight (g : Graph) (inbox : List (Nat × Gid)) : Outcome VcSplit := do
  let s ← inbox.foldlM (vcHear g) ⟨[], Mem.ofList (List.replicate (g.numLocal + 1) 0)⟩
  let deg ← (List.range' 1 g.numLocal).foldlM vcSum s.deg
  let last ← deg.load g.numLocal
  if last ≠ s.dups.length then .fail
  else do
    let r ← s.dups.zipIdx.foldlM (vcPut g) (deg.take g.numLocal, Mem.alloc s.dups.length)
    return ⟨deg, r.2, s.dups.map (·.1), s.dups.map (fun x => (x.2 : Int))⟩

/-- the copies heard of -/
def heard (ids : List Gid) (inbox : List (Nat × Gid)) : List (Nat × Gid) := inbox.filter fun x => decide (x.2 ∈ ids)

theorem foldlM_same {α σ : Type} {f g : σ → α → Outcome σ} {l : List α} (h : ∀ x ∈ l, ∀ s, f s x = g s x) (s : σ) : l.foldlM f s = l.foldlM g s := by
  induction l generalizing s with
  | nil => rfl
  | cons a l ih =>
    rw [List.foldlM_cons, List.foldlM_cons, h a (by simp) s]
    congr 1
    funext t
    exact ih (fun x hx => h x (by simp [hx])) t

/-- the puts: bucket and value -/
def putItems (ids : List Gid) (D : List (Gid × Nat)) : List (Nat × Nat) := D.zipIdx.map fun x => (ids.idxOf x.1.1, ids.length + x.2)

theorem putItems_bkt (ids : List Gid) (D : List (Gid × Nat)) (l : Nat) :
    bkt l (putItems ids D) = ((D.zipIdx).filter (fun x => decide (ids.idxOf x.1.1 = l))).map (fun x => ids.length + x.2) := by
  unfold bkt putItems
  rw [List.filter_map, List.map_map]
  rfl

theorem filter_zipIdx {α : Type} (D : List α) (p : α → Bool) :
    (D.zipIdx.filter (fun x => p x.1)).map (·.2) = (List.range D.length).filter (fun i => (D[i]?).any p) := by
  have h1 : List.range D.length = D.zipIdx.map (·.2) := by
    rw [List.zipIdx_map_snd, List.range_eq_range']
  rw [h1, List.filter_map]
  congr 1
  apply List.filter_congr
  intro x hx
  have := List.mem_zipIdx_iff_getElem?.mp hx
  simp only [Function.comp_apply]
  rw [this]
  rfl

/-- the vertex has an edge of the part -/
def OnPart (Fs : List (List (Nat × Nat))) (maps : List (List (Nat × Part))) (q : Nat) (v : Gid) : Prop :=
  ∃ e ∈ assigned Fs maps q, v = (e.1 : Int) ∨ v = (e.2 : Int)

/-- **C64, the shared vertices.**  Everybody hears of everybody: what part `q` records before the copy are exactly the pairs of a vertex of
its own and another part that has the vertex too, each once. -/
theorem c64_shared_partial {gs : List Graph} {Fs : List (List (Nat × Nat))} {maps : List (List (Nat × Part))} {n : Nat}
    (h : VcStart gs Fs maps n) {o1 o4 : Nat → List Nat} (ho : Orders gs.length o1) (ho4 : Orders gs.length o4) (o2 o3 : Nat → List Nat) :
    ∃ gs' tells ins, vcMove gs maps o1 o2 o3 = .ok gs' ∧ gs'.length = gs.length ∧
      (List.range gs'.length).mapM (fun q => do
        let g ← rd gs' q
        vcTell g gs'.length q) = .ok tells ∧ exchange tells o4 = .ok ins ∧ ins.length = gs.length ∧
      ∀ q (hq : q < gs'.length) (hi : q < ins.length), ∃ s,
        ins[q].foldlM (vcHear gs'[q]) ⟨[], Mem.ofList (List.replicate (gs'[q].numLocal + 1) 0)⟩ = .ok s ∧ s.dups.Nodup ∧
        ∀ v p, (v, p) ∈ s.dups ↔ p < gs.length ∧ p ≠ q ∧ OnPart Fs maps q v ∧ OnPart Fs maps p v := by
  obtain ⟨gs', em, hl, hm⟩ := vcMove_spec h ho o2 o3
  obtain ⟨tells, et, htl, ht⟩ := mapM_idx (f := fun q => do
      let g ← rd gs' q
      vcTell g gs'.length q)
    (fun p (l : List (Part × Gid)) => (∀ m ∈ l, 0 ≤ m.1 ∧ m.1 < (gs'.length : Int)) ∧ ∀ q, q < gs'.length →
      (l.filter (fun m => decide (m.1 = (q : Int)))).map (·.2) = if q = p then [] else vcIds p (arrived Fs maps o1 p)) (List.range gs'.length) (by
      intro p hp
      have hp' : p < gs'.length := by simpa using hp
      simp only [List.getElem_range]
      rw [rd_ok hp', Outcome.bind_ok]
      exact tell_spec (hm p hp').count (hm p hp').unmap hp')
  rw [List.length_range] at htl
  have onp : ∀ p, p < gs.length → ∀ v, v ∈ vcIds p (arrived Fs maps o1 p) ↔ OnPart Fs maps p v := by
    intro p hp v
    have hpm := arrived_perm (Fs := Fs) h.lenM ho hp
    rw [mem_vcIds]
    constructor
    · rintro ⟨x, hx, rfl⟩
      obtain ⟨e, he, hxe⟩ := mem_flat.mp hx
      refine ⟨e, hpm.mem_iff.mp he, ?_⟩
      rcases hxe with rfl | rfl
      · exact Or.inl rfl
      · exact Or.inr rfl
    · rintro ⟨e, he, hv⟩
      rcases hv with rfl | rfl
      · exact ⟨_, mem_flat.mpr ⟨e, hpm.mem_iff.mpr he, Or.inl rfl⟩, rfl⟩
      · exact ⟨_, mem_flat.mpr ⟨e, hpm.mem_iff.mpr he, Or.inr rfl⟩, rfl⟩
  refine ⟨gs', tells, _, em, hl, et, exchange_ok _ (by
    intro o hoo m hmm
    obtain ⟨p, hp, rfl⟩ := List.mem_iff_getElem.mp hoo
    rw [htl]
    exact (ht p hp).1 m hmm), by simp [htl, hl], ?_⟩
  intro q hq hi
  have hqg : q < gs.length := by omega
  rw [List.getElem_map, List.getElem_range]
  obtain ⟨s, e, hd, -⟩ := hear_spec (hm q hq).count (hm q hq).map (inbox tells (o4 q) q)
  have hbox : inbox tells (o4 q) q = (o4 q).flatMap (fun p => (if q = p then [] else vcIds p (arrived Fs maps o1 p)).map (fun v => (p, v))) := by
    unfold inbox
    apply List.flatMap_congr
    intro p hp
    have hp' : p < gs.length := List.mem_range.mp ((ho4 q hqg).mem_iff.mp hp)
    have hpt : p < tells.length := by omega
    rw [getD_in _ hpt, ← (ht p hpt).2 q hq, List.map_map]
    rfl
  have hnd : (inbox tells (o4 q) q).Nodup := by
    rw [hbox, List.nodup_flatMap]
    constructor
    · intro p _
      apply List.Nodup.map (fun a b hab => by simpa using hab)
      split
      · exact List.nodup_nil
      · exact nodup_vcIds _ _
    · have : (o4 q).Nodup := (ho4 q hqg).nodup_iff.mpr List.nodup_range
      refine this.imp ?_
      intro a b hab x hx hy
      obtain ⟨_, -, rfl⟩ := List.mem_map.mp hx
      obtain ⟨_, -, hy⟩ := List.mem_map.mp hy
      exact hab (by simpa using (congrArg Prod.fst hy).symm)
  refine ⟨s, e, ?_, ?_⟩
  · rw [hd]
    exact (hnd.filter _).map (fun a b hab => by
      have := Prod.mk.inj hab
      exact Prod.ext this.2 this.1)
  · intro v p
    rw [hd, List.mem_map]
    constructor
    · rintro ⟨x, hx, hxe⟩
      obtain ⟨hx1, hx2⟩ := List.mem_filter.mp hx
      obtain ⟨hv, hp⟩ := Prod.mk.inj hxe
      subst hv hp
      rw [hbox] at hx1
      obtain ⟨p, hp, hxp⟩ := List.mem_flatMap.mp hx1
      have hp' : p < gs.length := List.mem_range.mp ((ho4 q hqg).mem_iff.mp hp)
      obtain ⟨w, hw, rfl⟩ := List.mem_map.mp hxp
      by_cases hqp : q = p
      · rw [if_pos hqp] at hw; exact absurd hw (by simp)
      · rw [if_neg hqp] at hw
        exact ⟨hp', fun hc => hqp hc.symm, (onp q hqg _).mp (of_decide_eq_true hx2), (onp p hp' _).mp hw⟩
    · rintro ⟨hp, hpq, hvq, hvp⟩
      refine ⟨(p, v), List.mem_filter.mpr ⟨?_, decide_eq_true ((onp q hqg v).mpr hvq)⟩, rfl⟩
      rw [hbox]
      refine List.mem_flatMap.mpr ⟨p, (ho4 q hqg).mem_iff.mpr (List.mem_range.mpr hp), ?_⟩
      rw [if_neg (fun hc => hpq hc.symm)]
      exact List.mem_map.mpr ⟨v, (onp p hp v).mpr hvp, rfl⟩

example := c64_shared_partial vcSample orders_two.1 orders_two.1 twoOrder twoOrder

/-- vertices 0 and 2 are on both parts of the sample, 1 and 3 on one -/
example : OnPart vcFs vcMaps 0 0 ∧ OnPart vcFs vcMaps 1 0 ∧ OnPart vcFs vcMaps 0 2 ∧ OnPart vcFs vcMaps 1 2 ∧
    ¬ OnPart vcFs vcMaps 0 1 ∧ ¬ OnPart vcFs vcMaps 1 3 := by
  unfold OnPart
  decide

/-- **C64, were the counts copied as numbers.**  The split is defined; its ghosts are the vertices heard of that the part has, their owners
the senders, and the edges of vertex `l` lead to exactly the ghosts that are copies of it. -/
theorem c64_put_partial {g : Graph} {ids : List Gid} (hnd : ids.Nodup) (hn : g.numLocal = ids.length) (hm : g.vtxMap = lookup ids)
    (inbox : List (Nat × Gid)) :
    ∃ r, vcSplitRight g inbox = .ok r ∧ r.ghosts = (heard ids inbox).map (·.2) ∧ r.owners = (heard ids inbox).map (fun x => (x.1 : Int)) ∧
      r.deg.length = ids.length + 1 ∧ r.edges.length = r.ghosts.length ∧
      ∀ l (hl : l < ids.length), ∃ a b, r.deg[l]? = some (some a) ∧ r.deg[l + 1]? = some (some b) ∧
        (List.range' a (b - a)).mapM r.edges.load = .ok (((List.range r.ghosts.length).filter
          (fun i => decide (r.ghosts[i]? = some ids[l]))).map (fun i => ids.length + i)) := by
  obtain ⟨s, e1, hD, hdeg⟩ := hear_spec hn hm inbox
  have hDh : s.dups = (heard ids inbox).map (fun x => (x.2, x.1)) := hD
  have hin : ∀ x ∈ s.dups, x.1 ∈ ids := by
    intro x hx
    rw [hDh] at hx
    obtain ⟨y, hy, rfl⟩ := List.mem_map.mp hx
    exact of_decide_eq_true (List.mem_filter.mp hy).2
  set C : List Nat := (List.range (g.numLocal + 1)).map fun j => inbox.countP fun x => decide (x.2 ∈ ids ∧ ids.idxOf x.2 + 1 = j) with hC
  set items := putItems ids s.dups with hitems
  have hk : ∀ p ∈ items, p.1 < ids.length := by
    intro p hp
    obtain ⟨x, hx, rfl⟩ := List.mem_map.mp hp
    exact List.idxOf_lt_length_of_mem (hin x.1 (by
      have := List.mem_zipIdx_iff_getElem?.mp hx
      exact List.mem_of_getElem? this))
  have hlen : ∀ l, (bkt l items).length = inbox.countP fun x => decide (x.2 ∈ ids ∧ ids.idxOf x.2 + 1 = l + 1) := by
    intro l
    rw [hitems, putItems_bkt, List.length_map, ← List.countP_eq_length_filter]
    have : s.dups.zipIdx.countP (fun x => decide (ids.idxOf x.1.1 = l)) = s.dups.countP (fun x => decide (ids.idxOf x.1 = l)) := by
      conv => rhs; rw [← List.zipIdx_map_fst 0 s.dups, List.countP_map]
      rfl
    rw [this, hD, List.countP_map, List.countP_filter]
    apply List.countP_congr
    intro x _
    simp [and_comm]
  have hsum : ∀ j, j ≤ ids.length → (C.take (j + 1)).sum = offs (fun u => (bkt u items).length) j := by
    intro j
    induction j with
    | zero =>
      intro _
      rw [offs_zero, hC, List.range_succ_eq_map]
      simp
    | succ j ih =>
      intro hj
      have hlt : j + 1 < C.length := by rw [hC]; simp; omega
      rw [List.take_add_one, List.sum_append, ih (by omega), offs_succ, hlen]
      rw [List.getElem?_eq_getElem hlt]
      simp [hC]
  have htot : offs (fun u => (bkt u items).length) ids.length = s.dups.length := by
    rw [bkt_total _ _ hk, hitems]
    simp [putItems]
  have hClen : C.length = g.numLocal + 1 := by rw [hC]; simp
  have e2 := sum_spec C g.numLocal hClen
  set deg : Mem Nat := Mem.ofList ((List.range (g.numLocal + 1)).map fun j => (C.take (j + 1)).sum) with hdegd
  have hdg : ∀ j, j ≤ ids.length → deg[j]? = some (some (offs (fun u => (bkt u items).length) j)) := by
    intro j hj
    rw [hdegd]
    unfold Mem.ofList
    rw [List.map_map, List.getElem?_map, List.getElem?_range (by omega)]
    simp only [Option.map_some, Function.comp_apply]
    rw [hsum j hj]
  obtain ⟨r, e3, hrl, hr⟩ := put_loop ids.length items hk (deg.take g.numLocal) (Mem.alloc s.dups.length) (by
      rw [hdegd, List.length_take]
      simp [Mem.ofList]
      omega) (by
      intro u hu
      rw [List.getElem?_take_of_lt (by omega)]
      exact hdg u (by omega)) (by
      rw [htot]; simp [Mem.alloc])
  have e3' : s.dups.zipIdx.foldlM (vcPut g) (deg.take g.numLocal, Mem.alloc s.dups.length) = .ok r := by
    rw [← e3, hitems]
    unfold putItems
    rw [List.foldlM_map]
    apply foldlM_same
    intro x hx st
    unfold vcPut
    have : x.1.1 ∈ ids := hin x.1 (List.mem_of_getElem? (List.mem_zipIdx_iff_getElem?.mp hx))
    rw [hm, lookup_of_mem this, hn]
    rfl
  have hgh : s.dups.map (·.1) = (heard ids inbox).map (·.2) := by
    rw [hDh, List.map_map]; rfl
  refine ⟨⟨deg, r.2, s.dups.map (·.1), s.dups.map (fun x => (x.2 : Int))⟩, ?_, hgh, ?_, ?_, ?_, ?_⟩
  · unfold vcSplitRight
    rw [e1, Outcome.bind_ok, hdeg, e2, Outcome.bind_ok, Mem.load_ok (hdg g.numLocal (by omega)), Outcome.bind_ok, hn, htot, if_neg (by simp), ← hn, e3', Outcome.bind_ok]
    rfl
  · show s.dups.map (fun x => (x.2 : Int)) = _
    rw [hDh, List.map_map]; rfl
  · rw [hdegd]; simp [Mem.ofList, hn]
  · rw [hrl]; simp [Mem.alloc]
  · intro l hl
    refine ⟨_, _, hdg l (by omega), hdg (l + 1) (by omega), ?_⟩
    rw [offs_succ, Nat.add_sub_cancel_left]
    have hb : bkt l items = ((List.range (s.dups.map (·.1)).length).filter (fun i => decide ((s.dups.map (·.1))[i]? = some ids[l]))).map (fun i => ids.length + i) := by
      rw [hitems, putItems_bkt]
      have h1 : (fun x : (Gid × Nat) × Nat => ids.length + x.2) = (fun i => ids.length + i) ∘ (fun x => x.2) := rfl
      rw [h1, ← List.map_map, filter_zipIdx s.dups (fun d => decide (ids.idxOf d.1 = l)), List.length_map]
      congr 1
      apply List.filter_congr
      intro i hi
      have hi' : i < s.dups.length := List.mem_range.mp hi
      rw [List.getElem?_map, List.getElem?_eq_getElem hi']
      simp only [Option.any_some, Option.map_some, Option.some.injEq]
      congr 1
      have hmem := hin _ (List.getElem_mem hi')
      apply propext
      constructor
      · intro he
        subst he
        exact (List.getElem_idxOf _).symm
      · intro he
        rw [he]
        exact hnd.idxOf_getElem l hl
    show _ = Outcome.ok (List.map _ (List.filter (fun i => decide ((s.dups.map (·.1))[i]? = some ids[l])) (List.range (s.dups.map (·.1)).length)))
    rw [← hb]
    obtain ⟨out, eo, hol, ho⟩ := mapM_idx (f := r.2.load) (fun k b => (bkt l items)[k]? = some b) (List.range' (offs (fun u => (bkt u items).length) l) (bkt l items).length) (by
      intro k hk
      have hk' : k < (bkt l items).length := by simpa using hk
      rw [List.getElem_range', Nat.one_mul, Mem.load_ok (hr l hl k hk')]
      exact ⟨_, rfl, List.getElem?_eq_getElem hk'⟩)
    rw [eo]
    congr 1
    apply List.ext_getElem?
    intro k
    by_cases hk : k < out.length
    · rw [ho k hk, List.getElem?_eq_getElem hk]
    · rw [List.getElem?_eq_none (by omega), List.getElem?_eq_none (by simp at hol; omega)]

/-- a part with vertices 7, 4 and 9 hears of 4 from part 2, of 5 from part 2 and of 7 and 4 from part 1 -/
example : ∃ g : Graph, g.numLocal = 3 ∧ g.vtxMap = lookup [7, 4, 9] ∧
    (do
      let r ← vcSplitRight g [(2, 4), (2, 5), (1, 7), (1, 4)]
      return (r.deg, r.edges, r.ghosts, r.owners)) =
      .ok (Mem.ofList [0, 1, 3, 3], Mem.ofList [4, 3, 5], [(4 : Int), 7, 4], [(2 : Int), 1, 1]) :=
  ⟨{ emptyGraph 0 1 with numLocal := 3, vtxMap := lookup [7, 4, 9] }, rfl, rfl, by decide +kernel⟩

end Verif.Io
