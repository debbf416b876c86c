import Verif.Agi.AnyProps
import Verif.Io.FileShows
/-!
# Migration of traditional graphs: the edges of one part
-/
namespace Verif.Agi
open Verif.Io (grouped grouped_perm grouped_length grouped_at offs_find canon canon_length edgeAt_trad degOf_filter)

/-- source and destination of an edge `[u, w]` -/
def src (x : List Gid) : Gid := x.getD 0 0
def dst (x : List Gid) : Gid := x.getD 1 0

/-- every edge leaves one of the vertices and is not a loop -/
def ArcsOn (V : List Gid) (es : List (List Gid)) : Prop := ∀ x ∈ es, ∃ u ∈ V, ∃ w, u ≠ w ∧ x = [u, w]

section
variable {g : Graph} {V ghosts ids : List Gid} {es : List (List Gid)} {wgts : List Wgt}

theorem mem_grouped {x : List Gid} (h : x ∈ grouped V es) : x ∈ es := by
  unfold grouped at h
  obtain ⟨v, -, h⟩ := List.mem_flatMap.mp h
  exact (List.mem_filter.mp h).1

/-- the edge at a position -/
theorem arc_at (c : CRep g false V ghosts [⟨ids, es, wgts⟩]) (hs : ArcsOn V es) {k : Nat}
    (hk : k < (grouped V es).length) :
    ∃ E : HEdge, E.pins = (grouped V es)[k] ∧ EdgeAt g (V ++ ghosts) (g.getEdge k 0) E := by
  have hwf := c.wf _ (List.mem_singleton.mpr rfl)
  have hnd := (List.nodup_append.mp c.v.nodup).1
  have hkl : k < es.length := by rw [← (grouped_perm hnd hs).length_eq]; exact hk
  have hk' : k < (canon false V ⟨ids, es, wgts⟩).length := by rw [canon_length hwf]; exact hkl
  refine ⟨(canon false V ⟨ids, es, wgts⟩)[k], ?_, edgeAt_trad (t := 0) c (by simp) hs hk'⟩
  simp only [canon, Bool.false_eq_true, if_false, List.getElem_map, List.getElem_range]
  rw [List.getD_eq_getElem?_getD, List.getElem?_eq_getElem hk, Option.getD_some]

/-- its source and destination -/
theorem arc_pos (c : CRep g false V ghosts [⟨ids, es, wgts⟩]) (hs : ArcsOn V es) {k : Nat}
    (hk : k < (grouped V es).length) :
    ∃ u j, ∃ hu : u < V.length, j < degOf false es V[u] ∧
      k = offs (fun u => degOf false es (V.getD u 0)) u + j ∧ src (grouped V es)[k] = V[u] ∧
      g.uEdge (g.getEdge k 0) = .ok (lh V (src (grouped V es)[k])) ∧
      g.vOf (g.getEdge k 0) = .ok (vh (V ++ ghosts) (dst (grouped V es)[k])) := by
  have hnd := (List.nodup_append.mp c.v.nodup).1
  obtain ⟨u, j, hu, hj, hkk⟩ := offs_find _ V.length k (by rw [← grouped_length]; exact hk)
  have hcu : degOf false es (V.getD u 0) = degOf false es V[u] := by
    rw [List.getD_eq_getElem?_getD, List.getElem?_eq_getElem hu, Option.getD_some]
  simp only [hcu] at hj
  have hj' : j < (es.filter (fun p => p[0]? == some V[u])).length := by rw [← degOf_filter]; exact hj
  have hja : j < (adjOf false (V ++ ghosts) es V[u]).length := by rw [adjOf_length]; exact hj
  have hat := grouped_at hu hj'
  rw [← hkk, List.getElem?_eq_getElem hk] at hat
  have hat' := Option.some.inj hat
  obtain ⟨hm1, hm2⟩ := List.mem_filter.mp (List.getElem_mem hj')
  obtain ⟨u', hu', w, hne, hx⟩ := hs _ hm1
  rw [hx] at hm2
  simp only [List.getElem?_cons_zero, beq_iff_eq, Option.some.injEq] at hm2
  subst hm2
  have hpins : (grouped V es)[k] = [V[u], w] := by rw [hat', hx]
  have hsrc : src (grouped V es)[k] = V[u] := by rw [hpins]; rfl
  have hdst : dst (grouped V es)[k] = w := by rw [hpins]; rfl
  have hadj : (adjOf false (V ++ ghosts) es V[u])[j] = (V ++ ghosts).idxOf w := by
    have : (adjOf false (V ++ ghosts) es V[u])[j]? = some ((V ++ ghosts).idxOf w) := by
      unfold adjOf
      simp only [Bool.false_eq_true, if_false]
      rw [List.getElem?_map, List.getElem?_eq_getElem hj', hx]
      rfl
    rw [List.getElem?_eq_getElem hja] at this
    exact Option.some.inj this
  have e1 := uEdge_eq (t := 0) c (by simp) hu (k := j) hj
  have e2 := vOf_eq (t := 0) c (by simp) hu (k := j) hja
  simp only [List.getElem_cons_zero] at e1 e2
  rw [← hkk] at e1 e2
  refine ⟨u, j, hu, hj, hkk, hsrc, ?_, ?_⟩
  · rw [e1, hsrc]
    unfold lh
    rw [hnd.idxOf_getElem]
  · rw [e2, hdst, hadj]

/-- the positions of the edges of a vertex -/
theorem arc_range (c : CRep g false V ghosts [⟨ids, es, wgts⟩]) (hs : ArcsOn V es) {u : Nat} (hu : u < V.length)
    (k : Nat) : k ∈ List.range' (offs (fun u => degOf false es (V.getD u 0)) u) (degOf false es V[u]) ↔
      ∃ hk : k < (grouped V es).length, src (grouped V es)[k] = V[u] := by
  have hnd := (List.nodup_append.mp c.v.nodup).1
  rw [List.mem_range'_1]
  constructor
  · rintro ⟨h1, h2⟩
    have hcu : degOf false es (V.getD u 0) = degOf false es V[u] := by
      simp only [List.getD_eq_getElem?_getD, List.getElem?_eq_getElem hu, Option.getD_some]
    have h3 := offs_mono (fun u => degOf false es (V.getD u 0)) (show u + 1 ≤ V.length by omega)
    rw [offs_succ, hcu] at h3
    have hk : k < (grouped V es).length := by rw [grouped_length]; omega
    refine ⟨hk, ?_⟩
    obtain ⟨u', j, hu', hj, hkk, hsrc, -, -⟩ := arc_pos c hs hk
    have hcu' : degOf false es (V.getD u' 0) = degOf false es V[u'] := by
      simp only [List.getD_eq_getElem?_getD, List.getElem?_eq_getElem hu', Option.getD_some]
    have : u = u' := offs_unique (fun u => degOf false es (V.getD u 0)) (i := u) (j := u') (e := k) (by omega) (by rw [offs_succ, hcu]; omega)
      (by omega) (by rw [offs_succ, hcu']; omega)
    subst this
    exact hsrc
  · rintro ⟨hk, h⟩
    obtain ⟨u', j, hu', hj, hkk, hsrc, -, -⟩ := arc_pos c hs hk
    rw [hsrc] at h
    have : u' = u := (List.Nodup.getElem_inj_iff hnd).mp h
    subst this
    omega

/-- `adjacent` of a vertex, with the edges -/
theorem adjRun_trad (c : CRep g false V ghosts [⟨ids, es, wgts⟩]) {u : Nat} (hu : u < V.length) :
    ∃ it run, g.adjacent (getVertex u) 0 = .ok it ∧ AdjRun g it run ∧
      run.map Prod.snd = (List.range' (offs (fun u => degOf false es (V.getD u 0)) u) (degOf false es V[u])).map
        (fun l => g.getEdge l 0) := by
  obtain ⟨eitr, he, hy⟩ := yields_edges_trad (t := 0) c (by simp) hu
  simp only [List.getElem_cons_zero] at hy
  unfold Graph.adjacent
  rw [he, Outcome.bind_ok]
  have H : ∀ (ls : List Nat), (∀ l ∈ ls, ∃ w, g.vOf (g.getEdge l 0) = .ok w ∧ w ≠ 0) → ∀ (it : AdjIt), it.isH = false →
      Yields g.iterEdge it.eitr (ls.map (fun l => g.getEdge l 0)) →
      ∃ run, AdjRun g it run ∧ run.map Prod.snd = ls.map (fun l => g.getEdge l 0) := by
    intro ls
    induction ls with
    | nil =>
      intro _ it hH hy
      obtain ⟨it', hs⟩ := hy
      refine ⟨[], ⟨{ it with eitr := it', edge := 0 }, ?_⟩, rfl⟩
      unfold Graph.iterAdj
      rw [if_neg (by simp [hH]), hs, Outcome.bind_ok]
      simp only [Graph.vOf, c.hyp]
      rfl
    | cons l ls ih =>
      intro hv it hH hy
      obtain ⟨-, it', hs, hy'⟩ := hy
      obtain ⟨w, hw, hw0⟩ := hv l (by simp)
      obtain ⟨run, h1, h2⟩ := ih (fun l hl => hv l (by simp [hl])) { it with eitr := it', edge := g.getEdge l 0 } hH hy'
      refine ⟨(w, g.getEdge l 0) :: run, ⟨hw0, getEdge_pos g l 0, _, ?_, rfl, h1⟩, by simp [h2]⟩
      unfold Graph.iterAdj
      rw [if_neg (by simp [hH]), hs, Outcome.bind_ok]
      dsimp only
      rw [hw]
      rfl
  obtain ⟨run, h1, h2⟩ := H _ (by
    intro l hl
    rw [List.mem_range'_1] at hl
    obtain ⟨j, rfl⟩ : ∃ j, l = offs (fun u => degOf false es (V.getD u 0)) u + j := ⟨l - offs (fun u => degOf false es (V.getD u 0)) u, by omega⟩
    have hja : j < (adjOf false (V ++ ghosts) es V[u]).length := by rw [adjOf_length]; omega
    exact ⟨_, vOf_eq (t := 0) c (by simp) hu (k := j) hja, by simp [getVertex]⟩) ⟨g.isHyper, 0, eitr, none, 0⟩ c.hyp hy
  exact ⟨_, run, rfl, h1, h2⟩

theorem arc_fuel (c : CRep g false V ghosts [⟨ids, es, wgts⟩]) {u : Nat} (hu : u < V.length) :
    degOf false es V[u] < g.adjFuel := by
  obtain ⟨e, he, hr, -⟩ := c.typ 0 (by simp)
  simp only [List.getElem_cons_zero] at hr
  have hb := bound_ge he
  have hcu : degOf false es (V.getD u 0) = degOf false es V[u] := by
    simp only [List.getD_eq_getElem?_getD, List.getElem?_eq_getElem hu, Option.getD_some]
  have h3 := offs_mono (fun u => degOf false es (V.getD u 0)) (show u + 1 ≤ V.length by omega)
  rw [offs_succ, hcu] at h3
  have := hr.list_len
  unfold Graph.adjFuel
  have h4 : g.bound * 1 ≤ g.bound * g.bound := Nat.mul_le_mul_left _ (by omega)
  omega

theorem foldl_setInsert (l : List Handle) : ∀ (acc : List Handle), acc.Nodup →
    ∃ acc', l.foldlM (fun s e => (.ok (setInsert s e) : Outcome (List Handle))) acc = .ok acc' ∧ acc'.Nodup ∧
      ∀ e, e ∈ acc' ↔ e ∈ acc ∨ e ∈ l := by
  induction l with
  | nil => intro acc ha; exact ⟨acc, rfl, ha, by simp⟩
  | cons a l ih =>
    intro acc ha
    rw [List.foldlM_cons, Outcome.bind_ok]
    obtain ⟨acc', e, h1, h2⟩ := ih (setInsert acc a) (by
      unfold setInsert
      split
      · exact ha
      · rename_i hna
        rw [List.nodup_append]
        refine ⟨ha, by simp, ?_⟩
        intro x hx y hy
        rw [List.mem_singleton] at hy; subst hy
        rintro rfl; exact hna hx)
    refine ⟨acc', e, h1, fun x => ?_⟩
    rw [h2]
    unfold setInsert
    split
    · rename_i hin
      constructor
      · rintro (h | h)
        · exact .inl h
        · exact .inr (by simp [h])
      · rintro (h | h)
        · exact .inl h
        · rcases List.mem_cons.mp h with rfl | h
          · exact .inl hin
          · exact .inr h
    · simp only [List.mem_append, List.mem_singleton, List.mem_cons]; tauto

/-- the edges that are sent: those that leave a vertex that is sent -/
theorem affected_trad (c : CRep g false V ghosts [⟨ids, es, wgts⟩]) (hs : ArcsOn V es) {s : List Gid}
    (hsV : ∀ v ∈ s, v ∈ V) :
    ∃ ae, g.affectedEdges (s.map (lh V)) = .ok ae ∧ ae.Nodup ∧
      ∀ e, e ∈ ae ↔ ∃ k, ∃ hk : k < (grouped V es).length, e = g.getEdge k 0 ∧ src (grouped V es)[k] ∈ s := by
  have hnd := (List.nodup_append.mp c.v.nodup).1
  unfold Graph.affectedEdges
  obtain ⟨ae, e, h1, h2⟩ := foldlM_inv (fun acc v => do
      let it ← g.adjacent v 0
      iterLoop g.iterAdjEdge (fun s e => .ok (setInsert s e, false)) g.adjFuel it acc)
    (fun pre acc => acc.Nodup ∧ ∀ e, e ∈ acc ↔ ∃ k, ∃ hk : k < (grouped V es).length, e = g.getEdge k 0 ∧
      src (grouped V es)[k] ∈ s ∧ lh V (src (grouped V es)[k]) ∈ pre) (s.map (lh V))
    (by
      intro pre hh acc hpre ⟨ha1, ha2⟩
      obtain ⟨v, hvs, rfl⟩ := List.mem_map.mp (hpre.subset (by simp : hh ∈ pre ++ [hh]))
      have hvV := hsV v hvs
      have hu := List.idxOf_lt_length_of_mem hvV
      have hVu : V[V.idxOf v] = v := List.getElem_idxOf hu
      obtain ⟨it, run, hit, hrun, hre⟩ := adjRun_trad c hu
      have hfuel := arc_fuel c hu
      have hst : ∀ b x, x ∈ run.map Prod.snd → (fun s e => (.ok (setInsert s e, false) : Outcome (List Handle × Bool))) b x =
          ((fun s e => (.ok (setInsert s e) : Outcome (List Handle))) b x >>= fun b' => .ok (b', false)) := fun _ _ _ => rfl
      have hlen : (run.map Prod.snd).length = degOf false es V[V.idxOf v] := by rw [hre]; simp
      rw [hit, Outcome.bind_ok, iterLoop_yields _ _ _ g.adjFuel _ hrun.yieldsEdge (by omega), loopList_fold _ hst, hre]
      obtain ⟨acc', e', b1, b2⟩ := foldl_setInsert _ acc ha1
      refine ⟨acc', e', b1, fun e => ?_⟩
      rw [b2, ha2]
      constructor
      · rintro (⟨k, hk, h3, h4, h5⟩ | h3)
        · exact ⟨k, hk, h3, h4, by simp [h5]⟩
        · obtain ⟨k, hk, rfl⟩ := List.mem_map.mp h3
          obtain ⟨hk', hsrc⟩ := (arc_range c hs hu k).mp hk
          rw [hVu] at hsrc
          exact ⟨k, hk', rfl, by rw [hsrc]; exact hvs, by rw [hsrc]; simp⟩
      · rintro ⟨k, hk, h3, h4, h5⟩
        rcases List.mem_append.mp h5 with h5 | h5
        · exact .inl ⟨k, hk, h3, h4, h5⟩
        · right
          rw [List.mem_singleton] at h5
          have := lh_inj (hsV _ h4) h5
          exact List.mem_map.mpr ⟨k, (arc_range c hs hu k).mpr ⟨hk, by rw [hVu]; exact this⟩, h3.symm⟩)
    [] ⟨List.nodup_nil, by simp⟩
  refine ⟨ae, e, h1, fun x => ?_⟩
  rw [h2]
  constructor
  · rintro ⟨k, hk, a, b, -⟩; exact ⟨k, hk, a, b⟩
  · rintro ⟨k, hk, a, b⟩; exact ⟨k, hk, a, b, List.mem_map.mpr ⟨_, b, rfl⟩⟩

end
end Verif.Agi
