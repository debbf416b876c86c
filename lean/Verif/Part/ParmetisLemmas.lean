import Verif.Part.ParmetisModel
import Verif.Part.CompProps
import Verif.Part.TrimLemmas
import Verif.Agi.PlanLemmas
import Verif.Io.BinLemmas
/-!
# Lemmas: the loops of `EnGPar_ParMETIS` on one part
-/
namespace Verif.Part
open Verif.Agi

/-! ## the set and the map of neighbours -/

/-- the distinct elements in the order of their first occurrence -/
def dedupL (l : List Handle) : List Handle := l.foldl insertSet []

theorem dedupL_snoc (l : List Handle) (x : Handle) : dedupL (l ++ [x]) = insertSet (dedupL l) x := by
  unfold dedupL; rw [List.foldl_append]; rfl

theorem mem_dedupL {l : List Handle} {x : Handle} : x ∈ dedupL l ↔ x ∈ l := by
  induction l using List.reverseRecOn with
  | nil => simp [dedupL]
  | append_singleton l a ih => rw [dedupL_snoc, mem_insertSet, ih]; simp

theorem nodup_dedupL (l : List Handle) : (dedupL l).Nodup := by
  induction l using List.reverseRecOn with
  | nil => simp [dedupL]
  | append_singleton l a ih => rw [dedupL_snoc]; exact nodup_insertSet ih

theorem dedupL_filter (p : Handle → Bool) (l : List Handle) : dedupL (l.filter p) = (dedupL l).filter p := by
  induction l using List.reverseRecOn with
  | nil => rfl
  | append_singleton l a ih =>
    rw [List.filter_append, dedupL_snoc]
    by_cases h : p a = true
    · rw [List.filter_cons_of_pos h, List.filter_nil, dedupL_snoc, ih]
      unfold insertSet
      by_cases hm : a ∈ dedupL l
      · rw [if_pos hm, if_pos (List.mem_filter.mpr ⟨hm, h⟩)]
      · rw [if_neg hm, if_neg (fun hc => hm (List.mem_filter.mp hc).1), List.filter_append,
          List.filter_cons_of_pos h, List.filter_nil]
    · rw [List.filter_cons_of_neg (by simpa using h), List.filter_nil, List.append_nil, ih]
      unfold insertSet
      by_cases hm : a ∈ dedupL l
      · rw [if_pos hm]
      · rw [if_neg hm, List.filter_append, List.filter_cons_of_neg (by simpa using h), List.filter_nil, List.append_nil]

/-- the summed weight of the entries for one neighbour -/
def nbrSum (wt : Handle → Int) (run : List (Handle × Handle)) (h : Handle) : Int :=
  ((run.filter (fun x => decide (x.1 = h))).map (fun x => wt x.2)).sum

theorem nbrSum_snoc (wt : Handle → Int) (run : List (Handle × Handle)) (x : Handle × Handle) (h : Handle) :
    nbrSum wt (run ++ [x]) h = nbrSum wt run h + if x.1 = h then wt x.2 else 0 := by
  unfold nbrSum
  rw [List.filter_append, List.map_append, List.sum_append]
  by_cases hh : x.1 = h <;> simp [hh]

/-- the weight collected for one neighbour: the entries are added in their order, and each sum is truncated -/
def nbrAcc (wt : Handle → Rat) (run : List (Handle × Handle)) (h : Handle) : Int :=
  ((run.filter (fun x => decide (x.1 = h))).map (fun x => wt x.2)).foldl (fun (a : Int) w => truncD ((a : Rat) + w)) 0

theorem nbrAcc_snoc (wt : Handle → Rat) (run : List (Handle × Handle)) (x : Handle × Handle) (h : Handle) :
    nbrAcc wt (run ++ [x]) h = if x.1 = h then truncD ((nbrAcc wt run h : Rat) + wt x.2) else nbrAcc wt run h := by
  unfold nbrAcc
  rw [List.filter_append, List.map_append, List.foldl_append]
  by_cases hh : x.1 = h <;> simp [hh]

theorem addNbr_new {h : Handle} {w : Rat} {f : Handle → Int} : ∀ {ks : List Handle}, h ∉ ks →
    addNbr h w (ks.map (fun k => (k, f k))) = ks.map (fun k => (k, f k)) ++ [(h, truncD w)] := by
  intro ks
  induction ks with
  | nil =>
    intro _
    simp [addNbr]
  | cons k ks ih =>
    intro hn
    rw [List.map_cons, addNbr, if_neg (by rintro rfl; simp at hn), ih (fun hc => hn (by simp [hc]))]
    rfl

theorem addNbr_old {h : Handle} {w : Rat} {f : Handle → Int} : ∀ {ks : List Handle}, h ∈ ks → ks.Nodup →
    addNbr h w (ks.map (fun k => (k, f k))) = ks.map (fun k => (k, if h = k then truncD ((f k : Rat) + w) else f k)) := by
  intro ks
  induction ks with
  | nil => intro h' _; simp at h'
  | cons k ks ih =>
    intro hm hnd
    rw [List.nodup_cons] at hnd
    rw [List.map_cons, addNbr]
    by_cases hk : k = h
    · rw [if_pos hk]
      subst hk
      rw [List.map_cons, if_pos rfl]
      congr 1
      apply List.map_congr_left
      intro x hx
      rw [if_neg (by rintro rfl; exact hnd.1 hx)]
    · rw [if_neg hk, ih (by simpa [Ne.symm hk] using hm) hnd.2, List.map_cons, if_neg (Ne.symm hk)]

theorem foldl_addNbr (wt : Handle → Rat) (run : List (Handle × Handle)) :
    run.foldl (fun l x => addNbr x.1 (wt x.2) l) [] =
      (dedupL (run.map Prod.fst)).map (fun h => (h, nbrAcc wt run h)) := by
  induction run using List.reverseRecOn with
  | nil => rfl
  | append_singleton run x ih =>
    rw [List.foldl_append, List.foldl_cons, List.foldl_nil, ih, List.map_append, List.map_cons, List.map_nil, dedupL_snoc]
    unfold insertSet
    by_cases hm : x.1 ∈ dedupL (run.map Prod.fst)
    · rw [if_pos hm, addNbr_old hm (nodup_dedupL _)]
      apply List.map_congr_left
      intro k hk
      rw [nbrAcc_snoc]
    · rw [if_neg hm, addNbr_new hm, List.map_append, List.map_cons, List.map_nil]
      congr 1
      · apply List.map_congr_left
        intro k hk
        rw [nbrAcc_snoc, if_neg (by rintro rfl; exact hm hk)]
      · rw [nbrAcc_snoc, if_pos rfl]
        have : nbrAcc wt run x.1 = 0 := by
          unfold nbrAcc
          rw [List.filter_eq_nil_iff.mpr]
          · rfl
          · intro y hy
            simp only [decide_eq_true_eq]
            rintro h
            exact hm (mem_dedupL.mpr (List.mem_map.mpr ⟨y, hy, h⟩))
        rw [this]; simp

theorem truncD_floor {x : Rat} (h : 0 ≤ x) : truncD x = x.floor := by
  unfold truncD
  rw [Rat.floor_def]
  exact Int.tdiv_eq_ediv_of_nonneg (Rat.num_nonneg.mpr h)

theorem truncD_int_add {a : Int} {w : Rat} (ha : 0 ≤ a) (hw : 0 ≤ w) : truncD ((a : Rat) + w) = a + truncD w := by
  have h0 : (0 : Rat) ≤ (a : Rat) := by exact_mod_cast ha
  rw [truncD_floor (add_nonneg h0 hw), truncD_floor hw, Rat.add_comm, Rat.floor_add_intCast, Int.add_comm]

theorem truncD_nonneg {w : Rat} (hw : 0 ≤ w) : 0 ≤ truncD w := by
  unfold truncD
  exact Int.tdiv_nonneg (Rat.num_nonneg.mpr hw) (Int.natCast_nonneg _)

/-- weights that can be added and truncated in any order: none is negative, or all are integers -/
def TruncSafe (ws : List Rat) : Prop := (∀ w ∈ ws, 0 ≤ w) ∨ ∀ w ∈ ws, w = (truncD w : Rat)

theorem TruncSafe.of_subset {ws ws' : List Rat} (h : TruncSafe ws) (hs : ∀ w ∈ ws', w ∈ ws) : TruncSafe ws' := by
  rcases h with h | h
  · exact .inl (fun w hw => h w (hs w hw))
  · exact .inr (fun w hw => h w (hs w hw))

theorem foldl_trunc {ws : List Rat} (h : TruncSafe ws) :
    ws.foldl (fun (a : Int) w => truncD ((a : Rat) + w)) 0 = (ws.map truncD).sum := by
  rcases h with h | h
  · have key : ∀ (L : List Rat), (∀ w ∈ L, 0 ≤ w) → ∀ a : Int, 0 ≤ a →
        L.foldl (fun (a : Int) w => truncD ((a : Rat) + w)) a = a + (L.map truncD).sum := by
      intro L
      induction L with
      | nil => intro _ a _; simp
      | cons w L ih =>
        intro hL a ha
        have hw := hL w (by simp)
        rw [List.foldl_cons, truncD_int_add ha hw, ih (fun y hy => hL y (by simp [hy])) _
          (by have := truncD_nonneg hw; omega), List.map_cons, List.sum_cons, Int.add_assoc]
    rw [key ws h 0 (Int.le_refl _), Int.zero_add]
  · have key : ∀ (L : List Rat), (∀ w ∈ L, w = (truncD w : Rat)) → ∀ a : Int,
        L.foldl (fun (a : Int) w => truncD ((a : Rat) + w)) a = a + (L.map truncD).sum := by
      intro L
      induction L with
      | nil => intro _ a; simp
      | cons w L ih =>
        intro hL a
        have hw := hL w (by simp)
        have e : truncD ((a : Rat) + w) = a + truncD w := by
          conv_lhs => rw [hw]
          exact truncD_add _ _
        rw [List.foldl_cons, e, ih (fun y hy => hL y (by simp [hy])), List.map_cons, List.sum_cons, Int.add_assoc]
    rw [key ws h 0, Int.zero_add]

theorem nbrAcc_sum {wt : Handle → Rat} {run : List (Handle × Handle)} (h : TruncSafe (run.map (fun x => wt x.2))) (k : Handle) :
    nbrAcc wt run k = nbrSum (fun e => truncD (wt e)) run k := by
  unfold nbrAcc nbrSum
  rw [foldl_trunc, List.map_map]
  · rfl
  · have hsub : ∀ w ∈ (run.filter (fun x => decide (x.1 = k))).map (fun x => wt x.2), w ∈ run.map (fun x => wt x.2) := by
      intro w hw
      obtain ⟨x, hx, rfl⟩ := List.mem_map.mp hw
      exact List.mem_map.mpr ⟨x, (List.mem_filter.mp hx).1, rfl⟩
    rcases h with h | h
    · exact .inl (fun w hw => h w (hsub w hw))
    · exact .inr (fun w hw => h w (hsub w hw))

/-! ## the loop over `adjacent` with the edges -/

theorem adjLoop_run {β : Type} {g : Graph} {body : β → Handle → Handle → Outcome β} :
    ∀ (run : List (Handle × Handle)) (it : AdjIt) (fuel : Nat) (b : β), AdjRun g it run → run.length < fuel →
      adjLoop g body fuel it b = run.foldlM (fun b x => body b x.1 x.2) b := by
  intro run
  induction run with
  | nil =>
    rintro it fuel b ⟨it', h⟩ hf
    obtain ⟨f, rfl⟩ : ∃ f, fuel = f + 1 := ⟨fuel - 1, by simp at hf; omega⟩
    rw [adjLoop, h]; rfl
  | cons x run ih =>
    rintro it fuel b ⟨h1, h2, it', h3, h4, h5⟩ hf
    obtain ⟨f, rfl⟩ : ∃ f, fuel = f + 1 := ⟨fuel - 1, by simp at hf; omega⟩
    rw [adjLoop, h3, Outcome.bind_ok]
    dsimp only
    rw [if_neg h1, List.foldlM_cons, h4]
    cases hb : body b x.1 x.2 with
    | ok b' => rw [Outcome.bind_ok, Outcome.bind_ok]; exact ih it' f b' h5 (by simp at hf; omega)
    | fail => rfl
    | ub => rfl

/-- what the loops see of one part -/
structure PmFacts (g : Graph) (t : Nat) (slf : Part) (ow : Handle → Part) (gid : Handle → Gid) (wt : Handle → Rat)
    (vw : Handle → Rat) (run : Handle → List (Handle × Handle)) : Prop where
  edges : ∀ u, u < g.numLocal → ∃ es ps, YieldsFrom (g.edges (getVertex u) t) g.iterEdge es ∧ es.length < g.bound ∧
    (∀ e ∈ es, YieldsFrom (g.pins e) g.iterPin (ps e) ∧ (ps e).length < g.bound) ∧
    (es.flatMap ps).filter (fun x => decide (x ≠ getVertex u)) =
      ((run (getVertex u)).map Prod.fst).filter (fun x => decide (x ≠ getVertex u))
  adj : ∀ u, u < g.numLocal → ∃ it, g.adjacent (getVertex u) t = .ok it ∧ AdjRun g it (run (getVertex u)) ∧
    (run (getVertex u)).length < g.adjFuel
  owner : ∀ u, u < g.numLocal → ∀ x ∈ run (getVertex u), g.owner x.1 = .ok (ow x.1)
  gids : ∀ u, u < g.numLocal → ∀ x ∈ run (getVertex u), g.globalID x.1 = .ok (gid x.1)
  weightE : ∀ u, u < g.numLocal → ∀ x ∈ run (getVertex u), g.weightE x.2 = .ok (wt x.2)
  loc : ∀ u, u < g.numLocal → ∀ x ∈ run (getVertex u), ow x.1 = slf → ∃ l, l < g.numLocal ∧ x.1 = getVertex l
  gid : ∀ u, u < g.numLocal → g.globalID (getVertex u) = .ok (gid (getVertex u))
  weight : ∀ u, u < g.numLocal → g.weight (getVertex u) = .ok (vw (getVertex u))

section
variable {g : Graph} {t : Nat} {slf : Part} {ow : Handle → Part} {gid : Handle → Gid} {wt : Handle → Rat}
  {vw : Handle → Rat} {run : Handle → List (Handle × Handle)}

/-- the entries of the row other than the vertex itself -/
def others (run : Handle → List (Handle × Handle)) (h : Handle) : List (Handle × Handle) :=
  (run h).filter (fun x => decide (x.1 ≠ h))

/-- is the neighbour kept? -/
def keepNbr (isLocal : Bool) (slf : Part) (ow : Handle → Part) (x : Handle) : Bool := !isLocal || decide (ow x = slf)

/-- the neighbours of a vertex handed to the partitioner -/
def keptNbrs (isLocal : Bool) (slf : Part) (ow : Handle → Part) (run : Handle → List (Handle × Handle)) (h : Handle) :
    List Handle := (dedupL ((others run h).map Prod.fst)).filter (keepNbr isLocal slf ow)

theorem pmPins_fold (isLocal : Bool) (vtx : Handle) : ∀ (L : List Handle), (∀ x ∈ L, x ≠ vtx → g.owner x = .ok (ow x)) →
    ∀ s, loopList (pmPin g slf isLocal vtx) L s =
      .ok ⟨((L.filter (fun x => decide (x ≠ vtx))).filter (keepNbr isLocal slf ow)).foldl insertSet s.nbrs,
        if isLocal then s.res else ((L.filter (fun x => decide (x ≠ vtx))).map ow).foldl (fun s p => Peers.insert p s) s.res⟩ := by
  intro L
  induction L with
  | nil => intro _ s; cases isLocal <;> rfl
  | cons x L ih =>
    intro ho s
    rw [loopList]
    by_cases hx : x = vtx
    · have hstep : pmPin g slf isLocal vtx s x = .ok (s, false) := by unfold pmPin; rw [if_pos hx]
      rw [hstep, Outcome.bind_ok]
      dsimp only
      rw [if_neg (by simp), List.filter_cons_of_neg (by simp [hx])]
      exact ih (fun y hy => ho y (by simp [hy])) s
    · have hstep : pmPin g slf isLocal vtx s x =
          .ok (⟨(if (!isLocal || decide (ow x = slf)) = true then insertSet s.nbrs x else s.nbrs),
            (if (!isLocal) = true then Peers.insert (ow x) s.res else s.res)⟩, false) := by
        unfold pmPin; rw [if_neg hx, ho x (by simp) hx]; rfl
      rw [hstep, Outcome.bind_ok, List.filter_cons_of_pos (by simp [hx])]
      dsimp only
      rw [if_neg (by simp), ih (fun y hy => ho y (by simp [hy]))]
      congr 2
      · by_cases hk : keepNbr isLocal slf ow x = true
        · rw [List.filter_cons_of_pos hk, List.foldl_cons]
          have hk' : (!isLocal || decide (ow x = slf)) = true := hk
          rw [if_pos hk']
        · rw [List.filter_cons_of_neg (by simpa using hk)]
          have hk' : ¬ (!isLocal || decide (ow x = slf)) = true := hk
          rw [if_neg hk']
      · cases isLocal <;> rfl

/-- parts of the remote copies -/
def pmResOf (isLocal : Bool) (ow : Handle → Part) (run : Handle → List (Handle × Handle)) (h : Handle) : Peers :=
  if isLocal then [] else (((others run h).map Prod.fst).map ow).foldl (fun s p => Peers.insert p s) []

theorem others_map (h : Handle) : (others run h).map Prod.fst =
    ((run h).map Prod.fst).filter (fun x => decide (x ≠ h)) := by
  unfold others
  rw [List.filter_map]; rfl

/-- the loops over the edges of a vertex and their pins -/
theorem pmEdges_spec (hf : PmFacts g t slf ow gid wt vw run) (isLocal : Bool) {u : Nat} (hu : u < g.numLocal) :
    ∃ it, g.edges (getVertex u) t = .ok it ∧
      iterLoop g.iterEdge (pmEdge g slf isLocal (getVertex u)) g.bound it ⟨[], []⟩ =
        .ok ⟨keptNbrs isLocal slf ow run (getVertex u), pmResOf isLocal ow run (getVertex u)⟩ := by
  obtain ⟨es, ps, ⟨it, e1, hy⟩, hlen, hps, hflat⟩ := hf.edges u hu
  refine ⟨it, e1, ?_⟩
  rw [iterLoop_yields _ _ _ _ _ hy hlen]
  have hown : ∀ e ∈ es, ∀ x ∈ ps e, x ≠ getVertex u → g.owner x = .ok (ow x) := by
    intro e he x hx hne
    have : x ∈ (es.flatMap ps).filter (fun x => decide (x ≠ getVertex u)) :=
      List.mem_filter.mpr ⟨List.mem_flatMap.mpr ⟨e, he, hx⟩, by simpa using hne⟩
    rw [hflat] at this
    obtain ⟨y, hy, rfl⟩ := List.mem_map.mp (List.mem_filter.mp this).1
    exact hf.owner u hu y hy
  have key : ∀ (es' : List Handle), (∀ e ∈ es', e ∈ es) → ∀ s, loopList (pmEdge g slf isLocal (getVertex u)) es' s =
      loopList (pmPin g slf isLocal (getVertex u)) (es'.flatMap ps) s := by
    intro es'
    induction es' with
    | nil => intro _ s; rfl
    | cons e es' ih =>
      intro hsub s
      obtain ⟨⟨pit, e2, hyp⟩, hpl⟩ := hps e (hsub e (by simp))
      have hstep : ∃ s', pmEdge g slf isLocal (getVertex u) s e = .ok (s', false) ∧
          loopList (pmPin g slf isLocal (getVertex u)) (ps e) s = .ok s' := by
        refine ⟨_, ?_, pmPins_fold isLocal _ _ (hown e (hsub e (by simp))) s⟩
        unfold pmEdge
        rw [e2, Outcome.bind_ok, iterLoop_yields _ _ _ _ _ hyp hpl,
          pmPins_fold isLocal _ _ (hown e (hsub e (by simp)))]
        rfl
      obtain ⟨s', h1, h2⟩ := hstep
      rw [loopList, h1, Outcome.bind_ok, List.flatMap_cons]
      dsimp only
      rw [if_neg (by simp), ih (fun x hx => hsub x (by simp [hx]))]
      rw [pmPins_fold isLocal _ _ (hown e (hsub e (by simp)))] at h2
      cases h2
      rw [pmPins_fold isLocal _ _ (by
        intro x hx
        obtain ⟨e', he', hx'⟩ := List.mem_flatMap.mp hx
        exact hown e' (hsub e' (by simp [he'])) x hx'),
        pmPins_fold isLocal _ _ (by
        intro x hx
        rcases List.mem_append.mp hx with hx | hx
        · exact hown e (hsub e (by simp)) x hx
        · obtain ⟨e', he', hx'⟩ := List.mem_flatMap.mp hx
          exact hown e' (hsub e' (by simp [he'])) x hx')]
      simp only [List.filter_append, List.foldl_append, List.map_append]
      cases isLocal <;> rfl
  rw [key es (fun _ h => h), pmPins_fold isLocal _ _ (by
    intro x hx
    obtain ⟨e, he, hx'⟩ := List.mem_flatMap.mp hx
    exact hown e he x hx'), hflat, ← others_map]
  congr 2
  unfold keptNbrs
  rw [← dedupL_filter]; rfl

/-- the messages of a part -/
def pmMsgs (nl : Nat) (pcu : Part) (isLocal : Bool) (ow : Handle → Part) (gid : Handle → Gid)
    (run : Handle → List (Handle × Handle)) (base : Int) : List (Part × (Gid × Int)) :=
  (List.range nl).flatMap (fun u => ((pmResOf isLocal ow run (getVertex u)).filter (fun q => decide (q ≠ pcu))).map
    (fun q => (q, (gid (getVertex u), base + (u : Int)))))

theorem pmFirst_spec (hf : PmFacts g t slf ow gid wt vw run) (isLocal : Bool) (pcu : Part) (base : Int) :
    pmFirst g t slf pcu isLocal base = .ok ⟨Mem.ofList ((List.range g.numLocal).map (fun (u : Nat) => base + (u : Int))), g.numLocal,
      ((List.range g.numLocal).map (fun u => (keptNbrs isLocal slf ow run (getVertex u)).length)).sum,
      pmMsgs g.numLocal pcu isLocal ow gid run base⟩ := by
  unfold pmFirst
  rw [iterLoop_yields _ _ _ _ _ (yields_vertices g) (by
    rw [List.length_map, List.length_range]; unfold Graph.bound; omega)]
  have key : ∀ k, k ≤ g.numLocal → loopList (pmVertex g t slf pcu isLocal base) ((List.range k).map getVertex)
      ⟨Mem.alloc g.numLocal, 0, 0, []⟩ =
      .ok ⟨Mem.ofList ((List.range k).map (fun (u : Nat) => base + (u : Int))) ++ Mem.alloc (g.numLocal - k), k,
        ((List.range k).map (fun u => (keptNbrs isLocal slf ow run (getVertex u)).length)).sum,
        pmMsgs k pcu isLocal ow gid run base⟩ := by
    intro k
    induction k with
    | zero => intro _; simp [loopList, pmMsgs, Mem.ofList]
    | succ k ih =>
      intro hk
      have hsplit : ∀ (l : List Handle) (x : Handle) (s : PmFirst), loopList (pmVertex g t slf pcu isLocal base) (l ++ [x]) s =
          (loopList (pmVertex g t slf pcu isLocal base) l s >>= fun s => loopList (pmVertex g t slf pcu isLocal base) [x] s) := by
        intro l x s
        rw [loopList_fold (f := fun s x => do let r ← pmVertex g t slf pcu isLocal base s x; pure r.1) _ (by
            intro s x _
            unfold pmVertex
            simp only [bind_assoc, Outcome.pure_eq, Outcome.bind_ok]),
          loopList_fold (f := fun s x => do let r ← pmVertex g t slf pcu isLocal base s x; pure r.1) _ (by
            intro s x _
            unfold pmVertex
            simp only [bind_assoc, Outcome.pure_eq, Outcome.bind_ok]), List.foldlM_append]
        congr 1
        funext s'
        rw [loopList_fold (f := fun s x => do let r ← pmVertex g t slf pcu isLocal base s x; pure r.1) _ (by
            intro s x _
            unfold pmVertex
            simp only [bind_assoc, Outcome.pure_eq, Outcome.bind_ok])]
      obtain ⟨it, e1, e2⟩ := pmEdges_spec hf isLocal (u := k) (by omega)
      have hst := Io.store_next ((List.range k).map (fun (u : Nat) => base + (u : Int))) (g.numLocal - (k + 1)) (base + (k : Int))
      rw [List.length_map, List.length_range] at hst
      rw [show g.numLocal - (k + 1) + 1 = g.numLocal - k by omega] at hst
      have hld : (Mem.ofList (List.map (fun (u : Nat) => base + (u : Int)) (List.range k) ++ [base + (k : Int)]) ++
          Mem.alloc (g.numLocal - (k + 1))).load k = .ok (base + (k : Int)) := by
        apply Mem.load_ok
        rw [List.getElem?_append_left (by simp [Mem.ofList])]
        simp [Mem.ofList]
      have hstep : pmVertex g t slf pcu isLocal base
          ⟨Mem.ofList ((List.range k).map (fun (u : Nat) => base + (u : Int))) ++ Mem.alloc (g.numLocal - k), k,
            ((List.range k).map (fun u => (keptNbrs isLocal slf ow run (getVertex u)).length)).sum,
            pmMsgs k pcu isLocal ow gid run base⟩ (getVertex k) =
          .ok (⟨Mem.ofList ((List.range k).map (fun (u : Nat) => base + (u : Int)) ++ [base + (k : Int)]) ++ Mem.alloc (g.numLocal - (k + 1)), k + 1,
            ((List.range k).map (fun u => (keptNbrs isLocal slf ow run (getVertex u)).length)).sum +
              (keptNbrs isLocal slf ow run (getVertex k)).length,
            pmMsgs k pcu isLocal ow gid run base ++
              ((pmResOf isLocal ow run (getVertex k)).filter (fun q => decide (q ≠ pcu))).map
                (fun q => (q, (gid (getVertex k), base + (k : Int))))⟩, false) := by
        unfold pmVertex
        dsimp only
        rw [hst, Outcome.bind_ok, e1, Outcome.bind_ok, e2, Outcome.bind_ok, hf.gid k (by omega), Outcome.bind_ok, hld]
        rfl
      rw [List.range_succ, List.map_append, List.map_cons, List.map_nil, hsplit, ih (by omega), Outcome.bind_ok, loopList,
        hstep, Outcome.bind_ok]
      dsimp only
      rw [if_neg (by simp)]
      simp only [loopList, List.map_append, List.map_cons, List.map_nil, List.sum_append, List.sum_cons, List.sum_nil, Nat.add_zero, Outcome.pure_eq]
      congr 2
      unfold pmMsgs
      rw [List.range_succ, List.flatMap_append]
      simp
  have := key g.numLocal (Nat.le_refl _)
  rw [this]
  simp [Mem.alloc]

/-- the neighbours with the summed weights -/
theorem pmAdj_spec (hf : PmFacts g t slf ow gid wt vw run) {u : Nat} (hu : u < g.numLocal) :
    ∃ it, g.adjacent (getVertex u) t = .ok it ∧ adjLoop g (pmAdj g (getVertex u)) g.adjFuel it [] =
      .ok ((dedupL ((others run (getVertex u)).map Prod.fst)).map
        (fun h => (h, nbrAcc wt (others run (getVertex u)) h))) := by
  obtain ⟨it, e1, hr, hl⟩ := hf.adj u hu
  refine ⟨it, e1, ?_⟩
  rw [adjLoop_run _ _ _ _ hr hl, ← foldl_addNbr]
  have key : ∀ (L : List (Handle × Handle)), (∀ x ∈ L, x ∈ run (getVertex u)) → ∀ s,
      L.foldlM (fun b x => pmAdj g (getVertex u) b x.1 x.2) s =
        .ok ((L.filter (fun x => decide (x.1 ≠ getVertex u))).foldl (fun l x => addNbr x.1 (wt x.2) l) s) := by
    intro L
    induction L with
    | nil => intro _ s; rfl
    | cons x L ih =>
      intro hsub s
      rw [List.foldlM_cons]
      unfold pmAdj
      by_cases hx : x.1 = getVertex u
      · rw [if_pos hx, Outcome.bind_ok, List.filter_cons_of_neg (by simp [hx])]
        exact ih (fun y hy => hsub y (by simp [hy])) s
      · rw [if_neg hx, hf.weightE u hu x (hsub x (by simp)), Outcome.bind_ok, List.filter_cons_of_pos (by simp [hx]),
          List.foldl_cons]
        exact ih (fun y hy => hsub y (by simp [hy])) _
  exact key _ (fun _ h => h) []

/-- the number a part writes for a neighbour -/
def numIn (slf : Part) (ow : Handle → Part) (gid : Handle → Gid) (base : Int) (ghosts : GMap Int) (h : Handle) : Int :=
  if ow h = slf then base + ((h - 1 : Nat) : Int) else (ghosts (gid h)).getD 0

/-- the row of a vertex -/
def rowIn (isLocal : Bool) (slf : Part) (ow : Handle → Part) (gid : Handle → Gid) (wt : Handle → Rat)
    (run : Handle → List (Handle × Handle)) (base : Int) (ghosts : GMap Int)
    (ord : Nat → List (Handle × Int) → List (Handle × Int)) (u : Nat) : List (Int × Int) :=
  ((ord u ((dedupL ((others run (getVertex u)).map Prod.fst)).map
    (fun h => (h, nbrAcc wt (others run (getVertex u)) h)))).filter (fun x => keepNbr isLocal slf ow x.1)).map
      (fun x => (numIn slf ow gid base ghosts x.1, x.2))

theorem rowIn_length (isLocal : Bool) (base : Int) (ghosts : GMap Int)
    (ord : Nat → List (Handle × Int) → List (Handle × Int)) (hord : ∀ i l, (ord i l).Perm l) (u : Nat) :
    (rowIn isLocal slf ow gid wt run base ghosts ord u).length = (keptNbrs isLocal slf ow run (getVertex u)).length := by
  unfold rowIn keptNbrs
  rw [List.length_map, ((hord u _).filter _).length_eq, List.filter_map, List.length_map]
  rfl

theorem putNbrs_spec (isLocal : Bool) (base : Int) (ghosts : GMap Int) :
    ∀ (L : List (Handle × Int)) (A : List (Int × Int)) (r : Nat),
      (∀ x ∈ L, g.owner x.1 = .ok (ow x.1) ∧ g.globalID x.1 = .ok (gid x.1) ∧
        (ow x.1 = slf → ∃ l, l < g.numLocal ∧ x.1 = getVertex l)) →
      (L.filter (fun x => keepNbr isLocal slf ow x.1)).length ≤ r →
      L.foldlM (putNbr g slf isLocal (Mem.ofList ((List.range g.numLocal).map (fun (u : Nat) => base + (u : Int)))) ghosts)
        ⟨Mem.ofList (A.map Prod.fst) ++ Mem.alloc r, Mem.ofList (A.map Prod.snd) ++ Mem.alloc r, A.length⟩ =
      .ok (let B := A ++ (L.filter (fun x => keepNbr isLocal slf ow x.1)).map
            (fun x => (numIn slf ow gid base ghosts x.1, x.2))
          let r' := r - (L.filter (fun x => keepNbr isLocal slf ow x.1)).length
          ⟨Mem.ofList (B.map Prod.fst) ++ Mem.alloc r', Mem.ofList (B.map Prod.snd) ++ Mem.alloc r', B.length⟩) := by
  intro L
  induction L with
  | nil => intro A r _ _; simp
  | cons x L ih =>
    intro A r hx hr
    obtain ⟨h1, h2, h3⟩ := hx x (by simp)
    rw [List.foldlM_cons]
    have hpush : ∀ n, 0 < r → (PmAdjSt.push ⟨Mem.ofList (A.map Prod.fst) ++ Mem.alloc r, Mem.ofList (A.map Prod.snd) ++ Mem.alloc r, A.length⟩ n x.2) =
        .ok ⟨Mem.ofList ((A ++ [(n, x.2)]).map Prod.fst) ++ Mem.alloc (r - 1), Mem.ofList ((A ++ [(n, x.2)]).map Prod.snd) ++ Mem.alloc (r - 1),
          (A ++ [(n, x.2)]).length⟩ := by
      intro n hr0
      unfold PmAdjSt.push
      have e1 := Io.store_next (A.map Prod.fst) (r - 1) n
      have e2 := Io.store_next (A.map Prod.snd) (r - 1) x.2
      rw [List.length_map, show r - 1 + 1 = r by omega] at e1 e2
      dsimp only
      rw [e1, Outcome.bind_ok, e2, Outcome.bind_ok]
      simp
    by_cases hk : keepNbr isLocal slf ow x.1 = true
    · rw [List.filter_cons_of_pos (by simpa using hk)] at hr ⊢
      have hr0 : 0 < r := by simp at hr; omega
      have hput : putNbr g slf isLocal (Mem.ofList ((List.range g.numLocal).map (fun (u : Nat) => base + (u : Int)))) ghosts
          ⟨Mem.ofList (A.map Prod.fst) ++ Mem.alloc r, Mem.ofList (A.map Prod.snd) ++ Mem.alloc r, A.length⟩ x =
          PmAdjSt.push ⟨Mem.ofList (A.map Prod.fst) ++ Mem.alloc r, Mem.ofList (A.map Prod.snd) ++ Mem.alloc r, A.length⟩
            (numIn slf ow gid base ghosts x.1) x.2 := by
        unfold putNbr numIn
        rw [h1, Outcome.bind_ok]
        by_cases hs : ow x.1 = slf
        · rw [if_pos hs, if_pos hs]
          obtain ⟨l, hl, hxl⟩ := h3 hs
          rw [hxl, vidx_getVertex, Outcome.bind_ok, Mem.load_ofList (by simpa using hl)]
          simp [getVertex]
        · rw [if_neg hs, if_neg hs]
          have : isLocal = false := by
            unfold keepNbr at hk
            simpa [hs] using hk
          subst this
          rw [if_pos (by rfl), h2]
          rfl
      rw [hput, hpush _ hr0, Outcome.bind_ok, ih (A ++ [(numIn slf ow gid base ghosts x.1, x.2)]) (r - 1) (fun y hy => hx y (by simp [hy])) (by
        simp only [List.length_cons] at hr; omega)]
      simp only [List.map_cons, List.append_assoc, List.cons_append, List.nil_append, List.length_cons]
      rw [show r - 1 - (L.filter (fun x => keepNbr isLocal slf ow x.1)).length =
        r - ((L.filter (fun x => keepNbr isLocal slf ow x.1)).length + 1) by omega]
    · rw [List.filter_cons_of_neg (by simpa using hk)] at hr ⊢
      have hput : putNbr g slf isLocal (Mem.ofList ((List.range g.numLocal).map (fun (u : Nat) => base + (u : Int)))) ghosts
          ⟨Mem.ofList (A.map Prod.fst) ++ Mem.alloc r, Mem.ofList (A.map Prod.snd) ++ Mem.alloc r, A.length⟩ x =
          .ok ⟨Mem.ofList (A.map Prod.fst) ++ Mem.alloc r, Mem.ofList (A.map Prod.snd) ++ Mem.alloc r, A.length⟩ := by
        unfold putNbr
        unfold keepNbr at hk
        simp only [Bool.or_eq_true, Bool.not_eq_true', decide_eq_true_eq, not_or, Bool.not_eq_false] at hk
        rw [h1, Outcome.bind_ok, if_neg hk.2, hk.1]
        rfl
      rw [hput, Outcome.bind_ok]
      exact ih A r (fun y hy => hx y (by simp [hy])) hr

/-- the number of entries of the first `k` rows -/
def rowEnds (rows : Nat → List (Int × Int)) (k : Nat) : List Int :=
  (List.range (k + 1)).map (fun j => ((((List.range j).flatMap rows).length : Nat) : Int))

theorem pmSecond_spec (hf : PmFacts g t slf ow gid wt vw run) (isLocal : Bool) (base : Int) (ghosts : GMap Int)
    (ord : Nat → List (Handle × Int) → List (Handle × Int)) (hord : ∀ i l, (ord i l).Perm l) (f : PmFirst)
    (hg : f.gids = Mem.ofList ((List.range g.numLocal).map (fun (u : Nat) => base + (u : Int))))
    (hdeg : f.degs = ((List.range g.numLocal).map (fun u => (keptNbrs isLocal slf ow run (getVertex u)).length)).sum) :
    pmSecond g t slf isLocal f ghosts ord =
      .ok (let rows := rowIn isLocal slf ow gid wt run base ghosts ord
          let all := (List.range g.numLocal).flatMap rows
          ⟨g.numLocal, Mem.ofList (rowEnds rows g.numLocal),
            Mem.ofList ((List.range g.numLocal).map (fun u => truncD (vw (getVertex u)))),
            ⟨Mem.ofList (all.map Prod.fst), Mem.ofList (all.map Prod.snd), all.length⟩⟩) := by
  set rows := rowIn isLocal slf ow gid wt run base ghosts ord with hrows
  have hlenrow : ∀ u, (rows u).length = (keptNbrs isLocal slf ow run (getVertex u)).length :=
    fun u => rowIn_length isLocal base ghosts ord hord u
  have hlenall : ∀ k, ((List.range k).flatMap rows).length =
      ((List.range k).map (fun u => (keptNbrs isLocal slf ow run (getVertex u)).length)).sum := by
    intro k
    rw [List.length_flatMap]
    congr 1
    apply List.map_congr_left
    intro u _
    exact hlenrow u
  unfold pmSecond
  have hx0 : (Mem.alloc (g.numLocal + 1) : Mem Int).store 0 0 = .ok (Mem.ofList (rowEnds rows 0) ++ Mem.alloc g.numLocal) := by
    have := Io.store_next ([] : List Int) g.numLocal 0
    simpa [Mem.ofList, rowEnds] using this
  rw [hx0, Outcome.bind_ok, iterLoop_yields _ _ _ _ _ (yields_vertices g) (by
    rw [List.length_map, List.length_range]; unfold Graph.bound; omega)]
  rw [loopList_fold (f := fun s x => do let r ← pmRow g t slf isLocal f.gids ghosts ord s x; pure r.1) _ (by
      intro s x _
      unfold pmRow
      simp only [bind_assoc, Outcome.pure_eq, Outcome.bind_ok]), List.foldlM_map]
  obtain ⟨s', e, hs'⟩ := rangeM_inv (fun s x => do let r ← pmRow g t slf isLocal f.gids ghosts ord s (getVertex x); pure r.1)
    (fun k (s : PmSecond) => s = ⟨k, Mem.ofList (rowEnds rows k) ++ Mem.alloc (g.numLocal - k),
      Mem.ofList ((List.range k).map (fun u => truncD (vw (getVertex u)))) ++ Mem.alloc (g.numLocal - k),
      ⟨Mem.ofList (((List.range k).flatMap rows).map Prod.fst) ++ Mem.alloc (f.degs - ((List.range k).flatMap rows).length),
        Mem.ofList (((List.range k).flatMap rows).map Prod.snd) ++ Mem.alloc (f.degs - ((List.range k).flatMap rows).length),
        ((List.range k).flatMap rows).length⟩⟩) g.numLocal (by
      rintro k s hk rfl
      obtain ⟨it, e1, e2⟩ := pmAdj_spec hf hk
      have hmono : ((List.range (k + 1)).flatMap rows).length ≤ f.degs := by
        rw [hdeg, hlenall]
        obtain ⟨d, hd⟩ : ∃ d, g.numLocal = (k + 1) + d := ⟨g.numLocal - (k + 1), by omega⟩
        rw [hd, List.range_add (n := k + 1), List.map_append, List.sum_append]
        exact Nat.le_add_right _ _
      have hsplit : ((List.range (k + 1)).flatMap rows) = (List.range k).flatMap rows ++ rows k := by
        rw [List.range_succ, List.flatMap_append]; simp
      rw [hsplit, List.length_append] at hmono
      have hput := putNbrs_spec (g := g) (slf := slf) (ow := ow) (gid := gid) isLocal base ghosts
        (ord k ((dedupL ((others run (getVertex k)).map Prod.fst)).map
          (fun h => (h, nbrAcc wt (others run (getVertex k)) h)))) ((List.range k).flatMap rows)
        (f.degs - ((List.range k).flatMap rows).length) (by
          intro x hx
          rw [(hord k _).mem_iff, List.mem_map] at hx
          obtain ⟨h, hh, rfl⟩ := hx
          rw [mem_dedupL, List.mem_map] at hh
          obtain ⟨y, hy, rfl⟩ := hh
          have hy' := (List.mem_filter.mp hy).1
          exact ⟨hf.owner k hk y hy', hf.gids k hk y hy', hf.loc k hk y hy'⟩) (by
          have := hlenrow k
          have h2 : (rows k).length = (List.filter (fun x => keepNbr isLocal slf ow x.1) (ord k ((dedupL ((others run (getVertex k)).map Prod.fst)).map
            (fun h => (h, nbrAcc wt (others run (getVertex k)) h))))).length := by
            rw [hrows]; unfold rowIn; rw [List.length_map]
          omega)
      have hrowk : (List.filter (fun x => keepNbr isLocal slf ow x.1) (ord k ((dedupL ((others run (getVertex k)).map Prod.fst)).map
            (fun h => (h, nbrAcc wt (others run (getVertex k)) h))))).map (fun x => (numIn slf ow gid base ghosts x.1, x.2)) = rows k := rfl
      have hrowl : (List.filter (fun x => keepNbr isLocal slf ow x.1) (ord k ((dedupL ((others run (getVertex k)).map Prod.fst)).map
            (fun h => (h, nbrAcc wt (others run (getVertex k)) h))))).length = (rows k).length := by
        rw [← hrowk, List.length_map]
      rw [hrowk, hrowl, ← hsplit] at hput
      dsimp only at hput
      have hst1 := Io.store_next ((List.range k).map (fun u => truncD (vw (getVertex u)))) (g.numLocal - (k + 1)) (truncD (vw (getVertex k)))
      have hst2 := Io.store_next (rowEnds rows k) (g.numLocal - (k + 1)) (((List.range (k + 1)).flatMap rows).length : Int)
      rw [List.length_map, List.length_range, show g.numLocal - (k + 1) + 1 = g.numLocal - k by omega] at hst1
      rw [show (rowEnds rows k).length = k + 1 by simp [rowEnds], show g.numLocal - (k + 1) + 1 = g.numLocal - k by omega] at hst2
      refine ⟨_, ?_, rfl⟩
      unfold pmRow
      dsimp only
      rw [hf.weight k hk, Outcome.bind_ok, hst1, Outcome.bind_ok, e1, Outcome.bind_ok, e2, Outcome.bind_ok, hg, hput, Outcome.bind_ok]
      dsimp only
      rw [hst2, Outcome.bind_ok]
      simp only [Outcome.pure_eq, Outcome.bind_ok]
      congr 2
      · unfold rowEnds
        rw [List.range_succ (n := k + 1), List.map_append]; rfl
      · rw [List.range_succ, List.map_append]; rfl
      · rw [hsplit, List.length_append]
        congr 2 <;> rw [Nat.sub_sub])
    ⟨0, Mem.ofList (rowEnds rows 0) ++ Mem.alloc g.numLocal, Mem.alloc g.numLocal, ⟨Mem.alloc f.degs, Mem.alloc f.degs, 0⟩⟩ (by
      simp [Mem.ofList])
  subst hs'
  rw [e]
  simp only [Nat.sub_self, hlenall, ← hdeg]
  simp [Mem.alloc]

theorem readAll_ofList (l : List Int) : readAll (Mem.ofList l) = .ok l := by
  unfold readAll
  rw [Mem.length_ofList]
  have : l = (List.range l.length).map (fun i => l.getD i 0) := list_range l 0
  conv_rhs => rw [this]
  apply mapM_ok
  intro i hi
  have hi' := List.mem_range.mp hi
  rw [Mem.load_ofList hi']
  simp [hi']

/-- **one part**: the arrays it hands over -/
theorem pmPart_spec (hf : PmFacts g t slf ow gid wt vw run) (isLocal : Bool) (base : Int) (ghosts : GMap Int)
    (ord : Nat → List (Handle × Int) → List (Handle × Int)) (hord : ∀ i l, (ord i l).Perm l) (f : PmFirst) (pcu : Part)
    (hfirst : pmFirst g t slf pcu isLocal base = .ok f) (dist : List Int) :
    (do let s ← pmSecond g t slf isLocal f ghosts ord
        pmInput dist s) =
      .ok (let rows := rowIn isLocal slf ow gid wt run base ghosts ord
          let all := (List.range g.numLocal).flatMap rows
          ⟨dist, rowEnds rows g.numLocal, all.map Prod.fst,
            (List.range g.numLocal).map (fun u => truncD (vw (getVertex u))), all.map Prod.snd⟩) := by
  rw [pmFirst_spec hf] at hfirst
  cases hfirst
  rw [pmSecond_spec hf isLocal base ghosts ord hord _ rfl rfl, Outcome.bind_ok]
  unfold pmInput
  dsimp only
  rw [readAll_ofList, readAll_ofList, readAll_ofList, readAll_ofList]
  rfl

end

/-! ## the offsets -/

theorem vtxDist_spec {P me nl : Nat} (h : me < P) :
    ∃ m, vtxDist P me nl = .ok m ∧ ∀ i, i ≤ P → m[i]? = some (some (if me < i then (nl : Int) else 0)) := by
  unfold vtxDist
  obtain ⟨m1, e1, hl1, h1⟩ := rangeM_inv (fun (m : Mem Int) i => m.store i 0)
    (fun k m => m.length = P + 1 ∧ ∀ i, i < k → m[i]? = some (some (0 : Int))) (me + 2) (by
      rintro k m hk ⟨hl, hm⟩
      refine ⟨_, Mem.store_ok _ (by omega), by simp [hl], ?_⟩
      intro i hi
      rw [Mem.getElem?_set']
      by_cases hik : k = i
      · rw [if_pos hik, if_pos (by omega)]
      · rw [if_neg hik]; exact hm i (by omega)) (Mem.alloc (P + 1)) ⟨by simp, by omega⟩
  rw [e1, Outcome.bind_ok]
  obtain ⟨m2, e2, hl2, h2⟩ := range_inv (fun (m : Mem Int) i => m.store i (nl : Int))
    (fun k m => m.length = P + 1 ∧ (∀ i, i ≤ me → m[i]? = some (some (0 : Int))) ∧
      ∀ i, me < i → i < me + 1 + k → m[i]? = some (some (nl : Int))) (me + 1) (P + 1 - (me + 1)) (by
      rintro k m hk ⟨hl, hm0, hm⟩
      refine ⟨_, Mem.store_ok _ (by omega), by simp [hl], ?_, ?_⟩
      · intro i hi
        rw [Mem.getElem?_set', if_neg (by omega)]
        exact hm0 i hi
      · intro i hi1 hi2
        rw [Mem.getElem?_set']
        by_cases hik : me + 1 + k = i
        · rw [if_pos hik, if_pos (by omega)]
        · rw [if_neg hik]; exact hm i hi1 (by omega)) m1 ⟨hl1, fun i hi => h1 i (by omega), by omega⟩
  refine ⟨m2, e2, fun i hi => ?_⟩
  by_cases hmi : me < i
  · rw [if_pos hmi]; exact h2.2 i hmi (by omega)
  · rw [if_neg hmi]; exact h2.1 i (by omega)

theorem sum_indicator_take (c : List Nat) : ∀ (P : Nat), c.length = P → ∀ i, i ≤ P →
    ((List.range P).map (fun (q : Nat) => if q < i then ((c.getD q 0 : Nat) : Int) else 0)).sum = (((c.take i).sum : Nat) : Int) := by
  intro P hP i hi
  subst hP
  obtain ⟨d, hd⟩ : ∃ d, c.length = i + d := ⟨c.length - i, by omega⟩
  rw [hd, List.range_add, List.map_append, List.sum_append]
  have h2 : (((List.range d).map (fun x => i + x)).map (fun (q : Nat) => if q < i then ((c.getD q 0 : Nat) : Int) else 0)).sum = 0 := by
    rw [List.map_map]
    apply List.sum_eq_zero
    intro x hx
    obtain ⟨y, -, rfl⟩ := List.mem_map.mp hx
    simp
  rw [h2, Int.add_zero]
  clear h2 hd
  induction i with
  | zero => simp
  | succ i ih =>
    rw [List.range_succ, List.map_append, List.sum_append, List.take_add_one, List.sum_append]
    have e : (List.range i).map (fun (q : Nat) => if q < i + 1 then ((c.getD q 0 : Nat) : Int) else 0) =
        (List.range i).map (fun (q : Nat) => if q < i then ((c.getD q 0 : Nat) : Int) else 0) := by
      apply List.map_congr_left
      intro q hq
      have := List.mem_range.mp hq
      rw [if_pos (by omega), if_pos this]
    rw [e, ih (by omega)]
    simp [show i < c.length by omega]

theorem sumDists_spec (c : List Nat) : ∃ ds, (List.range c.length).mapM (fun p => vtxDist c.length p (c.getD p 0)) = .ok ds ∧
    sumDists c.length ds = .ok ((List.range (c.length + 1)).map (fun i => (((c.take i).sum : Nat) : Int))) := by
  have : ∀ p, ∃ m, p < c.length → vtxDist c.length p (c.getD p 0) = .ok m ∧
      ∀ i, i ≤ c.length → m[i]? = some (some (if p < i then ((c.getD p 0 : Nat) : Int) else 0)) := by
    intro p
    by_cases hp : p < c.length
    · obtain ⟨m, h⟩ := vtxDist_spec (nl := c.getD p 0) hp
      exact ⟨m, fun _ => h⟩
    · exact ⟨[], fun h => absurd h hp⟩
  choose M hM using this
  refine ⟨(List.range c.length).map M, mapM_ok (fun p hp => (hM p (List.mem_range.mp hp)).1), ?_⟩
  unfold sumDists
  apply mapM_ok
  intro i hi
  have hi' : i ≤ c.length := by have := List.mem_range.mp hi; omega
  rw [mapM_range (f := fun d : Mem Int => d.load i) (G := fun p => if p < i then ((c.getD p 0 : Nat) : Int) else 0)
    (fun p hp => Mem.load_ok ((hM p hp).2 i hi')), Outcome.bind_ok, sum_indicator_take c c.length rfl i hi']
  rfl

end Verif.Part
