import Verif.Agi.MigGlobal
import Verif.Agi.GhostProps
/-!
# One migration: rebuilding the parts
-/
namespace Verif.Agi

/-- what part is rebuilt from: vertices `W`, hyperedges `es` -/
def newInput (G : GG) (W : List Gid) (es : List HEdge) : Input :=
  ⟨true, W, W.map G.wt, [⟨es.map HEdge.id, es.map HEdge.pins, es.map HEdge.w⟩]⟩

def newRec (G : GG) (v : Gid) : VRec := ⟨v, G.wt v, G.oo v⟩

theorem ofHEdges_edges (es : List HEdge) :
    (EdgeInput.mk (es.map HEdge.id) (es.map HEdge.pins) (es.map HEdge.w)).edges = es := by
  unfold EdgeInput.edges EdgeInput.weights
  by_cases h : es = []
  · subst h; rfl
  · rw [if_neg (by simpa using h)]
    apply List.ext_getElem
    · simp
    · intro k h1 h2; simp

theorem newInput_wf {G : GG} {W : List Gid} {es : List HEdge} (h : W.Nodup) : (newInput G W es).WF := by
  refine ⟨h, by simp [newInput, maxTypes], ?_⟩
  intro e he
  simp only [newInput, List.mem_cons, List.not_mem_nil, or_false] at he
  subst he
  exact ⟨by simp, .inr (by simp), by simp [newInput]⟩

theorem ptrOf_eq {α : Type} [DecidableEq α] (l : List α) : ptrOf l = if l = [] then none else some l := by
  cases l <;> simp [ptrOf]

theorem vertWeights_map (W : List Gid) (f : Gid → Wgt) : vertWeights W (W.map f) = W.map f := by
  unfold vertWeights
  apply List.ext_getElem
  · simp
  · intro k h1 h2
    have : k < W.length := by simpa using h2
    simp [this]

theorem storeAll {α : Type} (l : List α) : ∀ n, l.length = n →
    (List.range' 0 n).foldlM (fun (m : Mem α) i => do
      let c ← rd l i
      m.store i c) (Mem.alloc n) = .ok (Mem.ofList l) := by
  intro n hl
  obtain ⟨m, e, h1, h2⟩ := range_inv (fun (m : Mem α) i => do
      let c ← rd l i
      m.store i c)
    (fun k (m : Mem α) => m.length = n ∧ ∀ j (_ : j < k) (h : j < l.length), m[j]? = some (some l[j])) 0 n
    (by
      intro k m hk ⟨h1, h2⟩
      rw [Nat.zero_add, rd_ok (by omega), Outcome.bind_ok, Mem.store_ok _ (by omega)]
      refine ⟨_, rfl, by simpa using h1, ?_⟩
      intro j hj h
      rw [List.getElem?_set]
      by_cases he : k = j
      · subst he; rw [if_pos rfl, if_pos (by omega)]
      · rw [if_neg he]; exact h2 j (by omega) h)
    (Mem.alloc n) ⟨by simp, by omega⟩
  rw [e]; congr 1
  exact ofList_of_get (by omega) (fun i hi => h2 i (by omega) hi)

theorem GRep.of_coords {g : Graph} {me : Part} {peers : Nat} {total : Int} {i : Input} {ghosts : List Gid}
    (h : GRep g me peers total i ghosts) (c : Option (Mem Coord)) :
    GRep { g with coords := c } me peers total i ghosts := by
  obtain ⟨a, b, c, d, e, f, g, h, i, j, k, l, m, n⟩ := h
  exact ⟨⟨a.nl, a.ng, a.nodup, a.map, a.loc, a.gho⟩, b, c, d, e, f, g, h, i, j, k, l, m, n⟩

theorem rebuild_spec {g : Graph} {p n : Nat} (hs : g.self = (p : Int)) (hp : g.peers = n) (G : GG)
    {W : List Gid} (hW : W.Nodup) (es : List HEdge) (gm : GMap Part) (cs : Option (Gid → Coord)) (total : Int) :
    ∃ g' ghosts, g.rebuild true (W.map (newRec G)) [EAcc.ofEdges es gm] (cs.map (fun c => W.map c)) total = .ok g' ∧
      GRep g' (p : Int) n total (newInput G W es) ghosts ∧ g'.coords = cs.map (fun c => Mem.ofList (W.map c)) := by
  obtain ⟨g1, ghosts, e, hr, hc⟩ := build_spec' (p : Int) n total (newInput G W es) (newInput_wf hW)
  rw [← buildA_eq _ _ _ _ (newInput_wf hW) (.inr (by simp [newInput]))] at e
  have hb : (do
      let g ← constructVertsA g true (W.map (newRec G)).length ((W.map (newRec G)).map VRec.gid)
        (ptrOf ((W.map (newRec G)).map VRec.w)) total
      [EAcc.ofEdges es gm].foldlM (fun g (e : EAcc) => constructEdgesA g e.ids e.degs e.pins (ptrOf e.wgts)) g) = .ok g1 := by
    rw [← e]
    unfold buildA newInput
    have h1 : (W.map (newRec G)).map VRec.gid = W := by
      rw [List.map_map]; exact List.map_id'' (fun v => rfl) W
    have h2 : (W.map (newRec G)).map VRec.w = W.map G.wt := by rw [List.map_map]; rfl
    rw [h1, h2, List.length_map, ptrOf_eq]
    simp only [List.foldlM_cons, List.foldlM_nil, EAcc.ofEdges, ptrOf_eq]
    subst hp
    rw [← hs]
    have h3 : (es.map (fun e => e.pins.length)) = (es.map HEdge.pins).map List.length := by
      rw [List.map_map]; rfl
    rw [h3]
    rfl
  unfold Graph.rebuild
  cases cs with
  | none =>
    refine ⟨g1, ghosts, ?_, hr, by simpa using hc⟩
    rw [← hb]
    simp only [Option.map_none]
    rcases constructVertsA g true (W.map (newRec G)).length ((W.map (newRec G)).map VRec.gid)
        (ptrOf ((W.map (newRec G)).map VRec.w)) total with x | _ | _
    · simp only [Outcome.bind_ok, List.foldlM_cons, List.foldlM_nil, Outcome.pure_eq]
      rcases constructEdgesA x (EAcc.ofEdges es gm).ids (EAcc.ofEdges es gm).degs (EAcc.ofEdges es gm).pins
        (ptrOf (EAcc.ofEdges es gm).wgts) with y | _ | _ <;> rfl
    · rfl
    · rfl
  | some c =>
    refine ⟨{ g1 with coords := some (Mem.ofList (W.map c)) }, ghosts, ?_, hr.of_coords _, rfl⟩
    have hset : g1.setCoords (W.map c) = .ok { g1 with coords := some (Mem.ofList (W.map c)) } := by
      unfold Graph.setCoords
      rw [storeAll (W.map c) g1.numLocal (by rw [hr.vrep.nl]; simp [newInput])]
      rfl
    rw [← hset]
    simp only [Option.map_some]
    rcases hv : constructVertsA g true (W.map (newRec G)).length ((W.map (newRec G)).map VRec.gid)
        (ptrOf ((W.map (newRec G)).map VRec.w)) total with x | _ | _
    · rw [hv, Outcome.bind_ok] at hb
      rw [Outcome.bind_ok, hb, Outcome.bind_ok]
    · rw [hv] at hb; simp at hb
    · rw [hv] at hb; simp at hb

end Verif.Agi
