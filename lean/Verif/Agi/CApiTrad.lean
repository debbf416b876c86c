import Verif.Agi.CApiProps
import Verif.Agi.TradReturnProps
/-!
# Property C65 for traditional graphs, including that the migrations return
-/
namespace Verif.Agi

/-- **C65, the whole way (traditional graphs with one edge type).**  As `c65_partition_partial`, for traditional graphs: if
in every migration each part that still needs a moving vertex is reached by an edge from it (`ToldAll`), the calls of the
C interface, the migrations and `getPartition` all return, and the arrays hold each vertex handed over once, next to it
the part where it is now.  Without `ToldAll` migrations can be undefined (`c17_one_way_swap_ub`). -/
theorem c65_trad_partial {ins : List Input} {own : Gid → Nat} {as : List CArgs} {o1 o2 : Nat → List Nat}
    (hd : TradStart ins own) (ho1 : Orders ins.length o1) (ho2 : Orders ins.length o2) (hl : as.length = ins.length)
    (h : ∀ p (hp : p < as.length) (hp' : p < ins.length), as[p].Says ins[p] own) (rs : List Round)
    (hr : RoundsOk (allVerts ins) ins.length false own rs) (ht : ToldAll own rs (allArcs ins))
    {ord : Nat → List Nat} (ho : Orders ins.length ord) :
    ∃ gs0 gs maps, capiSetup as o1 o2 = .ok gs0 ∧ migrateRounds (gs0.map Graph.setOriginalOwners) rs = .ok gs ∧
      getPartition gs ord = .ok maps ∧ maps.length = ins.length ∧
      ∀ q (hq : q < maps.length) (hq' : q < ins.length) (keys : List Gid), KeysOf maps[q] keys →
        ∀ (verts : Mem Gid) (parts : Mem Nat) (n : Nat), n ≤ verts.length → n ≤ parts.length →
          (n ≠ ins[q].verts.length → capiFill maps[q] keys verts parts n = .fail) ∧
          (n = ins[q].verts.length → ∃ vs : List Gid, vs.Perm ins[q].verts ∧
            capiFill maps[q] keys verts parts n =
              .ok (Mem.ofList vs ++ verts.drop n, Mem.ofList (vs.map (placeAll own rs)) ++ parts.drop n)) := by
  obtain ⟨owns, hown, e0⟩ := capi_setupAll hl hd.wf h o1 o2
  obtain ⟨gs0, gs, maps, e1, e2, e3, e4, e5⟩ := c21_trad_returns_partial (co := none) hd hown ho1 ho2 hr ht ho
  rw [e1, bind_ok_iff] at e0
  obtain ⟨gs1, e6, e7⟩ := e0
  have e7 := Outcome.ok.inj e7
  refine ⟨gs1, gs, maps, e6, by rw [e7]; exact e2, e3, e4, ?_⟩
  exact fun q hq hq' keys hk verts parts n hv hp => fill_tells (hd.wf _ (List.getElem_mem hq')).1 (fun v => e5 q hq hq' v) hk verts parts n hv hp

/-! ## a case -/

/-- the path 1 - 2 - 3 with edges in both directions, with its weights written out -/
def capiPath0 : Input := { hyper := false, verts := [1, 2], wgts := [1, 1], types := [⟨[0, 1, 2], [[1, 2], [2, 1], [2, 3]], [1, 1, 1]⟩] }
def capiPath1 : Input := { hyper := false, verts := [3], wgts := [2], types := [⟨[0], [[3, 2]], [1]⟩] }
def capiPath : List Input := [capiPath0, capiPath1]

theorem capiPath_start : TradStart capiPath symOwn := by
  refine ⟨⟨by decide, ?_⟩, by decide, ?_, ?_⟩
  · intro p hp
    have h1 : p = 0 ∨ p = 1 := by simp [capiPath] at hp; omega
    rcases h1 with rfl | rfl
    · exact (by decide : ∀ v ∈ ([1, 2] : List Int), symOwn v = 0)
    · exact (by decide : ∀ v ∈ ([3] : List Int), symOwn v = 1)
  · intro i hi
    simp only [capiPath, List.mem_cons, List.not_mem_nil, or_false] at hi
    rcases hi with rfl | rfl
    · exact ⟨_, rfl, rfl, .inr rfl⟩
    · exact ⟨_, rfl, rfl, .inr rfl⟩
  · intro i hi e he x hx
    simp only [capiPath, List.mem_cons, List.not_mem_nil, or_false] at hi
    rcases hi with rfl | rfl
    · simp only [capiPath0, List.mem_cons, List.not_mem_nil, or_false] at he
      subst he
      simp only [List.mem_cons, List.not_mem_nil, or_false] at hx
      rcases hx with rfl | rfl | rfl
      · exact ⟨1, by decide, 2, by decide, by decide, rfl⟩
      · exact ⟨2, by decide, 1, by decide, by decide, rfl⟩
      · exact ⟨2, by decide, 3, by decide, by decide, rfl⟩
    · simp only [capiPath1, List.mem_cons, List.not_mem_nil, or_false] at he
      subst he
      simp only [List.mem_cons, List.not_mem_nil, or_false] at hx
      subst hx
      exact ⟨3, by decide, 2, by decide, by decide, rfl⟩

def capiPathArg0 : CArgs :=
  { isHg := false, verts := Mem.ofList [1, 2], wgts := Mem.ofList [1, 1, 5], nverts := 2, edges := [⟨Mem.ofList [0, 1, 2], Mem.ofList [2, 2, 2], Mem.ofList [1, 1, 1], Mem.ofList [1, 2, 2, 1, 2, 3], 3, 6⟩], ghosts := Mem.ofList [3], owners := Mem.ofList [1], nghosts := 1 }
def capiPathArg1 : CArgs :=
  { isHg := false, verts := Mem.ofList [3], wgts := Mem.ofList [2], nverts := 1, edges := [⟨Mem.ofList [0], Mem.ofList [2], Mem.ofList [1], Mem.ofList [3, 2], 1, 2⟩], ghosts := Mem.ofList [2], owners := Mem.ofList [0], nghosts := 1 }
def capiPathArgs : List CArgs := [capiPathArg0, capiPathArg1]

theorem capiPathArgs_says : ∀ p (hp : p < capiPathArgs.length) (hp' : p < capiPath.length), capiPathArgs[p].Says capiPath[p] symOwn := by
  intro p hp hp'
  have h1 : p = 0 ∨ p = 1 := by simp [capiPath] at hp'; omega
  rcases h1 with rfl | rfl
  · show capiPathArg0.Says capiPath0 symOwn
    refine ⟨rfl, rfl, by decide +kernel, rfl, by decide +kernel, rfl, ?_, ⟨[3], rfl, by decide +kernel, by decide +kernel, by decide +kernel⟩⟩
    intro t ht ht'
    have : t = 0 := by simp [capiPathArg0] at ht; exact ht
    subst this
    refine ⟨rfl, rfl, rfl, rfl, ?_, ?_, ?_, ?_⟩
    all_goals (decide +revert +kernel)
  · show capiPathArg1.Says capiPath1 symOwn
    refine ⟨rfl, rfl, by decide +kernel, rfl, by decide +kernel, rfl, ?_, ⟨[2], rfl, by decide +kernel, by decide +kernel, by decide +kernel⟩⟩
    intro t ht ht'
    have : t = 0 := by simp [capiPathArg1] at ht; exact ht
    subst this
    refine ⟨rfl, rfl, rfl, rfl, ?_, ?_, ?_, ?_⟩
    all_goals (decide +revert +kernel)

theorem capiPath_rounds : RoundsOk (allVerts capiPath) capiPath.length false symOwn [symMove] := by
  refine ⟨⟨?_, sampleEnv_ok _⟩, trivial⟩
  intro p hp v d hv
  have h1 : p = 0 ∨ p = 1 := by simp [capiPath] at hp; omega
  rcases h1 with rfl | rfl
  · simp [symMove] at hv
    rcases hv with ⟨rfl, rfl⟩ | ⟨rfl, rfl⟩ <;> decide
  · simp [symMove] at hv
    obtain ⟨rfl, rfl⟩ := hv
    decide

/-- the two parts exchange their vertices -/
example :=
  c65_trad_partial capiPath_start orders_two.1 orders_two.2 rfl capiPathArgs_says [symMove] capiPath_rounds
    (by decide +kernel) orders_two.1

end Verif.Agi
