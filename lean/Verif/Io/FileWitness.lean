import Verif.Io.FileProps
/-!
# C23: concrete cases of the theorems, and where a file loses data
-/
namespace Verif.Io
open Verif.Agi

/-- a codec exact on the natural numbers below 2^64 -/
def natCodec : Codec := ⟨fun w => w.num.toNat, fun n => (n : Rat)⟩

/-! ## the hypotheses are met -/

def sampleCo : Gid → Coord := fun v => if v = 1 then (1, 2, 3) else (4, 5, 6)

/-- hypergraph on two parts, with coordinates -/
theorem sampleFits : FileFits natCodec [⟨100, [1, 2], 1⟩, ⟨101, [1], 1⟩, ⟨102, [2, 3], 1⟩] sampleWorld (some sampleCo) := by
  refine ⟨by decide, by decide, by unfold U32; decide, ?_, ?_, by decide, by decide, ?_⟩
  · unfold Codec.Exact; decide +kernel
  · unfold Codec.Exact U32; decide +kernel
  · intro f hf
    rw [← Option.some.inj hf]
    unfold Codec.Exact; decide +kernel

theorem sampleRounds_ok : RoundsOk (allVerts sampleWorld) sampleWorld.length true sampleOwn sampleRounds := by
  refine ⟨⟨?_, sampleEnv_ok _⟩, ⟨?_, sampleEnv_ok _⟩, trivial⟩
  · intro p hp v d hv
    have h1 : p = 0 ∨ p = 1 := by simp [sampleWorld] at hp; omega
    rcases h1 with rfl | rfl
    · simp at hv
    · simp at hv
      obtain ⟨rfl, rfl⟩ := hv
      decide
  · intro p hp v d hv
    have h1 : p = 0 ∨ p = 1 := by simp [sampleWorld] at hp; omega
    rcases h1 with rfl | rfl
    · simp at hv
      have : (v = 1 ∧ d = 0) ∨ (v = 2 ∧ d = 1) ∨ (v = 1 ∧ d = 1) := by omega
      rcases this with ⟨rfl, rfl⟩ | ⟨rfl, rfl⟩ | ⟨rfl, rfl⟩ <;> decide
    · simp at hv
      obtain ⟨rfl, rfl⟩ := hv
      decide

example : ∃ gs0 gs files gs', setupAll sampleWorld (some sampleCo) sampleOwns twoOrder flipOrder = .ok gs0 ∧
    migrateRounds gs0 sampleRounds = .ok gs ∧ saveFiles natCodec true List.reverse gs = .ok files ∧
    loadFiles natCodec false files flipOrder twoOrder = .ok gs' ∧ gs.length = 2 ∧ gs'.length = 2 ∧
    ∀ p (h : p < gs.length) (h' : p < gs'.length), Same gs[p] gs'[p] :=
  c23_after_migration_partial (co := some sampleCo) sampleStart sampleRounds sampleRounds_ok sampleFits List.reverse List.reverse_perm true false
    orders_two.2 orders_two.1

/-- a traditional graph on two parts, two types, the edges not sorted by source -/
def fileT : List Input :=
  [⟨false, [1], [], [⟨[0], [[1, 2]], [7]⟩, ⟨[], [], []⟩]⟩,
   ⟨false, [2, 3], [2, 4], [⟨[0, 1, 2], [[3, 2], [2, 1], [3, 1]], [1, 2, 3]⟩, ⟨[0], [[2, 3]], []⟩]⟩]

theorem fileT_dist : Dist fileT sampleOwn := by
  refine ⟨?_, ?_, ?_⟩
  · intro i hi
    simp only [fileT, List.mem_cons, List.not_mem_nil, or_false] at hi
    rcases hi with rfl | rfl
    · refine ⟨by decide, by decide, ?_⟩
      intro e he
      simp only [List.mem_cons, List.not_mem_nil, or_false] at he
      rcases he with rfl | rfl
      · exact ⟨rfl, .inr rfl, by decide⟩
      · exact ⟨rfl, .inl rfl, by decide⟩
    · refine ⟨by decide, by decide, ?_⟩
      intro e he
      simp only [List.mem_cons, List.not_mem_nil, or_false] at he
      rcases he with rfl | rfl
      · exact ⟨rfl, .inr rfl, by decide⟩
      · exact ⟨rfl, .inl rfl, by decide⟩
  · intro p hp
    have h1 : p = 0 ∨ p = 1 := by simp [fileT] at hp; omega
    have h2 : ∀ v ∈ (fileT[0]'(by decide)).verts, sampleOwn v = 0 := by decide
    have h3 : ∀ v ∈ (fileT[1]'(by decide)).verts, sampleOwn v = 1 := by decide
    rcases h1 with rfl | rfl
    · exact h2
    · exact h3
  · intro p hp
    have h1 : p = 0 ∨ p = 1 := by simp [fileT] at hp; omega
    have h2 : ∀ v ∈ (fileT[0]'(by decide)).allPins, ∃ h' : sampleOwn v < fileT.length, v ∈ fileT[sampleOwn v].verts := by decide
    have h3 : ∀ v ∈ (fileT[1]'(by decide)).allPins, ∃ h' : sampleOwn v < fileT.length, v ∈ fileT[sampleOwn v].verts := by decide
    rcases h1 with rfl | rfl
    · exact h2
    · exact h3

theorem fileT_ok : FileOk natCodec fileT none := by
  refine ⟨by decide, ?_, ?_, by decide, by simp⟩
  · unfold Codec.Exact U32; decide +kernel
  · unfold Codec.Exact U32; decide +kernel

theorem fileT_sources : ∀ i ∈ fileT, SourcesLocal i := by
  intro i hi e he x hx
  simp only [fileT, List.mem_cons, List.not_mem_nil, or_false] at hi
  rcases hi with rfl | rfl
  · simp only [List.mem_cons, List.not_mem_nil, or_false] at he
    rcases he with rfl | rfl
    · simp at hx; exact ⟨1, by decide, 2, by decide, hx⟩
    · simp at hx
  · simp only [List.mem_cons, List.not_mem_nil, or_false] at he
    rcases he with rfl | rfl
    · simp at hx
      rcases hx with rfl | rfl | rfl
      · exact ⟨3, by decide, 2, by decide, rfl⟩
      · exact ⟨2, by decide, 1, by decide, rfl⟩
      · exact ⟨3, by decide, 1, by decide, rfl⟩
    · simp at hx; exact ⟨2, by decide, 3, by decide, hx⟩

example : ∃ gs files gs', setupAll fileT none sampleOwns twoOrder flipOrder = .ok gs ∧
    saveFiles natCodec false id gs = .ok files ∧ loadFiles natCodec true files twoOrder twoOrder = .ok gs' ∧
    gs.length = 2 ∧ gs'.length = 2 ∧
    ∀ p (h : p < gs.length) (h' : p < gs'.length), Same gs[p] gs'[p] ∧
      ∀ t, t < 2 → Agree (gs[p].numGlobalPins t) (gs'[p].numGlobalPins t) :=
  c23_roundtrip_partial (hyper := false) (T := 2) fileT_dist
    ⟨by decide, by decide⟩
    ⟨rfl, by
      intro p hp h' v _ _
      have h1 : p = 0 ∨ p = 1 := by simp [fileT] at hp; omega
      rcases h1 with rfl | rfl <;> rfl⟩
    orders_two.1 orders_two.2 (fun _ => fileT_sources) fileT_ok id (fun l => List.Perm.refl l) false true orders_two.1 orders_two.1

/-! ## what a file loses -/

def bigWorld : List Input := [⟨true, [4294967301, 7], [], [⟨[0], [[4294967301, 7]], []⟩]⟩]
def oneOrd : Nat → List Nat := fun _ => [0]

/-- the gids seen after saving and loading -/
def gidsAfter (ins : List Input) : Outcome (List Gid × List Gid) := do
  let gs ← setupAll ins none [GMap.empty] oneOrd oneOrd
  let files ← saveFiles natCodec true id gs
  let gs' ← loadFiles natCodec true files oneOrd oneOrd
  let g ← rd gs 0
  let g' ← rd gs' 0
  let a ← g.localGids
  let b ← g'.localGids
  return (a, b)

/-- ids of 2^32 or more come back changed (they are written as `unsigned`, agi/agiIO.cpp:60) -/
theorem c23_big_ids_lost : gidsAfter bigWorld = .ok ([4294967301, 7], [5, 7]) := by decide +kernel

def clashWorld : List Input := [⟨true, [4294967303, 7], [], [⟨[0], [[4294967303, 7]], []⟩]⟩]

/-- … so that two vertices may become one id -/
theorem c23_big_ids_clash : gidsAfter clashWorld = .ok ([4294967303, 7], [7, 7]) := by decide +kernel

/-- the original owners of the vertices after saving and loading -/
def origAfter (ins : List Input) (v : Gid) : Outcome (Outcome Part × Outcome Part) := do
  let gs ← setupAll ins none [GMap.empty] oneOrd oneOrd
  let files ← saveFiles natCodec true id gs
  let gs' ← loadFiles natCodec true files oneOrd oneOrd
  let g ← rd gs 0
  let g' ← rd gs' 0
  return (g.origG v, g'.origG v)

/-- the original owners are not in the file: asking a loaded graph fails -/
theorem c23_original_owners_lost :
    origAfter [⟨true, [1, 2], [], [⟨[0], [[1, 2]], []⟩]⟩] 1 = .ok (.ok 0, .fail) := by decide +kernel

/-- a traditional graph with a self-loop cannot be written: the second pin of the self-loop is never delivered
(agi/agiIO.cpp:97-102 dereferences a null vertex) -/
theorem c23_self_loop_ub : (do
    let gs ← setupAll [⟨false, [1, 2], [], [⟨[0, 1], [[1, 2], [2, 2]], []⟩]⟩] none [GMap.empty] oneOrd oneOrd
    saveFiles natCodec true id gs) = .ub := by decide +kernel

end Verif.Io
