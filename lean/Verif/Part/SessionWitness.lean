import Verif.Part.SessionProps
import Verif.Part.SplitWitness
import Verif.Part.PwWitness
import Verif.Io.FileWitness
/-!
# C76: a concrete session
-/
namespace Verif.Part
open Verif.Agi

/-- before the original owners are recorded for the last time: a migration, both ways of balancing, a save and load -/
def sessionA : List Call :=
  [.migrate ⟨fun p => if p = 1 then [.insert 1 0] else [], sampleEnv⟩, .balance defaultPar (fun _ => sampleStepEnv) (defaultIn [-1, 0]),
   .reset, .balanceParts defaultPar samplePwEnv (defaultIn [-1, 0]), .reload Io.natCodec List.reverse true true flipOrder twoOrder]

/-- then: the parts become the ranks 0 and 2 of four -/
def sessionB : List Call := [.split 4 [0, 2] .globalParmetis splitSample dealer]

theorem chain_fits : Io.FitsG Io.natCodec (startG chainEdges chain chainOwn none) 2 := by
  refine ⟨by decide, by decide, by unfold Io.U32; decide, by unfold Io.Codec.Exact; decide +kernel,
    by unfold Io.U32 Io.Codec.Exact; decide +kernel, by decide, by decide, ?_⟩
  intro f hf
  cases hf

/-- the session is one of those C76 is about -/
theorem session_sample (gs0 : List Graph) (e : setupAll chain none chainOwns twoOrder flipOrder = .ok gs0) :
    Session (startG chainEdges chain chainOwn none) gs0 (sessionA ++ sessionB) := by
  obtain ⟨gs0', e', h0⟩ := start_holds chain_start none
  rw [e] at e'
  injection e' with e'
  subst e'
  have hh0 := (chain_start.wf none).own
  have two : ∀ {own home : Gid → Nat} {gs : List Graph},
      HoldsG (withOO (startG chainEdges chain chainOwn none) (fun v => (home v : Int))) 2 own gs → gs.length = 2 :=
    fun h => holds_length h
  have step : ∀ {c : Call} {cs : List Call} {own home : Gid → Nat} {gs : List Graph}, c.parts 2 = 2 →
      HoldsG (withOO (startG chainEdges chain chainOwn none) (fun v => (home v : Int))) 2 own gs →
      (∀ v ∈ (startG chainEdges chain chainOwn none).verts, home v < 2) → c.Legal (startG chainEdges chain chainOwn none) gs →
      (∀ {own' home' : Gid → Nat} {gs' : List Graph},
        HoldsG (withOO (startG chainEdges chain chainOwn none) (fun v => (home' v : Int))) 2 own' gs' →
        (∀ v ∈ (startG chainEdges chain chainOwn none).verts, home' v < 2) →
        Session (startG chainEdges chain chainOwn none) gs' cs) →
      Session (startG chainEdges chain chainOwn none) gs (c :: cs) := by
    intro c cs own home gs hp h hh hc k
    refine ⟨hc, fun gs' er => ?_⟩
    obtain ⟨gs1, own', home', e1, h1, hh1, -⟩ := call_step h hh hc
    rw [er] at e1
    injection e1 with e1
    subst e1
    rw [hp] at h1 hh1
    exact k h1 hh1
  refine step rfl h0 hh0 ?_ ?_
  · have hl : gs0.length = 2 := two h0
    refine ⟨?_, by rw [hl]; exact sampleEnv_ok _⟩
    rw [hl]
    intro p hp v d hv
    by_cases h1 : p = 1
    · simp only [h1, if_true, List.mem_singleton, GOp.insert.injEq] at hv
      obtain ⟨rfl, rfl⟩ := hv
      subst h1
      exact ⟨(part_has_iff h0).mpr ⟨by decide, rfl⟩, by decide, by decide⟩
    · simp [h1] at hv
  intro own1 home1 gs1 h1 hh1
  refine step rfl h1 hh1 ?_ ?_
  · refine ⟨defaultPar_ok, fun _ => ?_, chain_weighable, fun _ => chain_noIsland⟩
    rw [two h1]; exact sampleStepEnv_ok _
  intro own1 home1 gs1 h1 hh1
  refine step rfl h1 hh1 trivial ?_
  intro own1 home1 gs1 h1 hh1
  refine step rfl h1 hh1 ?_ ?_
  · refine ⟨defaultPar_ok, fun k => ?_, fun k => ?_, chain_weighable, fun _ => chain_noIsland, ?_⟩
    · rw [two h1]; exact samplePwEnv_ok _ k
    · rw [two h1]; exact samplePwStart_ok
    · rw [two h1]; decide +kernel
  intro own1 home1 gs1 h1 hh1
  refine step rfl h1 hh1 ?_ ?_
  · refine ⟨?_, fun l => List.reverse_perm l, ?_, ?_⟩
    · rw [two h1]; exact chain_fits
    · rw [two h1]; exact orders_two.2
    · rw [two h1]; exact orders_two.1
  intro own1 home1 gs1 h1 hh1
  refine ⟨⟨?_, dealer_ok⟩, fun _ _ => trivial⟩
  rw [two h1]; exact splitSample_ok _ _

/-- the hypotheses of `c76_session_partial` are met: `sessionA` ends with a load, and the split after it records nothing -/
example : Start chainEdges chain chainOwn chainOwns twoOrder flipOrder ∧
    (∀ gs0, setupAll chain none chainOwns twoOrder flipOrder = .ok gs0 →
      Session (startG chainEdges chain chainOwn none) gs0 (sessionA ++ sessionB)) ∧
    (∀ c, sessionA.getLast? = some c → c.Records = true) ∧ ∀ c ∈ sessionB, c.Records = false := by
  refine ⟨chain_start, session_sample, ?_, ?_⟩
  · intro c hc
    simp only [sessionA, List.getLast?_cons_cons, List.getLast?_singleton, Option.some.injEq] at hc
    subst hc; rfl
  · intro c hc
    simp only [sessionB, List.mem_singleton] at hc
    subst hc; rfl

/-- the hypothesis of `c76_call_partial` is met: the split after all of `sessionA` -/
example : ∀ gs0, setupAll chain none chainOwns twoOrder flipOrder = .ok gs0 →
    Session (startG chainEdges chain chainOwn none) gs0
      (sessionA ++ [.split 4 [0, 2] .globalParmetis splitSample dealer]) := session_sample

/-- the vertices of every part and their original owners -/
def sessionShow (cs : List Call) : Outcome (List (List Gid × List Part)) := do
  let gs ← setupAll chain none chainOwns twoOrder flipOrder
  let gs ← runCalls gs cs
  gs.mapM (fun g => do
    let vs ← g.localGids
    let os ← vs.mapM g.origG
    return (vs, os))

/-- the migration and the balancing bring vertices 1 and 2 to part 0; after the load the parts where they are are their
original owners; the split deals them to the four ranks -/
example : sessionShow (sessionA.take 2) = .ok [([0, 1, 2], [0, 1, 1]), ([3, 4, 5], [1, 1, 1])] ∧
    sessionShow sessionA = .ok [([0, 1, 2], [0, 0, 0]), ([3, 4, 5], [1, 1, 1])] ∧
    sessionShow (sessionA ++ sessionB) = .ok [([5], [1]), ([0], [0]), ([3, 1], [1, 0]), ([2, 4], [0, 1])] := by
  decide +kernel

end Verif.Part
