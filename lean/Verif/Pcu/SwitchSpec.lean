import Verif.Pcu.SwitchModel
import Verif.Pcu.WholeSpec
/-! # C81: which jobs are legal -/
namespace Verif.Pcu.Switch

variable {α V : Type}

/-- `G` processes, `S` stays -/
structure Legal (W : Job V) (G S : Nat) : Prop where
  /-- the ranks of a communicator are different processes of the job -/
  proc : ∀ s, s < S → ∀ r, r < (W.segs s).size → (W.segs s).who r < G
  distinct : ∀ s, s < S → ∀ r q, r < (W.segs s).size → q < (W.segs s).size → (W.segs s).who r = (W.segs s).who q → r = q
  /-- a process stays on the communicators it belongs to -/
  member : ∀ g s, s ∈ W.plan g ↔ (s < S ∧ ∃ r, r < (W.segs s).size ∧ (W.segs s).who r = g)
  /-- what runs on each is a legal program -/
  script : ∀ s, s < S → Whole.Script (W.segs s).calls (W.segs s).len
  runs : ∀ s, s < S → Whole.JobRuns (W.segs s).calls (W.segs s).size (W.segs s).len (W.segs s).comm

/-- all processes make their stays in an order that is the same for all -/
def Ordered (W : Job V) (G : Nat) : Prop := ∃ time : Nat → Nat, ∀ g, g < G → (W.plan g).Pairwise (fun a b => time a < time b)

/-- each process makes a stay once -/
def Once (W : Job V) (G : Nat) : Prop := ∀ g, g < G → (W.plan g).Nodup

/-- process `g` has been on the communicator of `s`, is not any more -/
def Left (W : Job V) (st : State α V) (g s : Nat) : Prop := s ∈ W.plan g ∧ Closed st g s

/-- process `g` has had the communicator of `s` -/
def Entered (W : Job V) (st : State α V) (g s : Nat) : Prop :=
  s ∈ W.plan g ∧ (s ∉ st.todo g ∨ ((st.todo g).head? = some s ∧ st.stage g ≠ .arriving))

/-- all processes have made all their stays -/
def Done (G : Nat) (st : State α V) : Prop := ∀ g, g < G → st.todo g = []

/-- no message packed so far or from now on is different -/
def SamePacks (a b : State α V) : Prop := ∀ s, (b.seg s).user.packs = (a.seg s).user.packs

end Verif.Pcu.Switch
