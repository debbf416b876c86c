import Verif.Pcu.WholeModel
import Verif.Pcu.SeqProps
import Verif.Pcu.PhaseProps
/-! # C78: which programs are legal -/
namespace Verif.Pcu.Whole

variable {α V : Type}

/-- after `k` calls: is a phase open? -/
def openAt (J : Nat → Entry V) : Nat → Bool
  | 0 => false
  | k + 1 =>
    match (J k).role with
    | .start => true
    | .stop => false
    | .user => openAt J k

/-- number of phases begun by the first `k` calls -/
def starts (J : Nat → Entry V) : Nat → Nat
  | 0 => 0
  | k + 1 => if (J k).role = .start then starts J k + 1 else starts J k

/-- The program is legal: phases are begun when none is open, and ended; the barriers of phases are allreduces (of nothing). -/
structure Script (J : Nat → Entry V) (K : Nat) : Prop where
  start : ∀ k, k < K → (J k).role = .start → openAt J k = false
  stop : ∀ k, k < K → (J k).role = .stop → openAt J k = true
  closed : openAt J K = false
  barrier : ∀ k, k < K → (J k).role ≠ .user → (J k).what = .allreduce

/-- operations of the user's collectives: associative, and for scans commutative -/
def OpsOk (J : Nat → Entry V) (K : Nat) : Prop :=
  ∀ k, k < K → (∀ x y z, (J k).op ((J k).op x y) z = (J k).op x ((J k).op y z)) ∧
    ((J k).what = .scan → ∀ x y, (J k).op x y = (J k).op y x)

/-- `P k r` is the communication the code performs on rank `r` for call `k` -/
def JobRuns (J : Nat → Entry V) (N K : Nat) (P : Nat → Nat → List Coll.Instr) : Prop :=
  ∀ k, k < K → Coll.Runs (Seq.progOf (J k).what) N (P k)

/-- every rank has made all its calls -/
def Finished (N : Nat) (st : State α V) : Prop := ∀ r, r < N → (st.coll r).prog = []

end Verif.Pcu.Whole
