import Verif.Pcu.PhaseModel
/-! # Specification for C28: what one communication phase owes its users -/
namespace Verif.Pcu.Phase

variable {α : Type}

/-- the pieces rank `s` packed for rank `d` in phase `p`, in order -/
def pieces (st : State α) (s d p : Nat) : List (List α) :=
  (st.packs.filter (fun k => k.src = s ∧ k.dst = d ∧ k.phase = p)).map (·.data)

/-- `m` is the message rank `m.src` owes rank `m.dst` in phase `m.phase`: everything packed, in order -/
def Owed (N : Nat) (st : State α) (m : Msg α) : Prop :=
  m.src < N ∧ m.dst < N ∧ pieces st m.src m.dst m.phase ≠ [] ∧
    m.data = (pieces st m.src m.dst m.phase).flatten

/-- the messages the receive loop of rank `r` has returned in phase `p` -/
def received (st : State α) (r p : Nat) : List (Msg α) :=
  (st.got.filter (fun d => d.rank = r ∧ d.phase = p)).map (·.msg)

/-- rank `r`'s receive loop of phase `p` has returned false -/
def Ended (st : State α) (r p : Nat) : Prop :=
  p < (st.rank r).phase ∨ (p = (st.rank r).phase ∧ (st.rank r).mode = .idle)

/-- rank `r` has called `PCU_Comm_Send` in phase `p` -/
def SendCalled (st : State α) (r p : Nat) : Prop :=
  p < (st.rank r).phase ∨
    (p = (st.rank r).phase ∧ (st.rank r).mode ≠ .starting ∧ (st.rank r).mode ≠ .pack)

/-- the whole job has run its `K` phases -/
def AllDone (N K : Nat) (st : State α) : Prop :=
  ∀ r, r < N → (st.rank r).phase = K ∧ (st.rank r).mode = .idle

end Verif.Pcu.Phase
