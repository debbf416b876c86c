import Verif.Pcu.StoreModel
/-!
# What C85 asks of the memory of message passing
-/
namespace Verif.Pcu.Store

/-- the calls a program may make: it does not take the library down while messages it has sent are under way, it asks for data only while a
message is being delivered (C29 is about the calls that break this), and no rank sends two messages in a phase (C28) -/
def Allowed (s : St) : Call → Prop
  | .free => s.mode ≠ .exch ∨ s.peers = []
  | .unpack _ => ∀ o, s.order = some o → o.ready = true
  | .sender => ∀ o, s.order = some o → o.ready = true
  | .received => ∀ o, s.order = some o → o.ready = true
  | .listen arr => (arr.map Prod.fst).Nodup
  | _ => True

/-- every call of the history is allowed when it is made -/
def Legal (P : Nat) (cs : List Call) : Prop := ∀ pre c post, cs = pre ++ c :: post → ∀ s, run P pre = .ok s → Allowed s c

/-- between phases, with nothing left to deliver -/
def Quiet (s : St) : Prop := s.mode = .idle ∧ ∀ o, s.order = some o → o.ready = false

/-- the bytes allocated -/
def bytes (s : St) : Nat := (s.heap.live.map Prod.snd).sum

end Verif.Pcu.Store
