import Verif.Part.WBalModel
import Verif.Part.WSelProps
/-!
# C58: specification of weight diffusion

A transfer `(v, u, k)` takes the amount `k` from vertex `v` and gives it to the part of vertex `u`.  `L p` are the transfers
of part `p` in one step.
-/
namespace Verif.Part
open Verif.Agi

/-- the transfers of a step: per part -/
abbrev Transfers := Nat → List (Gid × Gid × Nat)

/-- what part `p` hands over -/
def sentBy (L : Transfers) (p : Nat) : Rat := moved (L p) (fun _ _ => True)

/-- what part `p` of `n` gets from all parts -/
def gotBy (own : Gid → Nat) (n : Nat) (L : Transfers) (p : Nat) : Rat :=
  ((List.range n).map (fun q => moved (L q) (fun _ b => own b = p))).sum

/-- the weight of part `p` at first -/
def startLoad (ins : List Input) (own : Gid → Nat) (p : Nat) : Rat :=
  (((ins.getD p ⟨true, [], [], []⟩).verts).map (weightOf ins own)).sum

/-- the weight of part `p` after some steps -/
def loadAfter (ins : List Input) (own : Gid → Nat) (ts : List Transfers) (p : Nat) : Rat :=
  startLoad ins own p + (ts.map (fun L => gotBy own ins.length L p - sentBy L p)).sum

/-- the transfers of one step, `W` being the weights of the parts before it: each goes from a vertex of the part to a
vertex of a lighter part over a common hyperedge of type 0, and a part hands to another at most the fraction `sf` of the
difference of their weights -/
structure FairStep (H : List (List HEdge)) (ins : List Input) (own : Gid → Nat) (sf : Rat) (W : Nat → Rat) (L : Transfers) :
    Prop where
  between : ∀ p (hp : p < ins.length), ∀ x ∈ L p, x.1 ∈ ins[p].verts ∧ own x.2.1 ≠ p ∧
    ∃ e ∈ H.getD 0 [], x.1 ∈ e.pins ∧ x.2.1 ∈ e.pins
  downhill : ∀ p, p < ins.length → ∀ x ∈ L p, W (own x.2.1) < W p
  bounded : ∀ p q, p < ins.length → q < ins.length → q ≠ p →
    moved (L p) (fun _ b => own b = q) ≤ max 0 (sf * (W p - W q))

/-- the weight of vertex `v` after some steps: it loses what it hands over, and the last vertex of a part gets everything
that arrives at the part -/
def weightAfter (ins : List Input) (own : Gid → Nat) (ts : List Transfers) (v : Gid) : Rat :=
  weightOf ins own v + (ts.map (fun L =>
    (if (ins.getD (own v) ⟨true, [], [], []⟩).verts.getLast? = some v then gotBy own ins.length L (own v) else 0) -
      moved (L (own v)) (fun a _ => a = v))).sum

/-- the net amount that went from `a` to `b` in some steps -/
def netFlow (own : Gid → Nat) (ts : List Transfers) (a b : Gid) : Rat :=
  (ts.map (fun L => moved (L (own a)) (fun x y => x = a ∧ y = b) - moved (L (own b)) (fun x y => x = b ∧ y = a))).sum

/-- messages arrive in some order and hash tables are iterated in some order -/
structure WStepEnv.Ok (n : Nat) (env : WStepEnv) : Prop where
  weights : Orders n env.weights
  sides : ∀ p l, (env.sides p l).Perm l
  hash : ∀ p, (env.hash p).Ok
  mig : Orders n env.mig

/-- what a part handed over according to the record: the recorded amounts of its vertices, added -/
def recordedOut (ins : List Input) (r : Nat → WpMap) (p : Nat) : Rat :=
  ((ins.getD p ⟨true, [], [], []⟩).verts.map (fun a => ((allVerts ins).map (fun b => r p a b)).sum)).sum

/-- what a part got according to the records of the others -/
def recordedIn (ins : List Input) (own : Gid → Nat) (r : Nat → WpMap) (p : Nat) : Rat :=
  ((ins.getD p ⟨true, [], [], []⟩).verts.map (fun a => ((allVerts ins).map (fun b => r (own b) b a)).sum)).sum

end Verif.Part
