import Verif.Part.SelectModel
import Verif.Agi.WMigModel
/-!
# Model of weight diffusion: partition/Diffusive/src/engpar_weightSelector.cpp and engpar_weightBalancer.cpp
-/
namespace Verif.Part
open Verif.Agi

/-- the body of the loop of `getWeightCavity`, engpar_weightSelector.cpp:13-18; the state is the vertex of the part
(NULL at first) and the set of the others -/
def wCavityBody (g : Graph) (x : Option Handle × List Handle) (v : Handle) :
    Outcome ((Option Handle × List Handle) × Bool) := do
  let o ← g.owner v
  if o = g.self then return ((some v, x.2), false) else return ((x.1, insertSet x.2 v), false)

/-- `getWeightCavity`, engpar_weightSelector.cpp:9-22 -/
def weightCavity (g : Graph) (e : Handle) : Outcome (Option Handle × List Handle) := do
  let it ← g.pins e
  iterLoop g.iterPin (wCavityBody g) g.bound it (none, [])

/-- a `double` rounded towards zero -/
def truncQ (x : Rat) : Int := if 0 ≤ x then x.floor else -(-x).floor

/-- conversion of a `double` to `int`: out of range is undefined behaviour -/
def toInt32 (x : Rat) : Outcome Int :=
  if -2147483648 ≤ truncQ x ∧ truncQ x ≤ 2147483647 then .ok (truncQ x) else .ub

/-- the state of a `WeightSelector` with the plan and the planned weight; `sending` and `vSending` read 0 where there is
no entry -/
structure WSel where
  q : Queue
  sending : Part → Rat
  vSending : Handle → Rat
  plan : WPlan
  planW : Rat

/-- `m[k] = v` -/
def setV (m : Handle → Rat) (k : Handle) (v : Rat) : Handle → Rat := fun x => if x = k then v else m x

/-- the amount, engpar_weightSelector.cpp:40-42; `w` is what the vertex has left, `n` the size of the cavity, `room` what
the part still wants -/
def wAmount (w : Rat) (n : Nat) (room : Rat) : Outcome Int := do
  let x ← toInt32 (w * (1 / 10) / (n : Rat))
  if room < (x : Rat) then toInt32 room else return x

/-- one vertex of the cavity, engpar_weightSelector.cpp:38-49 -/
def wSendTo (g : Graph) (targets : Cont Rat) (mine : Handle) (w : Rat) (n : Nat) (s : WSel) (u : Handle) :
    Outcome WSel := do
  let o ← g.owner u
  if targets.has o = true ∧ s.sending o < targets.get o then do
    let x ← wAmount w n (targets.get o - s.sending o)
    return ⟨s.q, setAt s.sending o (s.sending o + (x : Rat)), setV s.vSending mine (s.vSending mine + (x : Rat)), WPlan.insert mine u (x : Rat) s.plan, s.planW + (x : Rat)⟩
  else return s

/-- one edge of the queue, engpar_weightSelector.cpp:32-51; an edge without a vertex of the part asks for the weight of
NULL -/
def wSelectEdge (ord : HashOrd) (g : Graph) (targets : Cont Rat) (s : WSel) (e : Handle) : Outcome WSel := do
  let (mine, cav) ← weightCavity g e
  match mine with
  | none => .ub
  | some m => do
    let x ← g.weight m
    let s ← (ord.verts cav).foldlM (wSendTo g targets m (x - s.vSending m) cav.length) s
    let q ← s.q.add e
    return { s with q := q }

/-- the loop over the queue, engpar_weightSelector.cpp:30-52 -/
def wSelectFrom (ord : HashOrd) (g : Graph) (targets : Cont Rat) : Nat → Nat → WSel → Outcome WSel
  | 0, _, s => .ok s
  | n + 1, i, s =>
    if targets.total < s.planW then .ok s
    else do
      let e ← s.q.get i
      let s ← wSelectEdge ord g targets s e
      wSelectFrom ord g targets n (i + 1) s

/-- `WeightSelector::select`, engpar_weightSelector.cpp:24-54 -/
def wSelect (ord : HashOrd) (g : Graph) (targets : Cont Rat) (s : WSel) : Outcome WSel :=
  wSelectFrom ord g targets s.q.start.size 0 { s with q := s.q.start }

/-- the calls of `select`, engpar_weightBalancer.cpp:86-92: at most `n` (10 there), until one adds less than 0.00001 -/
def wSelects (ord : HashOrd) (g : Graph) (targets : Cont Rat) : Nat → WSel → Outcome WSel
  | 0, s => .ok s
  | n + 1, s => do
    let s' ← wSelect ord g targets s
    if s'.planW - s.planW < 1 / 100000 then return s' else wSelects ord g targets n s'

/-- the planning of a step of the weight balancer, engpar_weightBalancer.cpp:78-92 -/
def weightPlan (ord : HashOrd) (g : Graph) (targets : Cont Rat) (n : Nat) : Outcome WSel := do
  let q ← iterationQueue g
  wSelects ord g targets n ⟨q, fun _ => 0, fun _ => 0, [], 0⟩

/-- the entries of a plan: from, to, amount -/
def planEntries (p : WPlan) : List (Handle × Handle × Rat) := p.flatMap (fun x => x.2.map (fun y => (x.1, y.1, y.2)))

/-! ## `simplifyPlan` -/

/-- the inner loop, engpar_weightBalancer.cpp:24-29: `erase` returns the next entry -/
def eraseLoop : List (Gid × Rat) → List (Gid × Rat)
  | [] => []
  | x :: l => if x.2 ≤ 0 then eraseLoop l else x :: eraseLoop l

/-- `simplifyPlan`, engpar_weightBalancer.cpp:19-31, on the recorded movements of weight -/
def simplifyPlan (m : List (Gid × List (Gid × Rat))) : List (Gid × List (Gid × Rat)) :=
  m.map (fun x => (x.1, eraseLoop x.2))

end Verif.Part
