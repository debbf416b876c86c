import Verif.Part.MetricsModel
import Verif.Agi.DistModel
import Verif.Agi.PlanModel
/-!
# Model of the negotiation of a plan: `trim` and `cancel`, partition/Diffusive/src/engpar_selector.cpp

All line numbers are of that file.  `dims` are the completed dimensions (-1: vertices, otherwise an edge type),
`limits` the completed weights.  An `unordered_set` of edges is the list of its elements in order of insertion:
only membership and exact sums are looked at.
-/
namespace Verif.Part
open Verif.Agi

/-- `set.insert(e)` -/
def insertSet {α : Type} [DecidableEq α] (s : List α) (e : α) : List α := if e ∈ s then s else s ++ [e]

/-- `m[k] = v` in a map whose missing entries read as their default -/
def setAt {α : Type} (m : Int → α) (k : Int) (v : α) : Int → α := fun x => if x = k then v else m x

/-- the loop bodies of `insertInteriorEdges` (lines 246-249, nothing to skip) and `tempInsertInteriorEdges`
(lines 257-262) -/
def interiorBody (g : Graph) (dest : Part) (skip s : List Handle) (e : Handle) : Outcome (List Handle × Bool) :=
  if e ∈ skip then .ok (s, false)
  else do
    let r ← g.isResidentOn e dest
    if r then return (s, false) else return (insertSet s e, false)

/-- `insertInteriorEdges`, lines 241-251, and `tempInsertInteriorEdges`, lines 252-264; a negative dimension other
than -1 indexes out of bounds -/
def interiorEdges (g : Graph) (v : Handle) (dest : Part) (dim : Int) (skip s : List Handle) :
    Outcome (List Handle) :=
  if dim < 0 then .ub
  else do
    let it ← g.edges v dim.toNat
    iterLoop g.iterEdge (interiorBody g dest skip) g.bound it s

/-- `weight(edges)`, lines 266-273 -/
def setWeight (g : Graph) (s : List Handle) : Outcome Rat :=
  s.foldlM (fun w e => do
    let x ← g.weightE e
    return w + x) 0

/-- `vtx_weight` and `peerEdges` -/
structure Sums where
  vtx : Int → Rat
  edges : List (Int → List Handle)

/-- fresh `vtx_weight` and `peerEdges`, lines 406-407, 449-450 -/
def Sums.new (n : Nat) : Sums := ⟨fun _ => 0, List.replicate n (fun _ => [])⟩

/-- the body of the inner loop of `calculatePlanWeights`, lines 302-308 -/
def planDim (g : Graph) (dims : List Int) (v : Handle) (dest : Part) (st : Sums) (i : Nat) : Outcome Sums := do
  let dim ← rd dims i
  if dim ≠ -1 then do
    let m ← rd st.edges i
    let s ← interiorEdges g v dest dim [] (m dest)
    return ⟨st.vtx, st.edges.set i (setAt m dest s)⟩
  else do
    let w ← g.weight v
    return ⟨setAt st.vtx dest (st.vtx dest + w), st.edges⟩

/-- the body of the loop of `calculatePlanWeights`, lines 299-309; the second component is `neighbors` -/
def planVtx (g : Graph) (dims : List Int) (plan : Plan) (x : Sums × List Part) (v : Handle) :
    Outcome (Sums × List Part) := do
  let dest ← g.planGet plan v
  let st ← (List.range dims.length).foldlM (planDim g dims v dest) x.1
  return (st, insertSet x.2 dest)

/-- `calculatePlanWeights`, lines 293-311 -/
def planWeights (g : Graph) (dims : List Int) (plan : Plan) : Outcome (Sums × List Part) :=
  plan.sending.foldlM (planVtx g dims plan) (Sums.new dims.length, [])

/-- one weight packed by `sendPlanWeight`, lines 319-324 -/
def offerDim (g : Graph) (dims : List Int) (st : Sums) (dest : Part) (i : Nat) : Outcome Rat := do
  let dim ← rd dims i
  if dim ≠ -1 then do
    let m ← rd st.edges i
    setWeight g (m dest)
  else return st.vtx dest

/-- `calculatePlanWeights` and `sendPlanWeight`, lines 293-328: one message per neighbour, a weight per dimension.
(The neighbours are visited in hash order; each gets one message, so the order makes no difference.) -/
def offers (g : Graph) (dims : List Int) (plan : Plan) : Outcome (List (Part × List Rat)) := do
  let (st, nbrs) ← planWeights g dims plan
  nbrs.mapM (fun d => do
    let ws ← (List.range dims.length).mapM (offerDim g dims st d)
    return (d, ws))

/-- `CompareMigr`, lines 282-291 -/
def migrLt (a b : Nat × List Rat) : Outcome Bool := do
  let x ← rd a.2 0
  let y ← rd b.2 0
  return decide (x < y ∨ (x = y ∧ a.1 < b.1))

/-- `incoming.insert(migr)`, line 338: `std::set` with `CompareMigr` -/
def insertMigr (m : Nat × List Rat) : List (Nat × List Rat) → Outcome (List (Nat × List Rat))
  | [] => .ok [m]
  | b :: l => do
    let lt ← migrLt m b
    if lt then return m :: b :: l
    else do
      let gt ← migrLt b m
      if gt then do
        let l' ← insertMigr m l
        return b :: l'
      else return b :: l

/-- a message received, lines 332-338; `Migr::ws` has room for five weights, lines 274-281 -/
def receiveMigr (inc : List (Nat × List Rat)) (m : Nat × List Rat) : Outcome (List (Nat × List Rat)) :=
  if 5 < m.2.length then .ub else insertMigr m inc

/-- `determineAvailability`, lines 342-351 -/
def availability (g : Graph) (dims : List Int) (limits : List Rat) (cg : Bool) : Outcome (List Rat × Bool) := do
  let avail ← (List.range dims.length).mapM (fun i => do
    let dim ← rd dims i
    let lim ← rd limits i
    let w ← getWeight g dim cg
    return lim - w)
  return (avail, avail.all (fun a => decide (0 ≤ a)))

/-- lines 364-368: subtract what is given dimension by dimension; `isAvail` ends up telling whether the *last*
dimension has room left -/
def takeAll (ok : Bool) : List Rat → List Rat → List Rat × Bool
  | a :: as, w :: ws => let r := takeAll (decide (0 < a - w)) as ws; ((a - w) :: r.1, r.2)
  | _, _ => ([], ok)

/-- the amounts accepted, and the weights left -/
structure Accept where
  isAvail : Bool
  avail : List Rat
  accept : List (Nat × List Rat)

/-- one offer, lines 355-375 -/
def acceptStep (st : Accept) (m : Nat × List Rat) : Accept :=
  if st.isAvail then
    let give := if (m.2.zip st.avail).all (fun x => decide (x.1 ≤ x.2)) then m.2 else st.avail
    let r := takeAll st.isAvail st.avail give
    ⟨r.2, r.1, st.accept ++ [(m.1, give)]⟩
  else ⟨st.isAvail, st.avail, st.accept ++ [(m.1, st.avail.map (fun _ => 0))]⟩

/-- `acceptWeight`, lines 353-376 -/
def acceptWeight (incoming : List (Nat × List Rat)) (isAvail : Bool) (avail : List Rat) : List (Nat × List Rat) :=
  (incoming.foldl acceptStep ⟨isAvail, avail, []⟩).accept

/-- what a part answers, lines 414-428 -/
def answers (g : Graph) (dims : List Int) (limits : List Rat) (cg : Bool) (msgs : List (Nat × List Rat)) :
    Outcome (List (Part × List Rat)) := do
  let incoming ← msgs.foldlM receiveMigr []
  let (avail, isAvail) ← availability g dims limits cg
  return (acceptWeight incoming isAvail avail).map (fun a => ((a.1 : Int), a.2))

/-- `trim`, lines 403-433, on all parts; `o1`, `o2` are the delivery orders.  The capacities a part gathers
(lines 387-398) are the messages it receives. -/
def trim (gs : List Graph) (plans : List Plan) (dims : List Int) (limits : List Rat) (cg : Bool)
    (o1 o2 : Nat → List Nat) : Outcome (List (List (Nat × List Rat))) := do
  let outs ← (gs.zip plans).mapM (fun x => offers x.1 dims x.2)
  let inb ← exchange outs o1
  let acc ← (gs.zip inb).mapM (fun x => answers x.1 dims limits cg x.2)
  exchange acc o2

/-- `(*capacity)[dest]`: a missing entry is a NULL array -/
def capOf (cap : List (Nat × List Rat)) (dest : Part) : Outcome (List Rat) :=
  Outcome.ofOption ((cap.find? (fun c => decide ((c.1 : Int) = dest))).map Prod.snd)

/-- the body of the first inner loop of `cancel`, lines 458-470; the state is `isSpace` and `tmpEdges` -/
def fitsDim (g : Graph) (dims : List Int) (v : Handle) (dest : Part) (cap : List (Nat × List Rat)) (st : Sums)
    (x : Bool × List (List Handle)) (i : Nat) : Outcome (Bool × List (List Handle)) := do
  let dim ← rd dims i
  let ws ← capOf cap dest
  let c ← rd ws i
  if dim ≠ -1 then do
    let m ← rd st.edges i
    let tmp ← interiorEdges g v dest dim (m dest) []
    let a ← setWeight g (m dest)
    let b ← setWeight g tmp
    return (x.1 && decide (a + b ≤ c), x.2 ++ [tmp])
  else do
    let w ← g.weight v
    return (x.1 && decide (st.vtx dest + w ≤ c), x.2 ++ [[]])

/-- the body of the second inner loop of `cancel`, lines 473-478, with `combineSets`, lines 435-439 -/
def keepDim (g : Graph) (dims : List Int) (v : Handle) (dest : Part) (tmps : List (List Handle)) (st : Sums)
    (i : Nat) : Outcome Sums := do
  let dim ← rd dims i
  if dim ≠ -1 then do
    let m ← rd st.edges i
    let tmp ← rd tmps i
    return ⟨st.vtx, st.edges.set i (setAt m dest (tmp.foldl insertSet (m dest)))⟩
  else do
    let w ← g.weight v
    return ⟨setAt st.vtx dest (st.vtx dest + w), st.edges⟩

/-- the body of the loop of `cancel`, lines 452-481; the second component is `keep` -/
def cancelStep (g : Graph) (dims : List Int) (plan : Plan) (cap : List (Nat × List Rat))
    (x : Sums × List (Handle × Part)) (v : Handle) : Outcome (Sums × List (Handle × Part)) := do
  let dest ← g.planGet plan v
  let (isSpace, tmps) ← (List.range dims.length).foldlM (fitsDim g dims v dest cap x.1) (true, [])
  if isSpace then do
    let st ← (List.range dims.length).foldlM (keepDim g dims v dest tmps) x.1
    return (st, x.2 ++ [(v, dest)])
  else return x

/-- `plan->insert(keep[i])`, line 490 -/
def keepInsert (g : Graph) (p : Plan) (k : Handle × Part) : Outcome Plan := do
  let r ← g.planInsert p k.1 k.2
  return r.1

/-- `cancel`, lines 442-491 -/
def cancel (g : Graph) (dims : List Int) (plan : Plan) (cap : List (Nat × List Rat)) : Outcome Plan := do
  let (_, keep) ← plan.sending.foldlM (cancelStep g dims plan cap) (Sums.new dims.length, [])
  let p ← Graph.planClear plan
  keep.foldlM (keepInsert g) p

/-- `trim` followed by `cancel` on all parts, as in `DiffusiveBalancer::runStep`
(partition/Diffusive/src/engpar_balancer.cpp:147-148) -/
def trimCancel (gs : List Graph) (plans : List Plan) (dims : List Int) (limits : List Rat) (cg : Bool)
    (o1 o2 : Nat → List Nat) : Outcome (List Plan) := do
  let caps ← trim gs plans dims limits cg o1 o2
  ((gs.zip plans).zip caps).mapM (fun x => cancel x.1.1 dims x.1.2 x.2)

end Verif.Part
