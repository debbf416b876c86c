import Verif.Part.QueueModel
import Verif.Part.DistQueueModel
import Verif.Part.TrimModel
import Verif.Part.SidesModel
/-!
# Model of the selection of vertices to send, partition/Diffusive/src/engpar_selector.cpp:19-240

All line numbers are of that file.  A `Cavity` (`unordered_set` of vertices) is the list of its elements in order of
insertion.  The order in which the hash containers are iterated is not determined by the program: `ord` rearranges the
keys of the peer map and the vertices of a cavity.  `cavities` and `sending` are total functions whose missing entries
read as empty / 0 (`operator[]` inserts just that).
-/
namespace Verif.Part
open Verif.Agi

/-- iteration orders of `unordered_map<part_t,…>` and `unordered_set<GraphVertex*>` -/
structure HashOrd where
  parts : List Part → List Part
  verts : List Handle → List Handle

/-- the body of the loop of `getCavity`, lines 23-25 -/
def cavityBody (g : Graph) (cav : List Handle) (v : Handle) : Outcome (List Handle × Bool) := do
  let o ← g.owner v
  if o = g.self then return (insertSet cav v, false) else return (cav, false)

/-- `getCavity`, lines 19-27 -/
def getCavity (g : Graph) (e : Handle) : Outcome (List Handle) := do
  let it ← g.pins e
  iterLoop g.iterPin (cavityBody g) g.bound it []

/-- the state of a `Selector` together with the plan and the planned weight -/
structure Sel where
  q : Queue
  cavs : Handle → List Handle
  sending : Part → Rat
  plan : Plan
  planW : Rat

/-- `m[h] = v` for a map keyed by edges -/
def setCav (m : Handle → List Handle) (k : Handle) (v : List Handle) : Handle → List Handle :=
  fun x => if x = k then v else m x

/-- one edge in `constructCavities`, lines 36-40; `cav_sizes` has 100 entries (line 31).  (`insert` does not replace
an entry, but a repeated edge would give the same cavity.) -/
def cavityStep (g : Graph) (x : Queue × (Handle → List Handle)) (i : Nat) :
    Outcome (Queue × (Handle → List Handle)) := do
  let e ← x.1.get i
  let cav ← getCavity g e
  let q ← x.1.add e
  if cav.length < 100 then return (q, setCav x.2 e cav) else .ub

/-- the constructor of `Selector`, lines 527-535 with `constructCavities`, lines 29-42 -/
def newSelector (g : Graph) (q : Queue) (plan : Plan) : Outcome Sel := do
  let x ← (List.range q.start.size).foldlM (cavityStep g) (q.start, fun _ => [])
  return ⟨x.1, x.2, fun _ => 0, plan, 0⟩

/-- `peerMap[p].insert(e)`, lines 79-81 -/
def addPeer (m : List (Part × List Handle)) (p : Part) (e : Handle) : List (Part × List Handle) :=
  putA p (insertSet ((m.lookup p).getD []) e) m

/-- the edges of a vertex, lines 64-68 -/
def edgesOfVertex (g : Graph) (s : List Handle) (v : Handle) : Outcome (List Handle) := do
  let it ← g.edges v 0
  iterLoop g.iterEdge (fun s e => (.ok (insertSet s e, false) : Outcome (List Handle × Bool))) g.bound it s

/-- the body of the loop over pins, lines 77-82 -/
def peerBody (g : Graph) (plan : Plan) (e : Handle) (m : List (Part × List Handle)) (v : Handle) :
    Outcome (List (Part × List Handle) × Bool) := do
  let o ← g.owner v
  if o ≠ g.self then return (addPeer m o e, false)
  else do
    let h ← g.planHas plan v
    if h then do
      let d ← g.planGet plan v
      return (addPeer m d e, false)
    else return (m, false)

/-- the body of the loop over the edges, lines 75-84 -/
def peerEdge (g : Graph) (plan : Plan) (m : List (Part × List Handle)) (e : Handle) :
    Outcome (List (Part × List Handle)) := do
  let it ← g.pins e
  iterLoop g.iterPin (peerBody g plan e) g.bound it m

/-- `edges_to_part.insert`, line 90, kept in decreasing order of the number of edges: a number already present is not
replaced -/
def insertCount (n : Nat) (p : Part) : List (Nat × Part) → List (Nat × Part)
  | [] => [(n, p)]
  | a :: l => if a.1 < n then (n, p) :: a :: l else if a.1 = n then a :: l else a :: insertCount n p l

/-- `getCavityPeers`, lines 54-99 -/
def cavityPeers (ord : HashOrd) (g : Graph) (plan : Plan) (cav : List Handle) : Outcome (List Part) := do
  let es ← (ord.verts cav).foldlM (edgesOfVertex g) []
  let m ← es.foldlM (peerEdge g plan) []
  let l := (ord.parts (m.map Prod.fst)).foldl
    (fun l p => insertCount ((m.lookup p).getD []).length p l) []
  return l.map Prod.snd

/-- the edges added for a vertex, lines 112-116 -/
def targetEdges (g : Graph) (dim : Int) (s : List Handle) (v : Handle) : Outcome (List Handle) :=
  if dim < 0 then .ub
  else do
    let it ← g.edges v dim.toNat
    iterLoop g.iterEdge (fun s e => (.ok (insertSet s e, false) : Outcome (List Handle × Bool))) g.bound it s

/-- one vertex in `addCavity`, lines 107-119; the state is the plan, `w` and `target_edges` -/
def addVertex (g : Graph) (peer : Part) (dim : Int) (x : Plan × Rat × List Handle) (v : Handle) :
    Outcome (Plan × Rat × List Handle) := do
  let (p, isNew) ← g.planInsert x.1 v peer
  if isNew then
    if dim = -1 then do
      let w ← g.weight v
      return (p, x.2.1 + w, x.2.2)
    else do
      let s ← targetEdges g dim x.2.2 v
      return (p, x.2.1, s)
  else return (p, x.2.1, x.2.2)

/-- one edge in the second loop of `addCavity`, lines 121-125 -/
def bringEdge (g : Graph) (peer : Part) (w : Rat) (e : Handle) : Outcome Rat := do
  let r ← g.isResidentOn e peer
  if r then return w
  else do
    let x ← g.weightE e
    return w + x

/-- `addCavity`, lines 101-127 -/
def addCavity (ord : HashOrd) (g : Graph) (cav : List Handle) (peer : Part) (plan : Plan) (dim : Int) :
    Outcome (Plan × Rat) := do
  let x ← (ord.verts cav).foldlM (addVertex g peer dim) (plan, 0, [])
  let w ← x.2.2.foldlM (bringEdge g peer) x.2.1
  return (x.1, w)

/-- one edge in `edgeCutGrowth`, lines 178-183: the numbers of cut and of uncut pins -/
def cutCount (g : Graph) (peer : Part) (x : Nat × Nat) (e : Handle) : Outcome ((Nat × Nat) × Bool) := do
  let r ← g.isResidentOn e peer
  if r then return ((x.1 + 1, x.2), false) else return ((x.1, x.2 + 1), false)

/-- one vertex in `edgeCutGrowth`, lines 176-184 -/
def cutVertex (g : Graph) (peer : Part) (x : Nat × Nat) (v : Handle) : Outcome (Nat × Nat) := do
  let it ← g.edges v 0
  iterLoop g.iterEdge (cutCount g peer) g.bound it x

/-- `limitEdgeCutGrowth <= 0 || edgeCutGrowth(g,cav,peer) < limitEdgeCutGrowth`, lines 206-207 with 171-187; with no cut
pin the quotient is infinite or not a number, and the comparison false -/
def growthOk (ord : HashOrd) (g : Graph) (limit : Rat) (cav : List Handle) (peer : Part) : Outcome Bool :=
  if limit ≤ 0 then .ok true
  else do
    let (cut, uncut) ← (ord.verts cav).foldlM (cutVertex g peer) (0, 0)
    return decide (cut ≠ 0 ∧ (uncut : Rat) / (cut : Rat) < limit)

/-- the conditions on a peer, lines 204-207 -/
def peerOk (ord : HashOrd) (g : Graph) (limit : Rat) (targets : Cont Rat) (sending : Part → Rat)
    (cav : List Handle) (peer : Part) : Outcome Bool :=
  if targets.has peer = true ∧ sending peer < targets.get peer then growthOk ord g limit cav peer else .ok false

/-- the loop over the peers, lines 202-215: the first that qualifies gets the cavity -/
def trySend (ord : HashOrd) (g : Graph) (limit : Rat) (targets : Cont Rat) (dim : Int) (cav : List Handle) (s : Sel) :
    List Part → Outcome (Sel × Bool)
  | [] => .ok (s, false)
  | peer :: peers => do
    let b ← peerOk ord g limit targets s.sending cav peer
    if b then do
      let (plan, w) ← addCavity ord g cav peer s.plan dim
      return (⟨s.q, s.cavs, setAt s.sending peer (s.sending peer + w), plan, s.planW + w⟩, true)
    else trySend ord g limit targets dim cav s peers

/-- the loop over the queue, lines 193-221 -/
def selectFrom (ord : HashOrd) (g : Graph) (limit : Rat) (targets : Cont Rat) (dim : Int) (cavSize : Nat) :
    Nat → Nat → Sel → Outcome Sel
  | 0, _, s => .ok s
  | n + 1, i, s =>
    if targets.total < s.planW then .ok s
    else do
      let e ← s.q.get i
      let peers ← cavityPeers ord g s.plan (s.cavs e)
      let (s, sent) ← trySend ord g limit targets dim (s.cavs e) s (if (s.cavs e).length < cavSize then peers else [])
      if sent then selectFrom ord g limit targets dim cavSize n (i + 1) { s with cavs := setCav s.cavs e [] }
      else do
        let q ← s.q.add e
        selectFrom ord g limit targets dim cavSize n (i + 1) { s with q := q }

/-- `updateCavities`, lines 44-52 -/
def updateCavities (plan : Plan) (cavs : Handle → List Handle) : Handle → List Handle :=
  fun e => (cavs e).filter (fun v => decide (v ∉ plan.sending))

/-- `Selector::select`, lines 189-224 -/
def select (ord : HashOrd) (g : Graph) (limit : Rat) (targets : Cont Rat) (dim : Int) (s : Sel) (cavSize : Nat) :
    Outcome Sel := do
  let q := s.q.start
  let s ← selectFrom ord g limit targets dim cavSize q.size 0 { s with q := q }
  return { s with cavs := updateCavities s.plan s.cavs }

/-- the fields of `DiffusiveInput` that choose the queue, partition/Diffusive/engpar_diffusive_input.h:71-77 -/
structure QKind where
  dist : Bool
  push : Bool

/-- the queue of a step, engpar_balancer.cpp:127-133 -/
def makeQueue (k : QKind) (g : Graph) : Outcome Queue :=
  if k.dist then distanceQueue k.push g else iterationQueue g

/-- the queue, the selector and the sweeps with growing cavities, engpar_balancer.cpp:127-142 (`sizes` are the cavity
sizes 2, 4, …, 12 there) -/
def selectAll (k : QKind) (ord : HashOrd) (g : Graph) (limit : Rat) (targets : Cont Rat) (dim : Int) (sizes : List Nat) :
    Outcome Sel := do
  let q ← makeQueue k g
  let plan ← g.newPlan
  let s ← newSelector g q plan
  sizes.foldlM (select ord g limit targets dim) s

/-! ## `selectDisconnected` -/

/-- `occ[v]++` / `conns[{u,v}]++` -/
def incr {α : Type} [DecidableEq α] (k : α) : List (α × Nat) → List (α × Nat)
  | [] => [(k, 1)]
  | p :: l => if p.1 = k then (k, p.2 + 1) :: l else p :: incr k l

/-- one vertex of the cavity in `getCavityConnections`, lines 132-152; vertices are compared by address -/
def cavityConn (g : Graph) (con : Nat) (minCon : Int) (conns : List ((Handle × Handle) × Nat)) (u : Handle) :
    Outcome (List ((Handle × Handle) × Nat)) := do
  let it ← g.adjacent u con
  let occ ← iterLoop g.iterAdj (fun o v => (.ok (if v = u then o else incr v o, false) :
    Outcome (List (Handle × Nat) × Bool))) g.bound it []
  return occ.foldl (fun c p => if minCon ≤ (p.2 : Int) then incr (if u < p.1 then (u, p.1) else (p.1, u)) c else c) conns

/-- the loop of `isPartiallyConnected`, lines 162-168 -/
def partialLoop (g : Graph) (plan : Plan) : List ((Handle × Handle) × Nat) → Outcome Bool
  | [] => .ok true
  | c :: l =>
    if c.2 = 2 then partialLoop g plan l
    else do
      let a ← g.planHas plan c.1.1
      if a then partialLoop g plan l
      else do
        let b ← g.planHas plan c.1.2
        if b then partialLoop g plan l else return false

/-- `isPartiallyConnected`, lines 157-169 -/
def partiallyConnected (ord : HashOrd) (g : Graph) (con : Nat) (minCon : Int) (plan : Plan) (cav : List Handle) :
    Outcome Bool := do
  let conns ← (ord.verts cav).foldlM (cavityConn g con minCon) []
  partialLoop g plan conns

/-- one edge in `selectDisconnected`, lines 231-239; `*peers.begin()` of an empty vector is undefined behaviour -/
def disconnStep (ord : HashOrd) (g : Graph) (con : Nat) (minCon : Int) (dim : Int) (q : Queue)
    (cavs : Handle → List Handle) (plan : Plan) (i : Nat) : Outcome Plan := do
  let e ← q.get i
  let peers ← cavityPeers ord g plan (cavs e)
  let b ← partiallyConnected ord g con minCon plan (cavs e)
  if b then do
    let p ← rd peers 0
    let x ← addCavity ord g (cavs e) p plan dim
    return x.1
  else return plan

/-- `selectDisconnected`, lines 226-240 -/
def selectDisconnected (ord : HashOrd) (g : Graph) (con : Nat) (minCon : Int) (dim : Int) (s : Sel) : Outcome Sel :=
  if minCon ≤ 1 then .ok s
  else do
    let q := s.q.start
    let plan ← (List.range q.size).foldlM (disconnStep ord g con minCon dim q s.cavs) s.plan
    return { s with q := q, plan := plan }

end Verif.Part
