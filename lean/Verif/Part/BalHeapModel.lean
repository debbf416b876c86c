import Verif.Agi.HeapModel
/-!
# Model of the memory of balancing, splitting and asking

Continues `Agi/HeapModel.lean` with the objects and arrays of `partition/` and the iterators of `agi/`.  Numbers that depend on the data
(edges walked, seeds, senders, steps) are arguments of the operations.  Containers of the standard library are not counted.
-/
namespace Verif.Part.Heap
open Verif.Agi.Heap

/-- several `new` -/
def allocs : List Kind → St → List (Nat × Kind) × St
  | [], s => ([], s)
  | k :: ks, s =>
    let (p, s) := allocate k s
    let (bs, s) := allocs ks s
    ((p, k) :: bs, s)

/-- several `delete` -/
def frees (bs : List (Nat × Kind)) (s : St) : Outcome St := bs.foldlM (fun s b => free b.2 b.1 s) s

/-- an object or array around some work -/
def bracket (ks : List Kind) (body : St → Outcome St) (s : St) : Outcome St :=
  let (bs, s) := allocs ks s
  do
    let s ← body s
    frees bs s

/-- `n` things one after the other -/
def several (n : Nat) (body : St → Outcome St) (s : St) : Outcome St := (List.range n).foldlM (fun s _ => body s) s

def brief (k : Kind) (s : St) : Outcome St := bracket [k] (fun s => .ok s) s

/-- all edges with an iterator, for each of them `inner` iterators of its pins: partition/Diffusive/src/engpar_sides.h:15-33 (through
`getResidence`, agi/agiEdge.cpp:16-26), engpar_queue.cpp:8-21 -/
def walkEdges (n : Nat) (s : St) : Outcome St := bracket [.obj] (several n (brief .obj)) s

/-! ## The queue -/

/-- how the queue of a step is made -/
inductive QueueRun where
  /-- `createIterationQueue`, n edges -/
  | iteration (n : Nat)
  /-- `createDistanceQueue` on a part without edges -/
  | noEdges
  /-- without seeds -/
  | noSeeds
  /-- `first`: edges walked in the first traversal, `rounds`: in each round of the second, `asked`: residences asked at the end; `push`: the
  traversal with a tag -/
  | distance (push : Bool) (first : Nat) (rounds : List Nat) (asked : Nat)
deriving Repr

/-- `Queue(n)`: partition/Diffusive/src/engpar_queue.h:10-22 -/
def queueBlocks : List Kind := [.obj, .arr, .arr]

/-- `bfs_push` (with a tag, an iterator of pins with iterators of edges), `bfs_pull` (two arrays):
partition/Diffusive/src/engpar_queue.cpp:150-247 -/
def traverse (push : Bool) (n : Nat) (s : St) : Outcome St :=
  if push then bracket [.obj, .arr] (several n fun s => bracket [.obj] (brief .obj) s) s
  else bracket [.arr, .arr] (fun s => .ok s) s

/-- `createDistanceQueue` after the seeds, partition/Diffusive/src/engpar_queue.cpp:256-390: `in1` with its seeds, the queue, the array
`visited` of `in1`, `in2` with three arrays, two arrays in each round; the destructor of `Inputs` releases the arrays (lines 78-90) -/
def distanceQueue (push : Bool) (first : Nat) (rounds : List Nat) (asked : Nat) (s : St) : Outcome (List (Nat × Kind) × St) := do
  let (in1, s) := allocs [.obj, .arr] s
  let (q, s) := allocs queueBlocks s
  let (visited, s) := allocs [.arr] s
  let s ← traverse push first s
  let (in2, s) := allocs [.obj, .arr, .arr, .arr] s
  let s ← rounds.foldlM (fun s n => bracket [.arr, .arr] (traverse push n) s) s
  let s ← frees (visited ++ in1) s
  let s ← several asked (brief .obj) s
  let s ← frees in2 s
  return (q, s)

def makeQueue : QueueRun → St → Outcome (List (Nat × Kind) × St)
  | .iteration n, s => do
      let s ← walkEdges n s
      let (q, s) := allocs queueBlocks s
      let s ← walkEdges n s
      return (q, s)
  | .noEdges, s => .ok (allocs queueBlocks s)
  | .noSeeds, s => do
      let (in1, s) := allocs [.obj, .arr] s
      let (q, s) := allocs queueBlocks s
      let s ← frees in1 s
      return (q, s)
  | .distance push first rounds asked, s => distanceQueue push first rounds asked s

/-! ## A step -/

/-- what the graph is after a migration -/
structure Move where
  coords : Bool
  fresh : List Bool
  many : Bool
deriving Repr

/-- a step of `Balancer::runStep` that plans: `edges` walked for the sides, `completed` criteria before, `walks` iterators of the selector,
`senders`, `answers`, `planned` in trim and cancel, `verts`: the part has vertices; `move`: somebody migrates -/
structure Step where
  edges : Nat
  completed : Nat
  queue : QueueRun
  verts : Bool
  walks : Nat
  senders : Nat
  answers : Nat
  planned : Nat
  move : Option Move
deriving Repr

/-- `Selector::trim` and `cancel`, partition/Diffusive/src/engpar_selector.cpp:403-491: `peerEdges` is released in `sendPlanWeight`, the
accepted weights in `sendAcceptedWeights`, the capacities in `cancel` -/
def trimCancel (senders answers planned : Nat) (s : St) : Outcome St := do
  let (pe, s) := allocs [.arr] s
  let s ← frees pe s
  let (avail, s) := allocs [.arr] s
  let (acc, s) := allocs (List.replicate senders .arr) s
  let s ← frees avail s
  let s ← frees acc s
  let (cap, s) := allocs (.obj :: List.replicate answers .arr) s
  let (pe, s) := allocs [.arr] s
  let s ← several planned (brief .arr) s
  let s ← frees cap s
  frees pe s

/-- sides, weights and targets: partition/Diffusive/src/engpar_balancer.cpp:95-123; the targets stay -/
def targetsOf (edges completed : Nat) (s : St) : Outcome (List (Nat × Kind) × St) := do
  let (sides, s) := allocs [.obj] s
  let s ← walkEdges edges s
  let (tw, s) := allocs [.obj] s
  let (cw, s) := if completed = 0 then ([], s) else allocs (.arr :: List.replicate completed .obj) s
  let (tg, s) := allocs [.obj] s
  let s ← frees sides s
  let s ← frees cw s
  let s ← frees tw s
  return (tg, s)

/-- `Balancer::runStep` after the tests for completion and stagnation, partition/Diffusive/src/engpar_balancer.cpp:82-171 (a step that
finishes there allocates nothing) -/
def runStep (x : Step) (s : St) : Outcome St := do
  let (tg, s) ← targetsOf x.edges x.completed s
  let (q, s) ← makeQueue x.queue s
  let (sel, s) := allocs [.obj] s
  let (plan, s) := newPlan x.verts s
  let s ← several x.walks (brief .obj) s
  let s ← if x.completed = 0 then .ok s else trimCancel x.senders x.answers x.planned s
  let s ← frees q s
  let s ← frees tg s
  let s ← frees sel s
  match x.move with
  | some m => migrate plan x.verts m.coords m.fresh m.many s
  | none => freePlan plan s

/-! ## Weights -/

/-- a step of the weight balancer -/
structure WStep where
  edges : Nat
  walks : Nat
  moves : Bool
deriving Repr

/-- `WeightBalancer::runStep`, partition/Diffusive/src/engpar_weightBalancer.cpp:33-95; `migrate(WeightMigration*)` deletes the plan,
agi/agiWeightMigrate.cpp:11-54 -/
def runWStep (x : WStep) (s : St) : Outcome St := do
  let (tg, s) ← targetsOf x.edges 0 s
  let (q, s) ← makeQueue (.iteration x.edges) s
  let (sel, s) := allocs [.obj] s
  let (plan, s) := newPlan false s
  let s ← several x.walks (brief .obj) s
  let s ← frees q s
  let s ← frees tg s
  let s ← frees sel s
  let s ← if x.moves then temporary s else .ok s
  let s ← if x.moves then setWeights s else .ok s
  freePlan plan s

/-- a `WeightBalancer` (with timers) with its input: `new`, `balance`, `delete`: partition/Diffusive/src/engpar_weightBalancer.cpp:123-232,
engpar_balancer.cpp:70-81; one process: nothing is done -/
def weightBalancer (input : List (Nat × Kind)) (many : Bool) (steps : List WStep) (s : St) : Outcome St := do
  let (b, s) := allocs [.obj, .obj] s
  let s ← if many then bracket [.obj, .arr] (fun s => steps.foldlM (fun s x => runWStep x s) s) s else .ok s
  let s ← frees input s
  frees b s

/-! ## The weight graph -/

/-- a second graph: its pointers and its object -/
structure Second where
  g : Field → Option Nat
  types : Nat
  ghosts : Bool
  obj : Nat

/-- a call on the second graph -/
def onSecond (w : Second) (f : St → Outcome St) (s : St) : Outcome (Second × St) := do
  let s' ← f { s with g := w.g, types := w.types, ghosts := w.ghosts }
  return (⟨s'.g, s'.types, s'.ghosts, w.obj⟩, { s' with g := s.g, types := s.types, ghosts := s.ghosts })

/-- `destroyGraph`, agi/agiConstruct.cpp:574-588 -/
def destroySecond (w : Second) (s : St) : Outcome St := do
  let (w, s) ← onSecond w destroyData s
  free .obj w.obj s

def destroyOld : Option Second → St → Outcome St
  | none, s => .ok s
  | some w, s => destroySecond w s

/-- `createEmptyGraph` -/
def createSecond (s : St) : Second × St :=
  let (p, s) := allocate .obj s
  (⟨fun _ => none, 0, false, p⟩, s)

/-- what `partWeightBalancer` does on the new graph: partition/Diffusive/src/engpar_balancer.cpp:381-390; `nbors`: the part has neighbours -/
def pwOnSecond (nbors many : Bool) (steps : List WStep) (s : St) : Outcome St := do
  let s ← constructVerts s
  let s ← constructEdges nbors s
  let s ← constructGhosts false many s
  let (input, s) := allocs [.obj] s
  weightBalancer input many steps s

/-- `Balancer::partWeightBalancer`, partition/Diffusive/src/engpar_balancer.cpp:352-404 -/
def partWeight (nbors : Bool) (steps : List WStep) (old : Option Second) (s : St) : Outcome (Option Second × St) := do
  let s ← destroyOld old s
  let (w, s) := createSecond s
  let (as, s) := allocs (List.replicate 7 .arr) s
  let (w, s) ← onSecond w (pwOnSecond nbors true steps) s
  let s ← frees as s
  return (some w, s)

/-! ## Balancing -/

structure Criterion where
  edges : Nat
  /-- the part weight balancer: neighbours, steps -/
  weights : Option (Bool × List WStep)
  steps : List Step
deriving Repr

/-- the part weight balancer, if it is asked for: partition/Diffusive/src/engpar_balancer.cpp:254-263 -/
def weightsFirst (old : Option Second) : Option (Bool × List WStep) → St → Outcome (Option Second × St)
  | none, s => .ok (old, s)
  | some (n, st), s => partWeight n st old s

/-- one criterion: partition/Diffusive/src/engpar_balancer.cpp:241-294 -/
def runCriterion (old : Option Second) (c : Criterion) (s : St) : Outcome (Option Second × St) := do
  let (sd, s) := allocs [.obj, .arr] s
  let (sides, s) := allocs [.obj] s
  let s ← walkEdges c.edges s
  let (w, s) ← weightsFirst old c.weights s
  let s ← frees sides s
  let s ← c.steps.foldlM (fun s x => runStep x s) s
  let s ← frees sd s
  return (w, s)

/-- `balance(input)`: partition/Diffusive/src/engpar_balancer.cpp:195-350, 405-415, the destructor 76-81; one process: only the objects -/
def balance (input : List (Nat × Kind)) (many : Bool) (cs : List Criterion) (s : St) : Outcome St := do
  let (b, s) := allocs [.obj, .obj] s
  let s ← if many then setOriginal s else .ok s
  let (w, s) ← (if many then cs else []).foldlM (fun (ws : Option Second × St) c => runCriterion ws.1 c ws.2) (none, s)
  let s ← frees input s
  let s ← destroyOld w s
  frees b s

/-! ## Splitting -/

/-- `EnGPar_ParMETIS`, partition/Multilevel/engpar_parmetis.cpp:20-165: eight arrays, then the plan -/
def parmetis (verts : Bool) (s : St) : Outcome (Plan × St) := do
  let s ← bracket (List.replicate 8 .arr) (fun s => .ok s) s
  let (np, s) := allocs [.arr] s
  let (plan, s) := newPlan verts s
  let s ← frees np s
  return (plan, s)

/-- `split`, partition/Multilevel/engpar_split.cpp:21-63: on an original part the plan of the partitioner and `expandParts` (an array),
elsewhere a new plan; with Zoltan every part gets a plan, which the other parts delete -/
def splitGraph (input : List (Nat × Kind)) (zoltan original verts : Bool) (m : Move) (s : St) : Outcome St := do
  let (plan, s) ← if zoltan then
      let (p, s) := newPlan verts s
      (do
        let s ← if original then .ok s else freePlan p s
        if original then pure (p, s) else pure (newPlan verts s) : Outcome (Plan × St))
    else if original then parmetis verts s
    else .ok (newPlan verts s)
  let s ← if original then temporary s else .ok s
  let s ← setOriginal s
  let s ← migrate plan verts m.coords m.fresh m.many s
  frees input s

/-! ## Asking -/

/-- `Ngraph::isResidentOn`, agi/agiEdge.cpp:27-40, with the owners of the pins -/
def isResidentOn (owners : List Int) (peer : Int) (s : St) : Outcome (Bool × St) := do
  let (it, s) := allocs [.obj] s
  let s ← frees it s
  return (owners.any (· == peer), s)

/-- the loop of `Ngraph::isCut`, agi/agiEdge.cpp:45-53: `true` ends it -/
def cutLoop : Int → List Int → Bool
  | _, [] => false
  | part, o :: os => if part = -1 then cutLoop o os else if part ≠ o then true else cutLoop part os

/-- `Ngraph::isCut`, agi/agiEdge.cpp:41-55: the iterator is released only on the way out of the loop -/
def isCut (owners : List Int) (s : St) : Outcome (Bool × St) := do
  let (it, s) := allocs [.obj] s
  if cutLoop (-1) owners then
    let s ← frees it s
    return (true, s)
  else return (false, s)

/-- a call of `iterate` on a neighbour iterator: the next vertex of the same edge, the next edge, the end -/
inductive Next where
  | same
  | edge
  | stop
deriving DecidableEq, Repr

/-- `Ngraph::iterate(GraphIterator*&)` on hypergraphs, agi/agiIterate.cpp:91-105: the iterator of pins is replaced; releasing a null
pointer does nothing -/
def iterateGraph (pitr : List (Nat × Kind)) (x : Next) (s : St) : Outcome (List (Nat × Kind) × St) :=
  match x with
  | .same => .ok (pitr, s)
  | .edge => do
      let s ← frees pitr s
      return allocs [.obj] s
  | .stop => do
      let s ← frees pitr s
      return ([], s)

/-- `adjacent`, calls of `iterate`, `destroy`: agi/agiVertex.cpp:153-158, agi/agiIterate.cpp:137-142.  A user may stop at any time. -/
def neighbours (xs : List Next) (s : St) : Outcome St := do
  let (it, s) := allocs [.obj, .obj] s
  let (pitr, s) ← xs.foldlM (fun (ps : List (Nat × Kind) × St) x => iterateGraph ps.1 x ps.2) ([], s)
  let s ← frees pitr s
  frees it s

/-- `evaluatePartition`, partition/engpar.cpp:7-135: five arrays, a tag and an array for the components, inputs and sides -/
def evaluate (types edges comps : Nat) (s : St) : Outcome St := do
  let (mine, s) := allocs [.arr] s
  let (four, s) := allocs (List.replicate 4 .arr) s
  let s ← bracket [.obj, .arr] (several comps fun s => bracket [.arr] (brief .obj) s) s
  let s ← several (types + 1) (bracket [.obj, .obj] (walkEdges edges)) s
  let s ← frees mine s
  frees four s

/-! ## Histories -/

inductive Act where
  /-- a call of C82 -/
  | op (o : Op)
  /-- an input is created and `balance` called with it -/
  | balance (many : Bool) (cs : List Criterion)
  | balanceWeights (many : Bool) (steps : List WStep)
  | split (zoltan original verts : Bool) (m : Move)
  | residentOn (owners : List Int) (peer : Int)
  | isCut (owners : List Int)
  | neighbours (xs : List Next)
  | evaluate (edges comps : Nat)
deriving Repr

def act (s : St) : Act → Outcome St
  | .op o => Verif.Agi.Heap.step s o
  | .balance many cs => let (i, s) := allocs [.obj] s; Heap.balance i many cs s
  | .balanceWeights many steps => let (i, s) := allocs [.obj] s; weightBalancer i many steps s
  | .split z o v m => let (i, s) := allocs [.obj] s; splitGraph i z o v m s
  | .residentOn l p => do let (_, s) ← isResidentOn l p s; return s
  | .isCut l => do let (_, s) ← Heap.isCut l s; return s
  | .neighbours xs => Heap.neighbours xs s
  | .evaluate e c => Heap.evaluate s.types e c s

def acts (m : Maker) (as : List Act) : Outcome St := do
  let s ← make m
  as.foldlM act s

end Verif.Part.Heap
