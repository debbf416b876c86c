import Verif.Part.SidesModel
import Verif.Part.TrimModel
import Verif.Agi.MigrateModel
import Verif.Agi.PlanModel
/-!
# Model of the distributed graph handed to ParMETIS: partition/Multilevel/engpar_parmetis.cpp

`idx_t` is unbounded here.  The call `ParMETIS_V3_PartKway` itself is outside the model: the model ends by reading all
the arrays handed to it (reading an unwritten cell is undefined) and continues with an arbitrary result.
-/
namespace Verif.Part
open Verif.Agi

/-- `vtxdist` before the reduction, engpar_parmetis.cpp:24-30: `P` cells plus one, rank `me`, `nl` local vertices -/
def vtxDist (P me nl : Nat) : Outcome (Mem Int) := do
  let m ← (List.range (me + 2)).foldlM (fun (m : Mem Int) i => m.store i 0) (Mem.alloc (P + 1))
  (List.range' (me + 1) (P + 1 - (me + 1))).foldlM (fun (m : Mem Int) i => m.store i (nl : Int)) m

/-- `MPI_Allreduce(MPI_IN_PLACE, vtxdist, P+1, …, MPI_SUM)`, engpar_parmetis.cpp:31-36 -/
def sumDists (P : Nat) (ds : List (Mem Int)) : Outcome (List Int) :=
  (List.range (P + 1)).mapM (fun i => do
    let xs ← ds.mapM (fun d => d.load i)
    return xs.sum)

/-- the neighbours and the parts of the remote copies of one vertex -/
structure PmNbrs where
  nbrs : List Handle
  res : Peers

/-- one pin, engpar_parmetis.cpp:57-64 (`slf` is `input->self`) -/
def pmPin (g : Graph) (slf : Part) (isLocal : Bool) (vtx : Handle) (s : PmNbrs) (other : Handle) :
    Outcome (PmNbrs × Bool) :=
  if other = vtx then .ok (s, false)
  else do
    let o ← g.owner other
    let nb := if !isLocal || decide (o = slf) then insertSet s.nbrs other else s.nbrs
    let res := if !isLocal then Peers.insert o s.res else s.res
    return (⟨nb, res⟩, false)

/-- one edge, engpar_parmetis.cpp:53-66 -/
def pmEdge (g : Graph) (slf : Part) (isLocal : Bool) (vtx : Handle) (s : PmNbrs) (edge : Handle) :
    Outcome (PmNbrs × Bool) := do
  let it ← g.pins edge
  let s ← iterLoop g.iterPin (pmPin g slf isLocal vtx) g.bound it s
  return (s, false)

/-- the state of the first loop -/
structure PmFirst where
  gids : Mem Int
  i : Nat
  degs : Nat
  msgs : List (Part × (Gid × Int))

/-- one vertex of the first loop, engpar_parmetis.cpp:45-79 (`pcu` is `PCU_Comm_Self()`, `base` is
`vtxdist[PCU_Comm_Self()]`) -/
def pmVertex (g : Graph) (t : Nat) (slf pcu : Part) (isLocal : Bool) (base : Int) (s : PmFirst) (vtx : Handle) :
    Outcome (PmFirst × Bool) := do
  let gids ← s.gids.store s.i (base + s.i)
  let it ← g.edges vtx t
  let n ← iterLoop g.iterEdge (pmEdge g slf isLocal vtx) g.bound it ⟨[], []⟩
  let res := n.res.filter (fun q => decide (q ≠ pcu))
  let gid ← g.globalID vtx
  let num ← gids.load s.i
  return (⟨gids, s.i + 1, s.degs + n.nbrs.length, s.msgs ++ res.map (fun q => (q, (gid, num)))⟩, false)

/-- the first loop, engpar_parmetis.cpp:38-80 -/
def pmFirst (g : Graph) (t : Nat) (slf pcu : Part) (isLocal : Bool) (base : Int) : Outcome PmFirst :=
  iterLoop g.iterVertex (pmVertex g t slf pcu isLocal base) g.bound vertexBegin ⟨Mem.alloc g.numLocal, 0, 0, []⟩

/-- `ghost_gids`, engpar_parmetis.cpp:82-88 -/
def ghostGids (msgs : List (Nat × (Gid × Int))) : GMap Int :=
  msgs.foldl (fun m x => m.put x.2.1 x.2.2) GMap.empty

/-- `while ((other = g->iterate(gitr)))` with `g->edge(gitr)` in the body -/
def adjLoop {β : Type} (g : Graph) (body : β → Handle → Handle → Outcome β) : Nat → AdjIt → β → Outcome β
  | 0, _, _ => .ub
  | fuel + 1, it, b => do
    let (h, it') ← g.iterAdj it
    if h = 0 then return b
    else do
      let b ← body b h it'.edge
      adjLoop g body fuel it' b

/-- `neighbors[other] += w`: `int += double` -/
def addNbr (h : Handle) (w : Rat) : List (Handle × Int) → List (Handle × Int)
  | [] => [(h, truncD w)]
  | x :: l => if x.1 = h then (h, truncD ((x.2 : Rat) + w)) :: l else x :: addNbr h w l

/-- the body of the loop over the adjacent vertices, engpar_parmetis.cpp:104-108 -/
def pmAdj (g : Graph) (vtx : Handle) (l : List (Handle × Int)) (other edge : Handle) : Outcome (List (Handle × Int)) :=
  if other = vtx then .ok l
  else do
    let w ← g.weightE edge
    return addNbr other w l

/-- `adjncy`, `ewgts`, `deg` -/
structure PmAdjSt where
  adjncy : Mem Int
  ewgts : Mem Int
  deg : Nat

/-- `adjncy[deg] = x; ewgts[deg++] = w` -/
def PmAdjSt.push (s : PmAdjSt) (x w : Int) : Outcome PmAdjSt := do
  let a ← s.adjncy.store s.deg x
  let e ← s.ewgts.store s.deg w
  return ⟨a, e, s.deg + 1⟩

/-- one neighbour, engpar_parmetis.cpp:110-122; a gid missing in `ghost_gids` reads 0 (`operator[]`) -/
def putNbr (g : Graph) (slf : Part) (isLocal : Bool) (gids : Mem Int) (ghosts : GMap Int) (s : PmAdjSt)
    (x : Handle × Int) : Outcome PmAdjSt := do
  let o ← g.owner x.1
  if o = slf then do
    let l ← vidx x.1
    let n ← gids.load l
    s.push n x.2
  else if !isLocal then do
    let gid ← g.globalID x.1
    s.push ((ghosts gid).getD 0) x.2
  else return s

/-- the state of the second loop -/
structure PmSecond where
  i : Nat
  xadj : Mem Int
  vwgts : Mem Int
  a : PmAdjSt

/-- one vertex of the second loop, engpar_parmetis.cpp:98-127; `ord i` is the order in which the `unordered_map` of
vertex `i` is iterated -/
def pmRow (g : Graph) (t : Nat) (slf : Part) (isLocal : Bool) (gids : Mem Int) (ghosts : GMap Int)
    (ord : Nat → List (Handle × Int) → List (Handle × Int)) (s : PmSecond) (vtx : Handle) :
    Outcome (PmSecond × Bool) := do
  let w ← g.weight vtx
  let vw ← s.vwgts.store s.i (truncD w)
  let it ← g.adjacent vtx t
  let nb ← adjLoop g (pmAdj g vtx) g.adjFuel it []
  let a ← (ord s.i nb).foldlM (putNbr g slf isLocal gids ghosts) s.a
  let x ← s.xadj.store (s.i + 1) (a.deg : Int)
  return (⟨s.i + 1, x, vw, a⟩, false)

/-- the second loop, engpar_parmetis.cpp:90-127 -/
def pmSecond (g : Graph) (t : Nat) (slf : Part) (isLocal : Bool) (f : PmFirst) (ghosts : GMap Int)
    (ord : Nat → List (Handle × Int) → List (Handle × Int)) : Outcome PmSecond := do
  let x ← (Mem.alloc (g.numLocal + 1)).store 0 0
  iterLoop g.iterVertex (pmRow g t slf isLocal f.gids ghosts ord) g.bound vertexBegin
    ⟨0, x, Mem.alloc g.numLocal, ⟨Mem.alloc f.degs, Mem.alloc f.degs, 0⟩⟩

/-- what one part hands to `ParMETIS_V3_PartKway`, engpar_parmetis.cpp:145-148 -/
structure PmInput where
  vtxdist : List Int
  xadj : List Int
  adjncy : List Int
  vwgts : List Int
  ewgts : List Int

/-- reading an array completely -/
def readAll (m : Mem Int) : Outcome (List Int) := (List.range m.length).mapM m.load

/-- the arrays handed over -/
def pmInput (dist : List Int) (s : PmSecond) : Outcome PmInput := do
  let x ← readAll s.xadj
  let a ← readAll s.a.adjncy
  let v ← readAll s.vwgts
  let e ← readAll s.a.ewgts
  return ⟨dist, x, a, v, e⟩

/-- `EnGPar_ParMETIS(input, target_parts, false)` up to the partitioner, on all parts of a communicator
(engpar_parmetis.cpp:16-148 with `isLocal` false; `input->self` is the rank) -/
def parmetisAll (gs : List Graph) (t : Nat) (orders : Nat → List Nat)
    (ord : Nat → Nat → List (Handle × Int) → List (Handle × Int)) : Outcome (List PmInput) := do
  let ds ← gs.zipIdx.mapM (fun x => vtxDist gs.length x.2 x.1.numLocal)
  let dist ← sumDists gs.length ds
  let fs ← gs.zipIdx.mapM (fun x => do
    let base ← rd dist x.2
    pmFirst x.1 t (x.2 : Int) (x.2 : Int) false base)
  let inb ← exchange (fs.map (fun f => f.msgs)) orders
  (List.range gs.length).mapM (fun p => do
    let g ← rd gs p
    let f ← rd fs p
    let msgs ← rd inb p
    let s ← pmSecond g t (p : Int) false f (ghostGids msgs) (ord p)
    pmInput dist s)

/-- `EnGPar_ParMETIS(input, split_factor, true)` up to the partitioner: the part alone on `MPI_COMM_SELF`
(engpar_parmetis.cpp:16-148 with `isLocal` true, called from engpar_split.cpp:42-43); `input->self` is the rank in
the original communicator, `PCU_Comm_Self()` is 0 and `PCU_Comm_Peers()` is 1 -/
def parmetisLocal (g : Graph) (slf : Part) (t : Nat) (orders : Nat → List Nat)
    (ord : Nat → List (Handle × Int) → List (Handle × Int)) : Outcome PmInput := do
  let d ← vtxDist 1 0 g.numLocal
  let dist ← sumDists 1 [d]
  let base ← rd dist 0
  let f ← pmFirst g t slf 0 true base
  let inb ← exchange [f.msgs] orders
  let msgs ← rd inb 0
  let s ← pmSecond g t slf true f (ghostGids msgs) ord
  pmInput dist s

/-- the plan made from the result of the partitioner, engpar_parmetis.cpp:155-162 -/
def parmetisPlan (g : Graph) (newPart : List Int) : Outcome Plan := do
  let p ← g.newPlan
  let r ← iterLoop g.iterVertex (fun (s : Plan × Nat) v => do
    let d ← rd newPart s.2
    let x ← g.planInsert s.1 v d
    return ((x.1, s.2 + 1), false)) g.bound vertexBegin (p, 0)
  return r.1

/-- the destinations of a local split, engpar_split.cpp:44-47: `plan->get(v)` is replaced by `other_ranks[plan->get(v)]`.
The loop runs over the vector of planned vertices; `insert` of a planned vertex does not change that vector. -/
def localDest (g : Graph) (otherRanks : List Int) (p : Plan) : Outcome Plan :=
  p.sending.foldlM (fun p v => do
    let d ← g.planGet p v
    if d < 0 then .ub
    else do
      let r ← rd otherRanks d.toNat
      let x ← g.planInsert p v r
      return x.1) p

end Verif.Part
