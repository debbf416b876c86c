import Verif.Part.QueueModel
import Verif.Part.SortModel
/-!
# Model of the distance queue, partition/Diffusive/src/engpar_queue.cpp:67-390

The queue hypergraphs use by default (partition/Diffusive/engpar_diffusive_input.cpp:9-12, engpar_balancer.cpp:129-130).  A breadth-first
search over the edges of type 0, from the boundary edges, finds the edges farthest from the boundary; a second one, from
those, orders the edges.  Arrays are memory blocks: reading a cell outside the block or not written yet is undefined
behaviour; so is a loop that does not end within the rounds there are cells.
-/
namespace Verif.Part
open Verif.Agi

/-- `Inputs`, lines 67-104; an array not allocated is an empty block -/
structure Inputs where
  seeds : Mem Nat
  numSeeds : Nat
  visited : Mem Int
  numOsets : Nat
  numSets : Int
  parents : Mem Int
  setSize : Mem Int
  labels : Mem Int

/-- `visitFn`, line 106 -/
abbrev Visit := Inputs → Nat → Nat → Outcome (Inputs × Bool)

/-- `depth_visit`, lines 109-117 -/
def depthVisit : Visit := fun i src dst => do
  let d ← i.visited.load src
  let x ← i.visited.load dst
  if x = -1 then do
    let s ← i.seeds.store i.numSeeds dst
    let v ← i.visited.store dst (d + 1)
    return ({ i with seeds := s, numSeeds := i.numSeeds + 1, visited := v }, true)
  else return (i, false)

/-- `while (l != parents[l]) l = parents[l];`, lines 125-126, 135-136, 356-357 -/
def findRoot (par : Mem Int) : Nat → Int → Outcome Int
  | 0, _ => .ub
  | fuel + 1, l => do
    let p ← loadI par l
    if l = p then return l else findRoot par fuel p

/-- joining two sets, lines 138-141 -/
def joinSets (i : Inputs) (a b : Int) : Outcome Inputs := do
  let x ← loadI i.setSize a
  let y ← loadI i.setSize b
  let sz ← storeI i.setSize a (x + y)
  let sz ← storeI sz b 0
  let par ← storeI i.parents b a
  return { i with numSets := i.numSets - 1, setSize := sz, parents := par }

/-- `distance_visit`, lines 120-144 -/
def distanceVisit : Visit := fun i src dst => do
  let l ← i.labels.load src
  let d ← i.visited.load src
  if l = -1 then return (i, false)
  else do
    let r ← findRoot i.parents (i.parents.length + 1) l
    let x ← i.visited.load dst
    if x = -1 then do
      let s ← i.seeds.store i.numSeeds dst
      let v ← i.visited.store dst (d + 1)
      let lab ← i.labels.store dst r
      let c ← loadI i.setSize r
      let sz ← storeI i.setSize r (c + 1)
      return ({ i with seeds := s, numSeeds := i.numSeeds + 1, visited := v, labels := lab, setSize := sz }, true)
    else do
      let l2 ← i.labels.load dst
      let r2 ← findRoot i.parents (i.parents.length + 1) l2
      if r ≠ r2 then do
        let i ← joinSets i r r2
        return (i, false)
      else return (i, false)

/-- `for (i=start_seed;i<in->numSeeds;i++) in->visited[in->seeds[i]] = start_depth;`, lines 163-164, 210-211 -/
def setDepth (start : Nat) (depth : Int) (s : Inputs) : Outcome Inputs :=
  (List.range' start (s.numSeeds - start)).foldlM (fun (s : Inputs) i => do
    let e ← s.seeds.load i
    let v ← s.visited.store e depth
    return { s with visited := v }) s

/-- the edges of a bridge, lines 177-184 -/
def pushDest (g : Graph) (visit : Visit) (src : Handle) (s : Inputs) (dst : Handle) : Outcome (Inputs × Bool) := do
  if dst = src then return (s, false)
  else do
    let (_, a) ← g.decodeEdge src
    let (_, b) ← g.decodeEdge dst
    let (s, _) ← visit s a b
    return (s, false)

/-- a pin of the edge taken from the queue, lines 171-187; the tag `processed` holds one cell per local vertex -/
def pushBridge (g : Graph) (visit : Visit) (src : Handle) (st : Inputs × Mem Int) (bridge : Handle) :
    Outcome ((Inputs × Mem Int) × Bool) := do
  let o ← g.owner bridge
  if o ≠ g.self then return (st, false)
  else do
    let p ← g.getVtxTag st.2 bridge
    if p ≠ 0 then return (st, false)
    else do
      let it ← g.edges bridge 0
      let s ← iterLoop g.iterEdge (pushDest g visit src) g.bound it st.1
      let tag ← Graph.setVtxTag st.2 bridge 1
      return ((s, tag), false)

/-- the loop `while (index!=in->numSeeds)`, lines 167-189 -/
def pushLoop (g : Graph) (visit : Visit) : Nat → Nat → Inputs × Mem Int → Outcome Inputs
  | 0, _, _ => .ub
  | fuel + 1, index, st =>
    if index = st.1.numSeeds then .ok st.1
    else do
      let e ← st.1.seeds.load index
      let it ← g.pins (g.getEdge e 0)
      let st ← iterLoop g.iterPin (pushBridge g visit (g.getEdge e 0)) g.bound it st
      pushLoop g visit fuel (index + 1) st

/-- `bfs_push`, lines 155-192, for edge type 0 -/
def bfsPush (g : Graph) (start : Nat) (depth : Int) (visit : Visit) (s : Inputs) : Outcome (Inputs × Int) := do
  let tag ← iterLoop g.iterVertex (fun tag v => do
    let tag ← Graph.setVtxTag tag v 0
    return (tag, false)) g.bound vertexBegin (Mem.alloc g.numLocal)
  let s ← setDepth start depth s
  let s ← pushLoop g visit (s.seeds.length + 1) start (s, tag)
  let e ← loadI s.seeds ((s.numSeeds : Int) - 1)
  let d ← s.visited.load e
  return (s, d)

/-- is the edge `e` a better source than `source`, lines 226-228 -/
def better (visited : Mem Int) (x : Int) (source : Option Nat) : Outcome Bool :=
  if x = -1 then .ok false
  else match source with
    | none => .ok true
    | some f => do
      let y ← visited.load f
      return decide (x < y)

/-- the visited edge of a vertex with the least depth, lines 222-229 -/
def pullSource (et : EType) (visited : Mem Int) (lo hi : Nat) : Outcome (Option Nat) :=
  (List.range' lo (hi - lo)).foldlM (fun (source : Option Nat) j => do
    let e ← et.edgeList.load j
    let x ← visited.load e
    let b ← better visited x source
    return if b then some e else source) none

/-- the edges of a vertex whose source was found at this level, lines 231-234 -/
def pullVisit (et : EType) (visit : Visit) (source : Nat) (lo hi : Nat) (s : Inputs) (upd : Nat) :
    Outcome (Inputs × Nat) :=
  (List.range' lo (hi - lo)).foldlM (fun (st : Inputs × Nat) j => do
    let e ← et.edgeList.load j
    let (s, b) ← visit st.1 source e
    return (s, if b then st.2 + 1 else st.2)) (s, upd)

/-- is there a source, and was it found at this level, line 230 -/
def sourceAt (visited : Mem Int) (level : Int) : Option Nat → Outcome Bool
  | none => .ok false
  | some f => do
    let y ← visited.load f
    return decide (y = level)

/-- a vertex in a pass, lines 220-239.  `current_vtxs` and `next_vtxs` are lists here: no more vertices are put into the
second than there are in the first, and both blocks hold all local vertices. -/
def pullVertex (et : EType) (visit : Visit) (level : Int) (st : Inputs × Nat × List Nat) (v : Nat) :
    Outcome (Inputs × Nat × List Nat) := do
  let lo ← et.degreeList.load v
  let hi ← et.degreeList.load (v + 1)
  let source ← pullSource et st.1.visited lo hi
  let b ← sourceAt st.1.visited level source
  if b then do
    let f ← deref source
    let (s, upd) ← pullVisit et visit f lo hi st.1 st.2.1
    return (s, upd, st.2.2)
  else return (st.1, st.2.1, st.2.2 ++ [v])

/-- the passes, lines 218-247 -/
def pullLoop (et : EType) (visit : Visit) : Nat → Int → List Nat → Inputs → Outcome (Inputs × Int)
  | 0, _, _, _ => .ub
  | fuel + 1, level, cur, s => do
    let (s, upd, next) ← cur.foldlM (pullVertex et visit level) (s, 0, [])
    if upd ≠ 0 then pullLoop et visit fuel (level + 1) next s else return (s, level + 1)

/-- `bfs_pull`, lines 204-251, for edge type 0 -/
def bfsPull (g : Graph) (start : Nat) (depth : Int) (visit : Visit) (s : Inputs) : Outcome (Inputs × Int) := do
  let et ← g.slot 0
  let s ← setDepth start depth s
  pullLoop et visit (s.seeds.length + 2) depth (List.range g.numLocal) s

/-- lines 293-296, 340-343 -/
def bfsRun (push : Bool) (g : Graph) (start : Nat) (depth : Int) (visit : Visit) (s : Inputs) : Outcome (Inputs × Int) :=
  if push then bfsPush g start depth visit s else bfsPull g start depth visit s

/-- `seeds[numSeeds++] = e` -/
def addSeed (s : Inputs) (e : Nat) : Outcome Inputs := do
  let m ← s.seeds.store s.numSeeds e
  return { s with seeds := m, numSeeds := s.numSeeds + 1 }

/-- is one of the pins at the positions `lo … hi-1` a ghost?, lines 264-269 -/
def sharedPins (et : EType) (nl lo hi : Nat) : Outcome Bool :=
  (List.range' lo (hi - lo)).foldlM (fun (b : Bool) j => do
    let v ← et.pinList.load j
    return b || decide (nl ≤ v)) false

/-- the edge `i` of a hypergraph, lines 263-273 -/
def seedHyper (et : EType) (nl : Nat) (s : Inputs) (i : Nat) : Outcome Inputs := do
  let lo ← et.pinDegree.load i
  let hi ← et.pinDegree.load (i + 1)
  let b ← sharedPins et nl lo hi
  if b then addSeed s i else return s

/-- the edge `i` of a traditional graph, lines 277-281 -/
def seedTrad (et : EType) (nl : Nat) (s : Inputs) (i : Nat) : Outcome Inputs := do
  let v ← et.edgeList.load i
  if nl ≤ v then addSeed s i else return s

/-- the edges the first search starts from, lines 258-282 -/
def firstSeeds (g : Graph) (et : EType) (s : Inputs) : Outcome Inputs :=
  if g.numGhost = 0 then addSeed s 2
  else if g.isHyper then (List.range et.numEdges).foldlM (seedHyper et g.numLocal) s
  else (List.range et.numEdges).foldlM (seedTrad et g.numLocal) s

/-- `while (ind >= 0 && in2->visited[in1->seeds[ind]] != -1) --ind;`, lines 313-314 -/
def skipVisited (seeds1 : Mem Nat) (visited2 : Mem Int) : Nat → Int → Outcome Int
  | 0, _ => .ub
  | fuel + 1, ind =>
    if ind < 0 then .ok ind
    else do
      let e ← loadI seeds1 ind
      let x ← visited2.load e
      if x ≠ -1 then skipVisited seeds1 visited2 fuel (ind - 1) else return ind

/-- `if (in2->visited[e] == -1) in2->seeds[in2->numSeeds++] = e;`, lines 320-321 -/
def takeEdge (s : Inputs) (e : Nat) : Outcome Inputs := do
  let x ← s.visited.load e
  if x = -1 then addSeed s e else return s

/-- the loop that collects the deepest layer, lines 319-323 -/
def deepest (in1 : Inputs) (maxDepth : Int) : Nat → Int → Inputs → Outcome (Inputs × Int)
  | 0, _, _ => .ub
  | fuel + 1, ind, s =>
    if ind < 0 then .ok (s, ind)
    else do
      let e ← loadI in1.seeds ind
      let d ← in1.visited.load e
      if d = maxDepth then do
        let s ← takeEdge s e
        deepest in1 maxDepth fuel (ind - 1) s
      else return (s, ind)

/-- the disjoint sets and the labels of the seeds, lines 325-337 -/
def initSets (start : Nat) (s : Inputs) : Outcome Inputs := do
  let n := s.numSeeds - start
  let par ← (List.range n).foldlM (fun (m : Mem Int) i => m.store i (i : Int)) (Mem.alloc n)
  let sz ← (List.range n).foldlM (fun (m : Mem Int) i => m.store i 1) (Mem.alloc n)
  let lab ← (List.range' start n).foldlM (fun (m : Mem Int) i => do
    let e ← s.seeds.load i
    m.store e ((i : Int) - start)) s.labels
  return { s with numOsets := n, numSets := n, parents := par, setSize := sz, labels := lab }

/-- the largest set, lines 348-352 -/
def largest (sz : Mem Int) (n : Nat) : Outcome Nat :=
  (List.range' 1 (n - 1)).foldlM (fun l j => do
    let x ← sz.load j
    let y ← sz.load l
    return if y < x then j else l) 0

/-- one edge of the correction, lines 354-361 -/
def shiftEdge (l : Nat) (add : Int) (s : Inputs) (j : Nat) : Outcome Inputs := do
  let e ← s.seeds.load j
  let l2 ← s.labels.load e
  if l2 < 0 then return s
  else do
    let r ← findRoot s.parents (s.parents.length + 1) l2
    if r = (l : Int) then do
      let x ← s.visited.load e
      let v ← s.visited.store e (x + add)
      return { s with visited := v }
    else return s

/-- lines 353-362 -/
def shiftAll (start l : Nat) (add : Int) (s : Inputs) : Outcome Inputs :=
  if 0 < add then (List.range' start (s.numSeeds - start)).foldlM (shiftEdge l add) s else .ok s

/-- one round of the correction, lines 347-365 -/
def shiftSet (start : Nat) (st : Inputs × Int) (_ : Nat) : Outcome (Inputs × Int) := do
  let l ← largest st.1.setSize st.1.numOsets
  let s ← shiftAll start l st.2 st.1
  let x ← s.setSize.load l
  let sz ← s.setSize.store l 0
  return ({ s with setSize := sz }, st.2 + x)

/-- the correction, lines 345-367: the offset added to `depth` -/
def correct (start : Nat) (s : Inputs) : Outcome (Inputs × Int) :=
  if 1 < s.numSets then (List.range s.numSets.toNat).foldlM (shiftSet start) (s, 0) else .ok (s, 0)

/-- a round with a layer found, lines 325-375 -/
def roundBody (push : Bool) (g : Graph) (start : Nat) (depth : Int) (s : Inputs) : Outcome (Inputs × Int) := do
  let s ← initSets start s
  let (s, depth) ← bfsRun push g start depth distanceVisit s
  let (s, add) ← correct start s
  let seeds ← bfsSort s.seeds start ((s.numSeeds : Int) - 1) s.visited
  return ({ s with seeds := seeds, parents := [], setSize := [] }, depth + add)

/-- the rounds, lines 311-376 -/
def rounds (push : Bool) (g : Graph) (in1 : Inputs) : Nat → Int → Int → Inputs → Outcome Inputs
  | 0, _, _, _ => .ub
  | fuel + 1, ind, depth, s =>
    if in1.numSeeds ≤ s.numSeeds then .ok s
    else do
      let ind ← skipVisited in1.seeds s.visited (in1.seeds.length + 2) ind
      if ind < 0 then return s
      else do
        let e ← loadI in1.seeds ind
        let maxDepth ← in1.visited.load e
        let (s', ind) ← deepest in1 maxDepth (in1.seeds.length + 2) ind s
        if s'.numSeeds = s.numSeeds then rounds push g in1 fuel ind depth s'
        else do
          let (s', depth) ← roundBody push g s.numSeeds depth s'
          rounds push g in1 fuel ind depth s'

/-- an edge of the second search, lines 380-386 -/
def queueEdge (g : Graph) (s : Inputs) (q : Queue) (i : Nat) : Outcome Queue := do
  let e ← s.seeds.load (i - 1)
  let res ← g.getResidence (g.getEdge e 0) []
  if 1 < res.length then q.add (g.getEdge e 0) else return q

/-- a block of `n` cells holding -1 -/
def minusOnes (n : Nat) : Outcome (Mem Int) := (List.range n).foldlM (fun (m : Mem Int) i => m.store i (-1)) (Mem.alloc n)

/-- `numLocalEdges(0)`, agi/ngraph.h:151: 0 for a type not constructed (agi/agiConstruct.cpp:23) -/
def edgeCount (g : Graph) : Outcome Nat :=
  match g.types[0]? with
  | some (some e) => .ok e.numEdges
  | some none => .ok 0
  | none => .ub

/-- the two searches, lines 288-376; `n` edges, `in1` holds the seeds of the first -/
def searches (push : Bool) (g : Graph) (n : Nat) (in1 : Inputs) : Outcome Inputs := do
  let v1 ← minusOnes n
  let (in1, _) ← bfsRun push g 0 0 depthVisit { in1 with visited := v1 }
  let v2 ← minusOnes n
  let lab ← minusOnes n
  rounds push g in1 (in1.seeds.length + 2) ((in1.numSeeds : Int) - 1) 0 ⟨Mem.alloc n, 0, v2, 0, 0, [], [], lab⟩

/-- `createDistanceQueue`, lines 248-389; `push` is `input->bfsPush` -/
def distanceQueue (push : Bool) (g : Graph) : Outcome Queue := do
  let n ← edgeCount g
  if n = 0 then return Queue.new 0
  else do
    let et ← g.slot 0
    let in1 ← firstSeeds g et ⟨Mem.alloc n, 0, [], 0, 0, [], [], []⟩
    let q := Queue.new in1.numSeeds
    if in1.numSeeds = 0 then return q
    else do
      let in2 ← searches push g n in1
      (List.range' 1 in2.numSeeds).reverse.foldlM (queueEdge g in2) q

end Verif.Part
