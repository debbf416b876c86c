import Verif.Agi.DistModel
/-!
# Model of the graphs made from a mesh: `interfaces/apfGraph.cpp`, `interfaces/dofGraph.cpp`

All ranks together; line numbers are of `interfaces/apfGraph.cpp` unless another file is named.

The mesh database (`apf::Mesh`, another library) is a parameter: what its functions tell a part about the entities of
the chosen dimensions.  An entity is named by its global number (`apf::numberOwnedDimension`, `makeGlobal`,
`synchronize`), which is the same on all parts.  Not modelled: the log, the names of the numberings, the destructor.
-/
namespace Verif.Mesh
open Verif.Agi

/-- an entity of the primary dimension as a part sees it: it becomes a vertex of the graph if it is owned
(`m->isOwned`); `down` are the numbers of the adjacent entities (`m->getAdjacent`), per edge type -/
structure Elm where
  gid : Gid
  owned : Bool
  centroid : Coord
  down : List (List Gid)

/-- an entity of a secondary dimension as a part sees it: it becomes an edge of the graph (`w` is its weight in a graph of
degrees of freedom); `res` are the
parts of `m->getResidence` (a `std::set`), `adj` the adjacent entities of the primary dimension, each with `m->isOwned` -/
structure Ent where
  gid : Gid
  owned : Bool
  shared : Bool
  res : List Nat
  adj : List (Gid × Bool)
  w : Wgt

/-- what the mesh tells a part, in the order of `m->iterate`; `ents` per edge type -/
structure MeshPart where
  elms : List Elm
  ents : List (List Ent)

/-- the graph under construction with the members `ghosts` and `owns`, interfaces/apfGraph.h:42-43 -/
structure MGraph where
  g : Graph
  ghosts : List Gid
  owns : List Part

/-- `checkDims`, lines 98-121 (throws) -/
def checkDims (peers : Nat) (dim primary second : Int) : Outcome Unit :=
  if primary > dim ∨ primary < 0 ∨ second > dim ∨ second < 0 then .fail
  else if primary = second then .fail
  else if primary ≠ dim ∧ 1 < peers then .fail
  else .ok ()

/-- `apf::countOwned` of the primary dimension -/
def MeshPart.numOwned (m : MeshPart) : Nat := (m.elms.filter (fun x => x.owned)).length

/-- the body of the loop of `setupPrimary`, lines 153-164; the second component is `lid` -/
def primStep (s : Graph × Nat) (x : Elm) : Outcome (Graph × Nat) :=
  if x.owned then do
    let w ← s.1.weights.store s.2 1
    let co ← deref s.1.coords
    let co ← co.store s.2 x.centroid
    let lu ← s.1.localUnmap.store s.2 x.gid
    return ({ s.1 with weights := w, coords := some co, vtxMap := s.1.vtxMap.put x.gid s.2, localUnmap := lu }, s.2 + 1)
  else .ok s

/-- constructor and `setupPrimary`, lines 66-78 and 123-166; `total` is the sum of the owned counts (`PCU_Add_Long`).
An empty mesh throws. -/
def setupPrimary (self peers : Nat) (total : Int) (m : MeshPart) : Outcome MGraph :=
  if total = 0 then .fail
  else do
    let n := m.numOwned
    let g0 := { emptyGraph self peers with isHyper := true, globalVerts := total, numLocal := n, weights := Mem.ofList (List.replicate n 0), coords := some (Mem.alloc n), localUnmap := Mem.alloc n }
    let (g, _) ← m.elms.foldlM primStep (g0, 0)
    return ⟨g, [], []⟩

/-- `setEdge`, agi/agiEdge.cpp:163-168 -/
def setEdge (e : EType) (lid : Nat) (gid : Gid) (w : Wgt) : Outcome EType := do
  let u ← e.unmap.store lid gid
  let ws ← e.weights.store lid w
  return { e with unmap := u, weights := ws, edgeMap := e.edgeMap.put gid lid }

/-- the weight of an edge, line 191; interfaces/dofGraph.cpp:81 -/
def entW (dof : Bool) (x : Ent) : Wgt := if dof then x.w else 1

/-- the body of the loop of `setupSecondary`, lines 189-192 -/
def secStep (dof : Bool) (s : EType × Nat) (x : Ent) : Outcome (EType × Nat) := do
  let e ← setEdge s.1 s.2 x.gid (entW dof x)
  return (e, s.2 + 1)

/-- `setupSecondary`, lines 168-195, for the edge type `t = num_types`; `total` is the sum of the owned counts.
`addEdgeType` asserts that a type is free (agi/ngraph.h:551); `makeEdgeArray`, agi/agiEdge.cpp:158-161 -/
def setupSecondary (dof : Bool) (t : Nat) (total : Int) (m : MeshPart) (s : MGraph) : Outcome MGraph :=
  if s.g.numTypes = maxTypes then .fail
  else do
    let es ← rd m.ents t
    let e0 : EType := { numEdges := es.length, numPins := 0, globalEdges := total, globalPins := 0, weights := Mem.alloc es.length, degreeList := [], edgeList := [], pinDegree := [], pinList := [], edgeMap := GMap.empty, unmap := Mem.alloc es.length }
    let (e, _) ← es.foldlM (secStep dof) (e0, 0)
    return { s with g := { s.g with numTypes := s.g.numTypes + 1, types := s.g.types.set t (some e) } }

/-- `edge_mapping[type][gid]`: an absent id gives 0 (and the insertion is left out) -/
def eidx (e : EType) (gid : Gid) : Nat := (e.edgeMap gid).getD 0

/-- the body of the loop of `connectToEdges`, lines 210-229 -/
def edgeStep (t : Nat) (g : Graph) (e : EType) (s : Mem Nat × List Nat) (x : Elm) : Outcome (Mem Nat × List Nat) :=
  if x.owned then do
    let d ← rd x.down t
    let dl ← s.1.store (g.lookup0 x.gid + 1) (s.2.length + d.length)
    return (dl, s.2 ++ d.map (eidx e))
  else .ok s

/-- `connectToEdges`, lines 198-234, and the number of edges added -/
def connectToEdges (t : Nat) (m : MeshPart) (s : MGraph) : Outcome (MGraph × Nat) := do
  let e ← s.g.slot t
  let dl ← (Mem.alloc (s.g.numLocal + 1) : Mem Nat).store 0 0
  let (dl, eds) ← m.elms.foldlM (edgeStep t s.g e) (dl, [])
  return ({ s with g := { s.g with types := s.g.types.set t (some { e with degreeList := dl, edgeList := Mem.ofList eds }) } }, eds.length)

/-- line 235: the sum of the lengths -/
def setGlobalPins (t : Nat) (total : Int) (s : MGraph) : Outcome MGraph := do
  let e ← s.g.slot t
  return { s with g := { s.g with types := s.g.types.set t (some { e with globalPins := total }) } }

/-! ## pins -/

/-- the parts that get messages about an entity: the others that have it -/
def others (self : Nat) (x : Ent) : List Nat := x.res.filter (fun q => decide (q ≠ self))

/-- the owned adjacent entities -/
def Ent.mine (x : Ent) : List Gid := (x.adj.filter (fun v => v.2)).map Prod.fst

/-- the initial `pdl`, lines 243-245; zeroed in interfaces/dofGraph.cpp:134-137 -/
def pdlInit (dof : Bool) (n : Nat) : Outcome (Mem Nat) :=
  if dof then .ok (Mem.ofList (List.replicate (n + 1) 0)) else (Mem.alloc (n + 1) : Mem Nat).store 0 0

/-- `assert(pdl[lid+1] == 0)`, interfaces/dofGraph.cpp:159 -/
def pdlCheck (dof : Bool) (pdl : Mem Nat) (i : Nat) : Outcome Unit :=
  if dof then do
    let x ← pdl.load i
    if x = 0 then .ok () else .fail
  else .ok ()

/-- the body of the counting loop, lines 252-277 (interfaces/dofGraph.cpp:147-171) -/
def countStep (dof : Bool) (self : Nat) (e : EType) (s : Mem Nat × List (Part × (Gid × Nat))) (x : Ent) :
    Outcome (Mem Nat × List (Part × (Gid × Nat))) := do
  pdlCheck dof s.1 (eidx e x.gid + 1)
  let pdl ← s.1.store (eidx e x.gid + 1) x.mine.length
  return (pdl, s.2 ++ if x.shared then (others self x).map (fun q : Nat => ((q : Int), (x.gid, x.mine.length))) else [])

/-- lines 240-278 (interfaces/dofGraph.cpp:132-174): the counts and the messages about them -/
def countPins (dof : Bool) (t self : Nat) (m : MeshPart) (s : MGraph) :
    Outcome (Mem Nat × List (Part × (Gid × Nat))) := do
  let e ← s.g.slot t
  let es ← rd m.ents t
  let pdl ← pdlInit dof e.numEdges
  es.foldlM (countStep dof self e) (pdl, [])

/-- receiving a count, lines 281-290 -/
def recvCount (e : EType) (pdl : Mem Nat) (m : Nat × (Gid × Nat)) : Outcome (Mem Nat) := do
  let x ← pdl.load (eidx e m.2.1 + 1)
  pdl.store (eidx e m.2.1 + 1) (x + m.2.2)

/-- lines 281-301: counts from the others, offsets, the pin array -/
def finishCounts (t : Nat) (s : MGraph) (pdl : Mem Nat) (msgs : List (Nat × (Gid × Nat))) : Outcome MGraph := do
  let e ← s.g.slot t
  let pdl ← msgs.foldlM (recvCount e) pdl
  let pdl ← (List.range' 2 (e.numEdges - 1)).foldlM prefixStep pdl
  let n ← pdl.load e.numEdges
  return { s with g := { s.g with types := s.g.types.set t (some { e with pinDegree := pdl, numPins := n, pinList := Mem.alloc n }) } }

/-- `pl[temp_counts[lid]++] = lvid`, lines 330 and 363 -/
def putPin (s : Mem Nat × Mem Nat) (lid x : Nat) : Outcome (Mem Nat × Mem Nat) := do
  let a ← s.1.load lid
  let pl ← s.2.store a x
  let temp ← s.1.store lid (a + 1)
  return (temp, pl)

/-- lines 321-337: an owned adjacent entity of `x` -/
def pinStep (self : Nat) (g : Graph) (e : EType) (x : Ent) (s : (Mem Nat × Mem Nat) × List (Part × (Gid × Gid)))
    (v : Gid) : Outcome ((Mem Nat × Mem Nat) × List (Part × (Gid × Gid))) := do
  let f ← putPin s.1 (eidx e x.gid) (g.lookup0 v)
  return (f, s.2 ++ (others self x).map (fun q : Nat => ((q : Int), (x.gid, v))))

/-- lines 307-338: the pins of one hyperedge -/
def entStep (self : Nat) (g : Graph) (e : EType) (s : (Mem Nat × Mem Nat) × List (Part × (Gid × Gid))) (x : Ent) :
    Outcome ((Mem Nat × Mem Nat) × List (Part × (Gid × Gid))) :=
  x.mine.foldlM (pinStep self g e x) s

/-- lines 296-299 and 304-339: the part's own pins, and the messages -/
def localPins (t self : Nat) (m : MeshPart) (s : MGraph) :
    Outcome ((Mem Nat × Mem Nat) × List (Part × (Gid × Gid))) := do
  let e ← s.g.slot t
  let es ← rd m.ents t
  es.foldlM (entStep self s.g e) ((e.pinDegree.take e.numEdges, e.pinList), [])

/-- lines 349-361: the local id of a vertex; an unknown one becomes a ghost owned by the sender -/
def ghostFor (s : MGraph) (from_ : Nat) (v : Gid) : MGraph × Nat :=
  match s.g.vtxMap v with
  | some l => (s, l)
  | none =>
    (⟨{ s.g with vtxMap := s.g.vtxMap.put v (s.g.numLocal + s.g.numGhost), numGhost := s.g.numGhost + 1 },
      s.ghosts ++ [v], s.owns ++ [(from_ : Int)]⟩, s.g.numLocal + s.g.numGhost)

/-- receiving a pin, lines 342-365 -/
def recvPin (e : EType) (s : MGraph × (Mem Nat × Mem Nat)) (m : Nat × (Gid × Gid)) :
    Outcome (MGraph × (Mem Nat × Mem Nat)) := do
  let r := ghostFor s.1 m.1 m.2.2
  let f ← putPin s.2 (eidx e m.2.1) r.2
  return (r.1, f)

/-- `assert(temp_counts[i]==pdl[i+1])`, line 369 -/
def pinCheck (temp pdl : Mem Nat) (_ : Unit) (i : Nat) : Outcome Unit := do
  let a ← temp.load i
  let b ← pdl.load (i + 1)
  if a = b then .ok () else .fail

/-- lines 342-371 -/
def finishPins (t : Nat) (s : MGraph) (f : Mem Nat × Mem Nat) (msgs : List (Nat × (Gid × Gid))) : Outcome MGraph := do
  let e ← s.g.slot t
  let (s, f) ← msgs.foldlM (recvPin e) (s, f)
  (List.range' 0 e.numEdges).foldlM (pinCheck f.1 e.pinDegree) ()
  return { s with g := { s.g with types := s.g.types.set t (some { e with pinList := f.2 }) } }

/-- the number of owned entities of type `t` (`apf::countOwned`) -/
def MeshPart.ownedEnts (m : MeshPart) (t : Nat) : Nat := ((m.ents.getD t []).filter (fun x => x.owned)).length

/-- lines 81-83 (59-61) on all parts: one edge type; `total` is its global number of edges, `oc` and `op` are the
delivery orders of the two exchanges -/
def addType (dof : Bool) (ms : List MeshPart) (t : Nat) (total : Int) (oc op : Nat → List Nat) (st : List MGraph) :
    Outcome (List MGraph) := do
  let st ← (ms.zip st).mapM (fun x => setupSecondary dof t total x.1 x.2)
  let r ← (ms.zip st).mapM (fun x => connectToEdges t x.1 x.2)
  let st ← (r.map Prod.fst).mapM (setGlobalPins t ((r.map (fun x => (x.2 : Int))).sum))
  let cs ← ((ms.zip st).zipIdx).mapM (fun x => countPins dof t x.2 x.1.1 x.1.2)
  let ins ← exchange (cs.map Prod.snd) oc
  let st ← (st.zip ((cs.map Prod.fst).zip ins)).mapM (fun x => finishCounts t x.1 x.2.1 x.2.2)
  let fs ← ((ms.zip st).zipIdx).mapM (fun x => localPins t x.2 x.1.1 x.1.2)
  let ins ← exchange (fs.map Prod.snd) op
  (st.zip ((fs.map Prod.fst).zip ins)).mapM (fun x => finishPins t x.1 x.2.1 x.2.2)

/-- `std::copy` of a vector into `new T[n]`, lines 382-385 -/
def copyTo {α : Type} (n : Nat) (l : List α) : Outcome (Mem α) :=
  (List.range' 0 l.length).foldlM (fun (m : Mem α) i => do
    let x ← rd l i
    m.store i x) (Mem.alloc n)

/-- the first part of `constructGhostVerts`, lines 379-386 -/
def setGhosts (s : MGraph) : Outcome Graph :=
  if 0 < s.g.numGhost then do
    let gu ← copyTo s.g.numGhost s.ghosts
    let ow ← copyTo s.g.numGhost s.owns
    return { s.g with ghostUnmap := some gu, owners := some ow }
  else .ok s.g

/-- what the run does not determine: delivery orders of the exchanges -/
structure MeshEnv where
  counts : Nat → Nat → List Nat
  pins : Nat → Nat → List Nat
  ask : Nat → List Nat
  answer : Nat → List Nat

/-- the constructor, lines 66-86 (47-64 is the case of one type), for `T` edge types -/
def buildMesh (ms : List MeshPart) (T : Nat) (env : MeshEnv) : Outcome (List Graph) := do
  let total : Int := (ms.map (fun m => (m.numOwned : Int))).sum
  let st ← (ms.zipIdx).mapM (fun x => setupPrimary x.2 ms.length total x.1)
  let st ← (List.range T).foldlM (fun st t =>
    addType false ms t ((ms.map (fun m => (m.ownedEnts t : Int))).sum) (env.counts t) (env.pins t) st) st
  let gs ← st.mapM setGhosts
  setGhostWeights gs env.ask env.answer

/-- `createAPFGraph`, lines 25-37 and 66-86: the dimensions are checked first -/
def apfGraph (dim primary : Int) (seconds : List Int) (ms : List MeshPart) (env : MeshEnv) : Outcome (List Graph) := do
  seconds.foldlM (fun (_ : Unit) d => checkDims ms.length dim primary d) ()
  buildMesh ms seconds.length env

/-! ## graphs of degrees of freedom: interfaces/dofGraph.cpp -/

/-- `hasDOFs`, interfaces/dofGraph.cpp:283-305 -/
def hasDOFs (order : Int) (d : Nat) : Bool :=
  if d = 0 then true else if d = 1 then decide (2 ≤ order) else if d = 2 then decide (4 ≤ order) else false

/-- `numDOFs`, interfaces/dofGraph.cpp:309-329 -/
def numDOFs (order : Int) (d : Nat) : Int :=
  if hasDOFs order d = false then 0
  else if d = 0 then 1 else if d = 1 then order - 1 else if d = 2 then order - 3 else 0

/-- lines 41-53 of interfaces/dofGraph.cpp: `num_global_edges` after the dimensions below `d`.  The sum over the parts
is taken twice: `global_count` is already the sum, and every part adds it again -/
def dofTotal (order : Int) (ms : List MeshPart) : Nat → Int
  | 0 => 0
  | d + 1 => dofTotal order ms d +
      if hasDOFs order d then (ms.length : Int) * (ms.map (fun m => (m.ownedEnts d : Int))).sum else 0

/-- lines 72-84: the number of an entity of dimension `d` is moved by `offset_global_edges[d+1]` -/
def dofNum (order : Int) (ms : List MeshPart) (d : Nat) (gid : Gid) : Gid := gid + dofTotal order ms (d + 1)

/-- the dimensions below the mesh dimension `D` that have degrees of freedom -/
def dofDims (order : Int) (D : Nat) : List Nat := (List.range D).filter (fun d => hasDOFs order d)

/-- what a part sees of the mesh when the entities of all these dimensions are the edges of one type: renumbered, with
the number of degrees of freedom as weight.  The loops over the dimensions (lines 71-85, 108-120, 143-174, 205-247)
visit them in this order. -/
def dofPart (order : Int) (D : Nat) (ms : List MeshPart) (m : MeshPart) : MeshPart :=
  { elms := m.elms.map (fun x => { x with down := [(dofDims order D).flatMap (fun d => (x.down.getD d []).map (dofNum order ms d))] }),
    ents := [(dofDims order D).flatMap (fun d => (m.ents.getD d []).map (fun y =>
      { y with gid := dofNum order ms d y.gid, w := (numDOFs order d : Rat) }))] }

/-- `createSerendipityGraph`, interfaces/dofGraph.cpp:11-33; `ents` and `down` of the parts are per dimension -/
def dofGraph (order : Int) (D : Nat) (ms : List MeshPart) (env : MeshEnv) : Outcome (List Graph) := do
  let ms' := ms.map (dofPart order D ms)
  let total : Int := (ms.map (fun m => (m.numOwned : Int))).sum
  let st ← (ms'.zipIdx).mapM (fun x => setupPrimary x.2 ms'.length total x.1)
  let st ← addType true ms' 0 (dofTotal order ms D) (env.counts 0) (env.pins 0) st
  let gs ← st.mapM setGhosts
  setGhostWeights gs env.ask env.answer

end Verif.Mesh
