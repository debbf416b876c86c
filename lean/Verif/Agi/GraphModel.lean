import Verif.Mem
/-!
# Model of the N-graph: data (`agi/pngraph.h`) and construction (`agi/agiConstruct.cpp`)

Conventions: `gid_t`, `part_t` are unbounded integers, `lid_t` counts and indices are natural
numbers, `wgt_t` is exact (`Rat`).  Arrays are memory blocks (`Mem`): an access outside a block or of
an unwritten cell is undefined behaviour.  `std::unordered_map` is a partial function.  Logging is left
out.  A handle (`GraphVertex*`, `GraphEdge*`) is the natural number stored in the pointer, NULL is 0.
-/
namespace Verif.Agi

/-- `gid_t` -/
notation "Gid" => Int
/-- `part_t` -/
notation "Part" => Int
abbrev Wgt := Rat
abbrev Coord := Rat × Rat × Rat
/-- the number in a `GraphVertex*` or `GraphEdge*` -/
notation "Handle" => Nat
/-- `std::unordered_map<gid_t, _>` -/
abbrev GMap (α : Type) := Gid → Option α

def GMap.empty {α : Type} : GMap α := fun _ => none
/-- `m[k] = a` -/
def GMap.put {α : Type} (m : GMap α) (k : Gid) (a : α) : GMap α := fun x => if x = k then some a else m x

/-- `MAX_TYPES`, agi/agi.h:32 -/
def maxTypes : Nat := 7

/-- the arrays of one edge type, agi/pngraph.h:29-147 -/
structure EType where
  numEdges : Nat
  numPins : Nat
  globalEdges : Int
  globalPins : Int
  weights : Mem Wgt
  degreeList : Mem Nat
  edgeList : Mem Nat
  pinDegree : Mem Nat
  pinList : Mem Nat
  edgeMap : GMap Nat
  unmap : Mem Gid
  /-- second adjacencies (`NULL` until created) -/
  vevOffsets : Option (Mem Nat) := none
  vevLists : Mem Nat := []
  eveOffsets : Option (Mem Nat) := none
  eveLists : Mem Nat := []

/-- the graph of one part, agi/pngraph.h:17-184; `self`/`peers` are the rank and number of ranks
(`PCU_Comm_Self`, `PCU_Comm_Peers`) -/
structure Graph where
  self : Part
  peers : Nat
  isHyper : Bool
  numTypes : Nat
  globalVerts : Int
  numLocal : Nat
  numGhost : Nat
  originalOwners : Option (Mem Part)
  weights : Mem Wgt
  coords : Option (Mem Coord)
  types : List (Option EType)
  vtxMap : GMap Nat
  localUnmap : Mem Gid
  ghostUnmap : Option (Mem Gid)
  owners : Option (Mem Part)
  /-- the `ghost_weights` tag (agi/ngraph.h:532) -/
  ghostWeights : Option (Mem Wgt)

/-- `new Ngraph`, agi/agiConstruct.cpp:10-42, on rank `self` of `peers` -/
def emptyGraph (self : Part) (peers : Nat) : Graph :=
  { self := self, peers := peers, isHyper := false, numTypes := 0, globalVerts := 0, numLocal := 0,
    numGhost := 0, originalOwners := none, weights := [], coords := none,
    types := List.replicate maxTypes none, vtxMap := GMap.empty, localUnmap := [], ghostUnmap := none,
    owners := none, ghostWeights := none }

/-- the arrays of edge type `t` (`NULL` arrays: undefined behaviour) -/
def Graph.slot (g : Graph) (t : Nat) : Outcome EType :=
  match g.types[t]? with
  | some (some e) => .ok e
  | _ => .ub

/-- the vertex loop of `constructVerts`, agi/agiConstruct.cpp:89-97 and 124-132: gid table, gid lookup;
`w` gives the weight written for index `i` -/
def vertStep (verts : List Gid) (w : Nat → Outcome Wgt) (g : Graph) (i : Nat) : Outcome Graph := do
  let v ← rd verts i
  let lu ← g.localUnmap.store i v
  let x ← w i
  let ws ← g.weights.store i x
  return { g with localUnmap := lu, vtxMap := g.vtxMap.put v i, weights := ws }

/-- lines 82-88 / 117-123 (after `destroyData`, lines 507-572) -/
def vertInit (g : Graph) (isHG : Bool) (n : Nat) : Graph :=
  { emptyGraph g.self g.peers with
    isHyper := isHG, numLocal := n, localUnmap := Mem.alloc n, weights := Mem.alloc n }

/-- `constructVerts(bool, vector, vector)`, agi/agiConstruct.cpp:70-104; `globalSum` is the result of
`PCU_Add_Long` on the local count (property C30) -/
def constructVertsV (g : Graph) (isHG : Bool) (verts : List Gid) (wgts : List Wgt) (globalSum : Int) :
    Outcome Graph := do
  let g := vertInit g isHG verts.length
  let g ← (List.range' 0 verts.length).foldlM
    (vertStep verts (fun i => if i < wgts.length then rd wgts i else .ok 1)) g
  return { g with numGhost := 0, globalVerts := globalSum }

/-- the weight written by the array version, lines 127-131: 1 for a NULL weight array -/
def weightAt (wgts : Option (List Wgt)) (i : Nat) : Outcome Wgt :=
  match wgts with
  | some l => rd l i
  | none => .ok 1

/-- `constructVerts(bool, lid_t, gid_t*, wgt_t*)`, agi/agiConstruct.cpp:106-138 -/
def constructVertsA (g : Graph) (isHG : Bool) (n : Nat) (verts : List Gid) (wgts : Option (List Wgt))
    (globalSum : Int) : Outcome Graph := do
  let g := vertInit g isHG n
  let g ← (List.range' 0 n).foldlM (vertStep verts (weightAt wgts)) g
  return { g with numGhost := 0, globalVerts := globalSum }

/-- state of the first edge loop of `constructEdges`, agi/agiConstruct.cpp:167-199 -/
structure Scan where
  vtxMap : GMap Nat
  numGhost : Nat
  newGhosts : Nat
  degree : Mem Nat
  pinDegree : Mem Nat
  pinList : Mem Nat
  edgeMap : GMap Nat
  unmap : Mem Gid

/-- `a[i]++` -/
def bump (m : Mem Nat) (i : Nat) : Outcome (Mem Nat) := do
  let x ← m.load i
  m.store i (x + 1)

/-- the degree count of a local vertex, agi/agiConstruct.cpp:179-184 (294-297): always for even pins,
for odd pins only in hypergraph mode -/
def countPin (hyper : Bool) (j : Nat) (degree : Mem Nat) (l : Nat) : Outcome (Mem Nat) :=
  if j % 2 = 0 then bump degree (l + 1)
  else if hyper then bump degree (l + 1) else .ok degree

/-- one pin in the first loop, agi/agiConstruct.cpp:174-197 (array version 291-309) -/
def scanPin (hyper : Bool) (nl : Nat) (pins : List Gid) (s : Scan) (j : Nat) : Outcome Scan := do
  let v ← rd pins j
  match s.vtxMap v with
  | some l =>
    if l < nl then do
      let degree ← countPin hyper j s.degree l
      let pl ← s.pinList.store j l
      return { s with degree := degree, pinList := pl }
    else do
      let pl ← s.pinList.store j l
      return { s with pinList := pl }
  | none => do
    let pl ← s.pinList.store j (nl + s.numGhost)
    return { s with vtxMap := s.vtxMap.put v (nl + s.numGhost), pinList := pl,
                    numGhost := s.numGhost + 1, newGhosts := s.newGhosts + 1 }

/-- one edge in the first loop, agi/agiConstruct.cpp:169-198 (286-310) -/
def scanEdge (hyper : Bool) (nl : Nat) (ids : List Gid) (degs : List Nat) (pins : List Gid)
    (s : Scan) (i : Nat) : Outcome Scan := do
  let gid ← rd ids i
  let um ← s.unmap.store i gid
  let lo ← s.pinDegree.load i
  let d ← rd degs i
  let pd ← s.pinDegree.store (i + 1) (lo + d)
  let s := { s with edgeMap := s.edgeMap.put gid i, unmap := um, pinDegree := pd }
  (List.range' lo d).foldlM (scanPin hyper nl pins) s

/-- the prefix sum loop body, agi/agiConstruct.cpp:204-206 (314-316) -/
def prefixStep (m : Mem Nat) (i : Nat) : Outcome (Mem Nat) := do
  let a ← m.load i
  let b ← m.load (i - 1)
  m.store i (a + b)

/-- state of the second edge loop: `temp_counts`, `edge_list`, `ghost_unmap` -/
structure Fill where
  temp : Mem Nat
  edgeList : Mem Nat
  ghostUnmap : Option (Mem Gid)

/-- `ghost_unmap[u-num_local_verts] = pins_to_verts[j]` for ghosts, lines 228-230, 239-241 -/
def fillGhost (nl : Nat) (pins : List Gid) (s : Fill) (u j : Nat) : Outcome Fill :=
  if nl ≤ u then do
    let gu ← deref s.ghostUnmap
    let v ← rd pins j
    let gu ← gu.store (u - nl) v
    return { s with ghostUnmap := some gu }
  else .ok s

/-- `edge_list[t][temp_counts[u]++] = x` for a local `u`, lines 233-234, 242-243 -/
def fillPut (nl : Nat) (s : Fill) (u x : Nat) : Outcome Fill :=
  if u < nl then do
    let c ← s.temp.load u
    let el ← s.edgeList.store c x
    let tm ← s.temp.store u (c + 1)
    return { s with edgeList := el, temp := tm }
  else .ok s

/-- hypergraph mode: one pin `j` of edge `i`, lines 227-235 (334-341) -/
def fillHyper (nl : Nat) (pins : List Gid) (pinList : Mem Nat) (i : Nat) (s : Fill) (j : Nat) :
    Outcome Fill := do
  let u ← pinList.load j
  let s ← fillGhost nl pins s u j
  fillPut nl s u i

/-- traditional mode: pins `j` and `j+1`, lines 227-230, 236-244 (334-337, 342-350) -/
def fillTrad (nl : Nat) (pins : List Gid) (pinList : Mem Nat) (s : Fill) (j : Nat) : Outcome Fill := do
  let u ← pinList.load j
  let s ← fillGhost nl pins s u j
  let v ← pinList.load (j + 1)
  let s ← fillGhost nl pins s v (j + 1)
  fillPut nl s u v

/-- one edge of the second loop, lines 226-245 (333-350).  In traditional mode `j` advances by two per
round, so a range of `d` pins takes `(d+1)/2` rounds. -/
def fillEdge (hyper : Bool) (nl : Nat) (pins : List Gid) (pinDegree pinList : Mem Nat) (s : Fill)
    (i : Nat) : Outcome Fill := do
  let lo ← pinDegree.load i
  let hi ← pinDegree.load (i + 1)
  if hyper then (List.range' lo (hi - lo)).foldlM (fillHyper nl pins pinList i) s
  else (List.range' lo ((hi - lo + 1) / 2) 2).foldlM (fillTrad nl pins pinList) s

/-- growing `ghost_unmap`, lines 212-222 (320-330): a new block with the old entries copied -/
def growGhosts (gu : Option (Mem Gid)) (numGhost newGhosts : Nat) : Outcome (Option (Mem Gid)) :=
  if newGhosts = 0 then .ok gu
  else match gu with
    | none => .ok (some (Mem.alloc numGhost))
    | some old => do
      let new ← (List.range' 0 (numGhost - newGhosts)).foldlM (fun (m : Mem Gid) i => do
        let v ← old.load i
        m.store i v) (Mem.alloc numGhost)
      return some new

/-- the body shared by the two versions of `constructEdges`, agi/agiConstruct.cpp:144-247 and 266-352;
`numPins` is the number of pins the version computed; weights are set afterwards -/
def constructEdgesBody (g : Graph) (ids : List Gid) (degs : List Nat) (pins : List Gid)
    (numPins : Nat) : Outcome (Graph × EType) :=
  if g.numTypes = maxTypes then .fail           -- the assertion of addEdgeType, agi/ngraph.h:548
  else do
    let ne := ids.length
    let nl := g.numLocal
    let pd0 ← (Mem.alloc (ne + 1) : Mem Nat).store 0 0
    let s0 : Scan :=
      { vtxMap := g.vtxMap, numGhost := g.numGhost, newGhosts := 0,
        degree := Mem.ofList (List.replicate (nl + 1) 0), pinDegree := pd0, pinList := Mem.alloc numPins,
        edgeMap := GMap.empty, unmap := Mem.alloc ne }
    let s ← (List.range' 0 ne).foldlM (scanEdge g.isHyper nl ids degs pins) s0
    let numEdges := if g.isHyper then ne else numPins / 2
    let degree ← (List.range' 1 nl).foldlM prefixStep s.degree
    let total ← degree.load nl
    let gu ← growGhosts g.ghostUnmap s.numGhost s.newGhosts
    let f ← (List.range' 0 ne).foldlM (fillEdge g.isHyper nl pins s.pinDegree s.pinList)
      { temp := degree.take nl, edgeList := Mem.alloc total, ghostUnmap := gu }
    return ({ g with numTypes := g.numTypes + 1, vtxMap := s.vtxMap, numGhost := s.numGhost,
                     ghostUnmap := f.ghostUnmap },
      { numEdges := numEdges, numPins := numPins, globalEdges := 0, globalPins := 0, weights := [],
        degreeList := degree, edgeList := f.edgeList, pinDegree := s.pinDegree, pinList := s.pinList,
        edgeMap := s.edgeMap, unmap := s.unmap })

/-- the weights of the vector version, agi/agiConstruct.cpp:249-256 -/
def edgeWeightsV (ne : Nat) (wgts : List Wgt) : Outcome (Mem Wgt) :=
  if wgts.length = 0 then
    (List.range' 0 ne).foldlM (fun (m : Mem Wgt) i => m.store i 1) (Mem.alloc ne)
  else
    (List.range' 0 wgts.length).foldlM (fun (m : Mem Wgt) i => do
      let x ← rd wgts i
      m.store i x) (Mem.alloc ne)

/-- the weights of the array version, agi/agiConstruct.cpp:354-361 -/
def edgeWeightsA (ne : Nat) (wgts : Option (List Wgt)) : Outcome (Mem Wgt) :=
  match wgts with
  | none => (List.range' 0 ne).foldlM (fun (m : Mem Wgt) i => m.store i 1) (Mem.alloc ne)
  | some l => (List.range' 0 ne).foldlM (fun (m : Mem Wgt) i => do
      let x ← rd l i
      m.store i x) (Mem.alloc ne)

/-- `constructEdges(vector,...)`, agi/agiConstruct.cpp:140-262 -/
def constructEdgesV (g : Graph) (ids : List Gid) (degs : List Nat) (pins : List Gid)
    (wgts : List Wgt) : Outcome Graph := do
  let (g', e) ← constructEdgesBody g ids degs pins pins.length
  let w ← edgeWeightsV ids.length wgts
  return { g' with types := g'.types.set g.numTypes (some { e with weights := w }) }

/-- `constructEdges(gid_t, gid_t*, ...)`, agi/agiConstruct.cpp:263-367; the pins are counted by a loop
(lines 277-278) -/
def constructEdgesA (g : Graph) (ids : List Gid) (degs : List Nat) (pins : List Gid)
    (wgts : Option (List Wgt)) : Outcome Graph := do
  let (g', e) ← constructEdgesBody g ids degs pins (degs.take ids.length).sum
  let w ← edgeWeightsA ids.length wgts
  return { g' with types := g'.types.set g.numTypes (some { e with weights := w }) }

/-! ## handles and queries -/

/-- `numLocalEdges(t)`, `numLocalPins(t)`, `numGlobalEdges(t)`, `numGlobalPins(t)`, agi/ngraph.h:131-173 -/
def Graph.numLocalEdges (g : Graph) (t : Nat) : Outcome Nat := do let e ← g.slot t; return e.numEdges
def Graph.numLocalPins (g : Graph) (t : Nat) : Outcome Nat := do let e ← g.slot t; return e.numPins
def Graph.numGlobalEdges (g : Graph) (t : Nat) : Outcome Int := do let e ← g.slot t; return e.globalEdges
def Graph.numGlobalPins (g : Graph) (t : Nat) : Outcome Int := do let e ← g.slot t; return e.globalPins

/-- `getVertex`, agi/agiVertex.cpp:14-16 -/
def getVertex (lid : Nat) : Handle := lid + 1

/-- `getEdge`, agi/agiEdge.cpp:12-14 -/
def Graph.getEdge (g : Graph) (lid t : Nat) : Handle := g.numTypes * lid + t + 1

/-- `fromPtr` / `localID(vtx)`, agi/agi_typeconvert.cpp:14-23, agi/agiVertex.cpp:126-129; NULL would
give -1, which no caller may use as an index -/
def fromPtr (h : Handle) : Option Nat := if h = 0 then none else some (h - 1)

/-- the decoding of an edge handle, e.g. agi/agiEdge.cpp:57-59: type and local id.  A NULL handle or no
edge types (division by zero) is undefined behaviour. -/
def Graph.decodeEdge (g : Graph) (h : Handle) : Outcome (Nat × Nat) :=
  if h = 0 ∨ g.numTypes = 0 then .ub
  else .ok ((h - 1) % g.numTypes, (h - 1) / g.numTypes)

/-- the index of a non-NULL vertex handle -/
def vidx (h : Handle) : Outcome Nat := Outcome.ofOption (fromPtr h)

/-- `globalID(vtx)`, agi/agiVertex.cpp:130-135 -/
def Graph.globalID (g : Graph) (h : Handle) : Outcome Gid := do
  let l ← vidx h
  if g.numLocal ≤ l then do
    let gu ← deref g.ghostUnmap
    gu.load (l - g.numLocal)
  else g.localUnmap.load l

/-- `findGID`, agi/agiIterate.cpp:14-17: an absent gid dereferences `end()` -/
def Graph.findGID (g : Graph) (v : Gid) : Outcome Handle := do
  let l ← Outcome.ofOption (g.vtxMap v)
  return l + 1

/-- reading a vertex tag, agi/agiTag.cpp:51-56: ghosts are shifted to the start -/
def Graph.getVtxTag {α : Type} (g : Graph) (tag : Mem α) (h : Handle) : Outcome α := do
  let l ← vidx h
  tag.load (if g.numLocal ≤ l then l - g.numLocal else l)

/-- writing a vertex tag, agi/agiTag.cpp:73-76: no shift -/
def Graph.setVtxTag {α : Type} (tag : Mem α) (h : Handle) (a : α) : Outcome (Mem α) := do
  let l ← vidx h
  tag.store l a

/-- reading / writing an edge tag, agi/agiTag.cpp:46-50, 77-81 -/
def Graph.getEdgeTag {α : Type} (g : Graph) (tag : Mem α) (h : Handle) : Outcome α := do
  let (_, l) ← g.decodeEdge h
  tag.load l
def Graph.setEdgeTag {α : Type} (g : Graph) (tag : Mem α) (h : Handle) (a : α) :
    Outcome (Mem α) := do
  let (_, l) ← g.decodeEdge h
  tag.store l a

/-- `weight(vtx)`, agi/agiVertex.cpp:18-28 -/
def Graph.weight (g : Graph) (h : Handle) : Outcome Wgt := do
  let l ← vidx h
  if g.numLocal + g.numGhost ≤ l then .fail
  else if g.numLocal ≤ l then do
    let gw ← deref g.ghostWeights
    g.getVtxTag gw h
  else g.weights.load l

/-- `owner(vtx)`, agi/agiVertex.cpp:60-70: NULL decodes to -1 and counts as local; a handle beyond the
last ghost gives -1 -/
def Graph.owner (g : Graph) (h : Handle) : Outcome Part :=
  match fromPtr h with
  | none => .ok g.self
  | some l =>
    if g.numLocal + g.numGhost ≤ l then .ok (-1)
    else if l < g.numLocal then .ok g.self
    else do
      let o ← deref g.owners
      o.load (l - g.numLocal)

/-- `degree(vtx,t)`, agi/agiVertex.cpp:141-144 (as an integer) -/
def Graph.degreeV (g : Graph) (h : Handle) (t : Nat) : Outcome Int := do
  let e ← g.slot t
  let l ← vidx h
  let b ← e.degreeList.load (l + 1)
  let a ← e.degreeList.load l
  return (b : Int) - a

/-- `degree(edge)`, agi/agiEdge.cpp:114-124 -/
def Graph.degreeE (g : Graph) (h : Handle) : Outcome Int :=
  if g.isHyper = false then .ok 2
  else if h = 0 then .ok 0
  else do
    let (t, l) ← g.decodeEdge h
    let e ← g.slot t
    let b ← e.pinDegree.load (l + 1)
    let a ← e.pinDegree.load l
    return (b : Int) - a

/-- `weight(edge)`, agi/agiEdge.cpp:56-61 -/
def Graph.weightE (g : Graph) (h : Handle) : Outcome Wgt := do
  let (t, l) ← g.decodeEdge h
  let e ← g.slot t
  e.weights.load l

/-- `globalID(edge)`, agi/agiEdge.cpp:68-74 -/
def Graph.globalIDE (g : Graph) (h : Handle) : Outcome Gid := do
  let (t, l) ← g.decodeEdge h
  if g.isHyper = false then return l
  else do
    let e ← g.slot t
    e.unmap.load l

/-- `v(edge)`, agi/agiEdge.cpp:101-112: NULL in hypergraph mode and for the NULL edge -/
def Graph.vOf (g : Graph) (h : Handle) : Outcome Handle :=
  if g.isHyper then .ok 0
  else if h = 0 then .ok 0
  else do
    let (t, l) ← g.decodeEdge h
    let e ← g.slot t
    let d ← e.edgeList.load l
    return d + 1

/-- the search loop of `u(lid,t)`, agi/agiEdge.cpp:76-92; `fuel` bounds the number of rounds, `none`
means the loop has not ended by then -/
def uLoop (deg : Mem Nat) (e : Nat) : Nat → Nat → Nat → Outcome (Option Nat)
  | 0, _, _ => .ok none
  | fuel + 1, low, high => do
    let index := (high + low) / 2
    let a ← deg.load index
    if a ≤ e then do
      let b ← deg.load (index + 1)
      if e < b then return some index
      else uLoop deg e fuel index high
    else uLoop deg e fuel low index

/-- `u(edge)`, agi/agiEdge.cpp:93-99 -/
def Graph.uOf (g : Graph) (fuel : Nat) (h : Handle) : Outcome (Option Handle) := do
  let (t, l) ← g.decodeEdge h
  let e ← g.slot t
  let r ← uLoop e.degreeList l fuel 0 g.numLocal
  return r.map (· + 1)

end Verif.Agi
