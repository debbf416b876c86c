import Verif.Base
/-!
# Model of the memory of a graph: who allocates, who releases

Contents are in the other models; here only which arrays and objects exist.  `new`/`delete` of `agi/agiConstruct.cpp`, `agiVertex.cpp`,
`agiEdge.cpp`, `agiTag.cpp`, `agiInfo.h`, `agiMigrate.cpp`, `agiMigration.cpp`, `agiWeightMigrate.cpp`, `agiIO.cpp` and of the
constructors in `interfaces/`.  A release of something that is not allocated, or allocated with the other form of `new`, is undefined
behaviour.  What depends on the data (are there new ghosts, is there more than one process) is an argument of the operation.
-/
namespace Verif.Agi.Heap

/-- `MAX_TYPES`, agi/agi.h:30 -/
def maxTypes : Nat := 7

/-- allocated with `new[]` (or malloc), or with `new` -/
inductive Kind where
  | arr
  | obj
deriving DecidableEq, Repr

/-- the arrays of an edge type, agi/pngraph.h:78-180 -/
inductive EField where
  | unmap | wgt | deg | list | pdeg | pins | vevO | vevL | eveO | eveL
deriving DecidableEq, Repr

/-- the pointers of a graph, agi/pngraph.h; the ghost weights are a tag: an object with an array (agi/agiInfo.h:10-16) -/
inductive Field where
  | weights | coords | unmap | ghostUnmap | owners | orig | gwObj | gwData
  | e (t : Nat) (k : EField)
deriving DecidableEq, Repr

def kindOf : Field → Kind
  | .gwObj => .obj
  | _ => .arr

/-- a tag of the user: the object and its array -/
structure Tag where
  obj : Nat
  data : Nat
deriving DecidableEq, Repr

/-- a plan of the user: the object, and its tag if the graph had vertices (agi/agiMigration.cpp:5-16); a plan of weights has none -/
structure Plan where
  obj : Nat
  tag : Option Tag
deriving DecidableEq, Repr

/-- one process -/
structure St where
  next : Nat
  /-- what is allocated -/
  live : List (Nat × Kind)
  g : Field → Option Nat
  types : Nat
  ghosts : Bool
  tags : List (Option Tag)
  plans : List (Option Plan)

/-- nothing allocated, the pointers of a new graph: agi/agiConstruct.cpp:10-42 -/
def start : St := ⟨0, [], fun _ => none, 0, false, [], []⟩

def set (g : Field → Option Nat) (f : Field) (p : Option Nat) : Field → Option Nat := fun x => if x = f then p else g x

/-- `new` -/
def allocate (k : Kind) (s : St) : Nat × St := (s.next, { s with next := s.next + 1, live := (s.next, k) :: s.live })

/-- `delete` -/
def free (k : Kind) (p : Nat) (s : St) : Outcome St :=
  if (p, k) ∈ s.live then .ok { s with live := s.live.erase (p, k) } else .ub

/-- `f = new …`: what was there before is lost -/
def alloc (f : Field) (s : St) : St :=
  let (p, s) := allocate (kindOf f) s
  { s with g := set s.g f (some p) }

/-- `if (f) delete [] f; f = NULL;` (deleting a null pointer does nothing) -/
def release (f : Field) (s : St) : Outcome St :=
  match s.g f with
  | none => .ok s
  | some p => do
    let s ← free (kindOf f) p s
    return { s with g := set s.g f none }

def releaseAll (fs : List Field) (s : St) : Outcome St := fs.foldlM (fun s f => release f s) s

/-- an array that lives only during the call -/
def temporary (s : St) : Outcome St :=
  let (p, s) := allocate .arr s
  free .arr p s

def temporaries (n : Nat) (s : St) : Outcome St := (List.range n).foldlM (fun s _ => temporary s) s

/-- the arrays of edge type `t` in the order of `destroyData` -/
def typeFields (t : Nat) : List Field :=
  [.e t .unmap, .e t .wgt, .e t .deg, .e t .list, .e t .pdeg, .e t .pins, .e t .vevO, .e t .vevL, .e t .eveO, .e t .eveL]

/-- all pointers of a graph in the order of `destroyData` -/
def fields : List Field :=
  [.gwData, .gwObj, .weights, .coords] ++ (List.range maxTypes).flatMap typeFields ++ [.unmap, .ghostUnmap, .owners, .orig]

/-- `Ngraph::destroyData`, agi/agiConstruct.cpp:507-572; `destroyTag` releases the array, then the object (agi/agiTag.cpp:37-39,
agi/agiInfo.h:14) -/
def destroyData (s : St) : Outcome St := releaseAll fields s

/-- `Ngraph::constructVerts` (both), agi/agiConstruct.cpp:68-138 -/
def constructVerts (s : St) : Outcome St := do
  let s ← destroyData s
  let s := alloc .weights (alloc .unmap s)
  return { s with types := 0, ghosts := false, g := set s.g .coords none }

/-- `ghost_unmap` gets longer: agi/agiConstruct.cpp:212-222, 320-330 -/
def growGhosts (s : St) : Outcome St :=
  match s.g .ghostUnmap with
  | none => .ok (alloc .ghostUnmap s)
  | some p => do
    let (q, s) := allocate .arr s
    let s ← free .arr p s
    return { s with g := set s.g .ghostUnmap (some q) }

/-- `Ngraph::constructEdges` (both), agi/agiConstruct.cpp:140-365; `fresh`: some pin is a vertex not known before.  `temp_counts` is taken
and given back around the work. -/
def constructEdges (fresh : Bool) (s : St) : Outcome St :=
  if s.types = maxTypes then .fail            -- the assertion of addEdgeType, agi/ngraph.h:551
  else do
    let t := s.types
    let s := { s with types := s.types + 1 }
    let s := alloc (.e t .pins) (alloc (.e t .pdeg) (alloc (.e t .unmap) (alloc (.e t .deg) s)))
    let s ← temporary s
    let s := alloc (.e t .list) s
    let s ← if fresh then growGhosts { s with ghosts := true } else .ok s
    return alloc (.e t .wgt) s

/-- `ghost_weights = createDoubleGhostTag(…)`: agi/agiTag.cpp:176-215 -/
def allocGhostWeights (s : St) : St := alloc .gwData (alloc .gwObj s)

/-- `Ngraph::constructGhosts`, agi/agiConstruct.cpp:371-471: `owners = NULL`, then new if there are ghosts; the form with a map makes the
ghost weights when there are several processes (`many`) -/
def constructGhosts (byMap many : Bool) (s : St) : Outcome St :=
  let s := { s with g := set s.g .owners none }
  let s := if s.ghosts then alloc .owners s else s
  .ok (if byMap && many then allocGhostWeights s else s)

/-- `Ngraph::removeEdges`, agi/agiConstruct.cpp:478-505; an index out of the arrays is undefined -/
def removeEdges (t : Nat) (s : St) : Outcome St :=
  if maxTypes ≤ t then .ub
  else do
    let s ← releaseAll [.e t .wgt, .e t .deg, .e t .list, .e t .pdeg, .e t .pins, .e t .unmap] s
    return if t + 1 = s.types then { s with types := s.types - 1 } else s

/-- `Ngraph::setCoords`, agi/agiVertex.cpp:39-44: no test whether there are coordinates already -/
def setCoords (s : St) : Outcome St := .ok (alloc .coords s)

/-- `Ngraph::setWeights`, agi/agiVertex.cpp:29-34 -/
def setWeights (s : St) : Outcome St := .ok (if (s.g .weights).isSome then s else alloc .weights s)

/-- `Ngraph::setOriginalOwners()`, agi/agiVertex.cpp:82-96 -/
def setOriginal (s : St) : Outcome St := .ok (if (s.g .orig).isSome then s else alloc .orig s)

/-- `Ngraph::setOriginalOwners(oos)`, agi/agiVertex.cpp:98-103 -/
def setOriginalTo (s : St) : Outcome St := if (s.g .orig).isSome then .fail else .ok (alloc .orig s)

/-- `Ngraph::resetOwnership`, `resetPartition`, agi/agiVertex.cpp:105-122 -/
def resetOwnership (s : St) : Outcome St := do
  let s ← release .orig s
  setOriginal s

/-- `Ngraph::create_vev_adjacency`, `create_eve_adjacency`, agi/agiConstruct.cpp:618-737: the lists are released when the offsets exist.
(The pointers are not set to null between, nobody reads them there.)  Iterators over edges are taken and given back. -/
def createSecond (t : Nat) (o l : EField) (s : St) : Outcome St :=
  if maxTypes ≤ t then .ub
  else do
    let s ← if (s.g (.e t o)).isSome then releaseAll [.e t o, .e t l] s else .ok s
    return alloc (.e t l) (alloc (.e t o) s)

/-- `createIntTag` and the like: `new Info`, agi/agiTag.cpp:7-36, agi/agiInfo.h:12 -/
def newTag (s : St) : Tag × St :=
  let (a, s) := allocate .obj s
  let (b, s) := allocate .arr s
  (⟨a, b⟩, s)

/-- `destroyTag`, agi/agiTag.cpp:37-39, agi/agiInfo.h:14 -/
def freeTag (t : Tag) (s : St) : Outcome St := do
  let s ← free .arr t.data s
  free .obj t.obj s

/-- `new Migration(g)`, agi/agiMigration.cpp:5-16; `verts`: the graph has vertices.  With `verts = false` also `new WeightMigration`. -/
def newPlan (verts : Bool) (s : St) : Plan × St :=
  let (a, s) := allocate .obj s
  if verts then
    let (t, s) := newTag s
    (⟨a, some t⟩, s)
  else (⟨a, none⟩, s)

/-- `delete plan`: the destructor, then the object, agi/agiMigration.cpp:17-20 -/
def freePlan (p : Plan) (s : St) : Outcome St := do
  let s ← match p.tag with
    | none => .ok s
    | some t => freeTag t s
  free .obj p.obj s

/-- the calls of `constructEdges` for all types -/
def allEdges (fresh : List Bool) (s : St) : Outcome St := fresh.foldlM (fun s b => constructEdges b s) s

/-- the end of `migrate` and of `loadFromFile`: agi/agiMigrate.cpp:366-375, agi/agiIO.cpp:239-256 (there the coordinates after the
vertices too) -/
def buildAgain (coords : Bool) (fresh : List Bool) (many : Bool) (s : St) : Outcome St := do
  let s ← constructVerts s
  let s ← if coords then setCoords s else .ok s
  let s ← allEdges fresh s
  constructGhosts true many s

/-- `Ngraph::migrate`, agi/agiMigrate.cpp:290-387: `cleanup` replaces the plan by a new one (agi/agiMigrate.cpp:14-25), five arrays per
call and the coordinates `cs` are given back, the plan is deleted.  (`pin`, `pin_owners` of single edges are taken and given back too:
agi/agiMigrate.cpp:204-247, 263-286.) -/
def migrate (p : Plan) (verts coords : Bool) (fresh : List Bool) (many : Bool) (s : St) : Outcome St := do
  let (q, s) := newPlan verts s
  let s ← freePlan p s
  let s ← temporaries 7 s
  let s ← buildAgain coords fresh many s
  let s ← setOriginalTo s
  freePlan q s

/-- the plan with number `i` of the user -/
def getPlan (i : Nat) (s : St) : Outcome Plan :=
  match s.plans[i]? with
  | some (some p) => .ok p
  | _ => .ub

def getTag (i : Nat) (s : St) : Outcome Tag :=
  match s.tags[i]? with
  | some (some t) => .ok t
  | _ => .ub

/-- what a user does with a graph; `i` are the numbers of his tags and plans in the order they were made -/
inductive Op where
  | verts
  | edges (fresh : Bool)
  | ghosts (byMap many : Bool)
  | removeEdges (t : Nat)
  | setCoords
  | setWeights
  | setOriginal
  | setOriginalTo
  | resetOwnership
  | vev (t : Nat)
  | eve (t : Nat)
  | newTag
  | freeTag (i : Nat)
  | newPlan (verts : Bool)
  | freePlan (i : Nat)
  | migrate (i : Nat) (verts coords : Bool) (fresh : List Bool) (many : Bool)
  | migrateWeights (i : Nat)
  | repartition (verts coords : Bool) (fresh : List Bool) (many : Bool)
  | load (coords : Bool) (fresh : List Bool) (many : Bool)
deriving Repr

/-- the user's plan is used up -/
def dropPlan (i : Nat) (s : St) : St := { s with plans := s.plans.set i none }

def step (s : St) : Op → Outcome St
  | .verts => constructVerts s
  | .edges b => constructEdges b s
  | .ghosts m n => constructGhosts m n s
  | .removeEdges t => removeEdges t s
  | .setCoords => setCoords s
  | .setWeights => setWeights s
  | .setOriginal => setOriginal s
  | .setOriginalTo => setOriginalTo s
  | .resetOwnership => resetOwnership s
  | .vev t => createSecond t .vevO .vevL s
  | .eve t => createSecond t .eveO .eveL s
  | .newTag => let (t, s) := newTag s; .ok { s with tags := s.tags ++ [some t] }
  | .freeTag i => do
      let t ← getTag i s
      let s ← freeTag t s
      return { s with tags := s.tags.set i none }
  | .newPlan v => let (p, s) := newPlan v s; .ok { s with plans := s.plans ++ [some p] }
  | .freePlan i => do
      let p ← getPlan i s
      let s ← freePlan p s
      return dropPlan i s
  | .migrate i v c f n => do
      let p ← getPlan i s
      let s ← migrate p v c f n s
      return dropPlan i s
  /- agi/agiWeightMigrate.cpp:11-54: `v_weights` is given back, the plan deleted -/
  | .migrateWeights i => do
      let p ← getPlan i s
      let s ← temporary s
      let s ← setWeights s
      let s ← freePlan p s
      return dropPlan i s
  /- agi/agiMigrate.cpp:417-428 -/
  | .repartition v c f n => do
      let (p, s) := newPlan v s
      let s ← setOriginal s
      migrate p v c f n s
  /- agi/agiIO.cpp:160-258: `cs` is given back (agi/agiIO.cpp:242) -/
  | .load c f n => do
      let s ← temporaries (if c then 1 else 0) s
      buildAgain c f n s

/-- how the graph is made -/
inductive Maker where
  /-- `createEmptyGraph`, agi/agiConstruct.cpp:7-9 -/
  | empty
  /-- `createAPFGraph`, `createDOFGraph`: interfaces/apfGraph.cpp:45-390, interfaces/dofGraph.cpp -/
  | mesh (types : Nat) (ghosts many : Bool)
  /-- `createBinGraph`: interfaces/binGraph.cpp:29-49, 280-355 -/
  | binary (ghosts many : Bool)
deriving Repr

/-- one dimension of a mesh: interfaces/apfGraph.cpp:168-372 (`makeEdgeArray`, agi/agiEdge.cpp:158-161) -/
def meshType (s : St) : Outcome St :=
  if s.types = maxTypes then .fail
  else do
    let t := s.types
    let s := { s with types := s.types + 1 }
    let s := alloc (.e t .pdeg) (alloc (.e t .list) (alloc (.e t .deg) (alloc (.e t .wgt) (alloc (.e t .unmap) s))))
    let s ← temporary s
    return alloc (.e t .pins) s

def ghostArrays (s : St) : St := alloc .owners (alloc .ghostUnmap { s with ghosts := true })

/-- interfaces/binGraph.cpp:299-323: the edges by source replace the list -/
def sortEdges (s : St) : Outcome St := do
  let (q, s) := allocate .arr s
  let s ← temporary s
  let s := alloc (.e 0 .deg) s
  let s ← release (.e 0 .list) s
  return { s with g := set s.g (.e 0 .list) (some q) }

def make : Maker → Outcome St
  | .empty => .ok start
  | .mesh n gh many => do
      let s := alloc .unmap (alloc .coords (alloc .weights start))
      let s ← (List.range n).foldlM (fun s _ => meshType s) s
      let s := if gh then ghostArrays s else s
      return if many then allocGhostWeights s else s
  | .binary gh many => do
      let s := { start with types := 1 }
      let s ← temporaries 10 s
      let s := alloc .weights (alloc .unmap (alloc (.e 0 .list) s))
      let s ← sortEdges s
      let s := if gh then ghostArrays s else s
      let s := if many then allocGhostWeights s else s
      return alloc (.e 0 .wgt) s

/-- a history -/
def run (m : Maker) (ops : List Op) : Outcome St := do
  let s ← make m
  ops.foldlM step s

/-- `destroyGraph`: the destructor, agi/agiConstruct.cpp:473-475, 574-588 -/
def destroyGraph (s : St) : Outcome St := destroyData s

/-- the beginning of `binGraph::migrate(EdgePartitionMap&)`: `delete edge_list[0]` (not `delete []`), interfaces/binGraph.cpp:81-82 -/
def vertexCutBegin (s : St) : Outcome St :=
  match s.g (.e 0 .list) with
  | none => .ok s
  | some p => free .obj p s

end Verif.Agi.Heap
