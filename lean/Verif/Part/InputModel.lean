import Verif.Base
import Verif.Mem
/-!
# Model of the input objects, as used through the C interface

engpar_input.{h,cpp}, engpar_diffusive_input.{h,cpp}, engpar_split_input.h and interfaces/cengpar.cpp: objects are made with defaults,
changed by setters, handed to `balance` or `split`, and deleted there.  A pointer is the place of the object in the order of creation; a
deleted object is `none`.  What balancing and splitting do with the settings is the subject of other files.
-/
namespace Verif.Inputs
open Verif

/-- `DiffusiveInput`, partition/Diffusive/engpar_diffusive_input.h:8-96; the graph is named by a number -/
structure Diff where
  graph : Nat
  priorities : List Int
  tolerances : List Rat
  maxIterations : Nat
  maxIterationsPerType : Nat
  stepFactor : Rat
  runPartWeightBalancer : Bool
  sidesEdgeType : Int
  selectionEdgeType : Int
  countGhosts : Bool
  useDistanceQueue : Bool
  bfsPush : Bool
  minConnectivity : Int
  connectivityType : Int
  limitEdgeCutGrowth : Rat
deriving DecidableEq, Repr

/-- `SplitInput`, partition/Multilevel/engpar_split_input.h:9-31; communicators are named by numbers, `ranks` is NULL or the array -/
structure Spl where
  graph : Nat
  smallComm : Nat
  largeComm : Nat
  isOriginal : Bool
  splitFactor : Int
  totalParts : Nat
  tolerance : Rat
  edgeType : Int
  ranks : Option (List Int)
deriving DecidableEq, Repr

inductive Obj where
  | diff (d : Diff)
  | spl (s : Spl)
deriving DecidableEq, Repr

/-- the methods of `SPLIT_METHOD`, partition/engpar_types.h:7-11, that the C interface knows, interfaces/cengpar.cpp:65-67 -/
inductive Method where
  | globalParmetis
  | localParmetis
deriving DecidableEq, Repr

/-- what reaches the library -/
inductive Done where
  | balanced (d : Diff) (verbosity : Int)
  | split (s : Spl) (m : Method)
deriving DecidableEq, Repr

/-- `heap`: the objects made so far; `comm`: the communicator PCU is switched to; `done`: the operations that were run, in order -/
structure St where
  heap : List (Option Obj)
  comm : Nat
  done : List Done
deriving DecidableEq, Repr

def start (comm : Nat) : St := { heap := [], comm := comm, done := [] }

/-- `DiffusiveInput::DiffusiveInput` (engpar_diffusive_input.cpp:4-22) and `createDiffusiveInput` (engpar_input.cpp:9-13) -/
def newDiff (graph : Nat) (isHyper : Bool) (stepFactor : Rat) : Diff :=
  { graph, priorities := [], tolerances := [], maxIterations := 1000, maxIterationsPerType := 100, stepFactor,
    runPartWeightBalancer := false, sidesEdgeType := 0, selectionEdgeType := 0, countGhosts := false, useDistanceQueue := isHyper,
    bfsPush := true, minConnectivity := 1, connectivityType := 0, limitEdgeCutGrowth := 0 }

/-- `createLocalSplitInput`, engpar_input.cpp:15-31; `largeSize` is the size of the large communicator -/
def newLocal (graph small large : Nat) (orig : Bool) (factor : Int) (largeSize : Nat) (tol : Rat) (ranks : Option (List Int)) (t : Int) :
    Spl :=
  { graph, smallComm := small, largeComm := large, isOriginal := orig, splitFactor := factor, totalParts := largeSize, tolerance := tol,
    edgeType := t, ranks }

/-- `createGlobalSplitInput`, engpar_input.cpp:32-48 -/
def newGlobal (graph small large : Nat) (orig : Bool) (largeSize : Nat) (tol : Rat) (t : Int) : Spl :=
  { graph, smallComm := small, largeComm := large, isOriginal := orig, splitFactor := -1, totalParts := largeSize, tolerance := tol,
    edgeType := t, ranks := none }

/-- `DiffusiveInput::addPriority` (engpar_diffusive_input.cpp:24-28); for the other classes it does nothing (engpar_input.h:14) -/
def addPriority (t : Int) (tol : Rat) : Obj → Obj
  | .diff d => .diff { d with priorities := d.priorities ++ [t], tolerances := d.tolerances ++ [tol] }
  | .spl s => .spl s

/-- `DiffusiveInput::balanceGhosts` (engpar_diffusive_input.cpp:29-31); engpar_input.h:15 -/
def balanceGhosts (b : Bool) : Obj → Obj
  | .diff d => .diff { d with countGhosts := b }
  | .spl s => .spl s

/-- `cengpar_setCutGrowthFactor`, interfaces/cengpar.cpp:138-141: the pointer is cast without looking -/
def setCutGrowth (f : Rat) : Obj → Outcome Obj
  | .diff d => .ok (.diff { d with limitEdgeCutGrowth := f })
  | .spl _ => .ub

/-- reading an object through a pointer; after `delete` that is undefined -/
def load (h : Nat) (s : St) : Outcome Obj := do
  let o ← rd s.heap h
  deref o

/-- the calls; `newLocal` is the C++ function (see `Link` for the one in C) -/
inductive Op where
  | newDiff (graph : Nat) (isHyper : Bool) (stepFactor : Rat)
  | newLocal (graph small large : Nat) (orig : Bool) (factor : Int) (largeSize : Nat) (tol : Rat) (ranks : Option (List Int)) (t : Int)
  | newGlobal (graph small large : Nat) (orig : Bool) (largeSize : Nat) (tol : Rat) (t : Int)
  | addPriority (h : Nat) (t : Int) (tol : Rat)
  | setCutGrowth (h : Nat) (f : Rat)
  | balanceGhosts (h : Nat) (b : Bool)
  | balance (h : Nat) (verbosity : Int)
  | split (h : Nat) (method : List Char)
deriving DecidableEq, Repr

/-- the table of `cengpar_split`, interfaces/cengpar.cpp:64-68; another name fails an assertion -/
def methodOf (name : List Char) : Outcome Method :=
  if name = "GLOBAL_PARMETIS".toList then .ok .globalParmetis
  else if name = "LOCAL_PARMETIS".toList then .ok .localParmetis
  else .fail

/-- what `split` asserts of its input before it uses it, engpar_split.cpp:38-43; only processes of the small communicator look -/
def splitReady (s : Spl) : Method → Bool
  | .globalParmetis => true
  | .localParmetis => if s.isOriginal then decide (s.splitFactor ≠ -1) && s.ranks.isSome else true

/-- `engpar::balance` (engpar_balancer.cpp:405-417): `dynamic_cast` gives NULL for another class, which is used at once
(engpar_balancer.cpp:196-202, 247); the balancer deletes the input (engpar_balancer.cpp:77) -/
def runBalance (h : Nat) (v : Int) (s : St) : Obj → Outcome St
  | .diff d => .ok { s with heap := s.heap.set h none, done := s.done ++ [.balanced d v] }
  | .spl _ => .ub

/-- `engpar::split` (engpar_split.cpp:21-63): another class fails an assertion; afterwards PCU is on the large communicator and the
input is deleted -/
def runSplit (h : Nat) (m : Method) (s : St) : Obj → Outcome St
  | .diff _ => .fail
  | .spl p =>
      if splitReady p m then .ok { heap := s.heap.set h none, comm := p.largeComm, done := s.done ++ [.split p m] } else .fail

/-- one call -/
def step (s : St) : Op → Outcome St
  | .newDiff g hy sf => .ok { s with heap := s.heap ++ [some (.diff (Inputs.newDiff g hy sf))] }
  | .newLocal g sm la o f n tol r t => .ok { s with heap := s.heap ++ [some (.spl (Inputs.newLocal g sm la o f n tol r t))], comm := sm }
  | .newGlobal g sm la o n tol t => .ok { s with heap := s.heap ++ [some (.spl (Inputs.newGlobal g sm la o n tol t))], comm := sm }
  | .addPriority h t tol => do
      let o ← load h s
      return { s with heap := s.heap.set h (some (Inputs.addPriority t tol o)) }
  | .setCutGrowth h f => do
      let o ← load h s
      let o ← Inputs.setCutGrowth f o
      return { s with heap := s.heap.set h (some o) }
  | .balanceGhosts h b => do
      let o ← load h s
      return { s with heap := s.heap.set h (some (Inputs.balanceGhosts b o)) }
  | .balance h v => do
      let o ← load h s
      runBalance h v s o
  | .split h name => do
      let m ← methodOf name
      let o ← load h s
      runSplit h m s o

/-- a history -/
def run : St → List Op → Outcome St
  | s, [] => .ok s
  | s, op :: ops => do
      let s ← step s op
      run s ops

/-! ## Linking -/

/-- types of arguments and results as the machine passes them -/
inductive Ty where
  | int32
  | int64
  | double
  | bool
  | pointer          -- `void*`, an opaque object
  | chars            -- `const char[]`
  | ints32           -- arrays
  | ints64
  | doubles
  | none
deriving DecidableEq, Repr

/-- a function: name, arguments, result -/
structure Sig where
  name : List Char
  args : List Ty
  res : Ty
deriving DecidableEq, Repr

/-- `lid_t` and, in Fortran, `AGI_LID_FT` -/
def lidTy (long : Bool) : Ty := if long then .int64 else .int32
def lidsTy (long : Bool) : Ty := if long then .ints64 else .ints32

/-- what interfaces/cengpar.h declares inside `extern "C"`; `agi::etype` and `MPI_Fint` are `int` (agi/agi.h:30) -/
def header (long : Bool) : List Sig :=
  [⟨"cengpar_initialize".toList, [], .none⟩,
   ⟨"cengpar_finalize".toList, [], .none⟩,
   ⟨"cengpar_setftncommunicator".toList, [.int32], .none⟩,
   ⟨"cengpar_createEmptyGraph".toList, [], .pointer⟩,
   ⟨"cengpar_createLocalSplitInput".toList, [.pointer, .int32, .int32, .bool, .int32, .double, .ints32, .int32], .pointer⟩,
   ⟨"cengpar_createGlobalSplitInput".toList, [.pointer, .int32, .int32, .bool, .double, .int32], .pointer⟩,
   ⟨"cengpar_createDiffusiveInput".toList, [.pointer, .double], .pointer⟩,
   ⟨"cengpar_setCutGrowthFactor".toList, [.pointer, .double], .none⟩,
   ⟨"cengpar_addPriority".toList, [.pointer, .int32, .double], .none⟩,
   ⟨"cengpar_balanceGhosts".toList, [.pointer, .bool], .none⟩,
   ⟨"cengpar_balance".toList, [.pointer, .int32], .none⟩,
   ⟨"cengpar_loadFromFile".toList, [.pointer, .chars], .none⟩,
   ⟨"cengpar_saveToFile".toList, [.pointer, .chars], .none⟩,
   ⟨"cengpar_evaluatePartition".toList, [.pointer], .none⟩,
   ⟨"cengpar_split".toList, [.pointer, .chars], .none⟩,
   ⟨"cengpar_destroyGraph".toList, [.pointer], .none⟩,
   ⟨"cengpar_constructVerts".toList, [.pointer, .bool, .ints64, .doubles, .int32], .none⟩,
   ⟨"cengpar_constructEdges".toList, [.pointer, .ints64, lidsTy long, .doubles, .ints64, .int32, .int32], .int32⟩,
   ⟨"cengpar_constructGhosts".toList, [.pointer, .ints64, .ints32, .int32], .none⟩,
   ⟨"cengpar_checkValidity".toList, [.pointer], .none⟩,
   ⟨"cengpar_getPartition".toList, [.pointer, .ints64, .ints32, .int32], .none⟩]

/-- what interfaces/cengpar.cpp defines; the last two arguments of `cengpar_createLocalSplitInput` are in another order (lines 27-28) -/
def definitions (long : Bool) : List Sig :=
  [⟨"cengpar_initialize".toList, [], .none⟩,
   ⟨"cengpar_finalize".toList, [], .none⟩,
   ⟨"cengpar_setftncommunicator".toList, [.int32], .none⟩,
   ⟨"cengpar_createEmptyGraph".toList, [], .pointer⟩,
   ⟨"cengpar_createLocalSplitInput".toList, [.pointer, .int32, .int32, .bool, .int32, .double, .int32, .ints32], .pointer⟩,
   ⟨"cengpar_createGlobalSplitInput".toList, [.pointer, .int32, .int32, .bool, .double, .int32], .pointer⟩,
   ⟨"cengpar_loadFromFile".toList, [.pointer, .chars], .none⟩,
   ⟨"cengpar_saveToFile".toList, [.pointer, .chars], .none⟩,
   ⟨"cengpar_evaluatePartition".toList, [.pointer], .none⟩,
   ⟨"cengpar_split".toList, [.pointer, .chars], .none⟩,
   ⟨"cengpar_constructVerts".toList, [.pointer, .bool, .ints64, .doubles, .int32], .none⟩,
   ⟨"cengpar_constructEdges".toList, [.pointer, .ints64, lidsTy long, .doubles, .ints64, .int32, .int32], .int32⟩,
   ⟨"cengpar_constructGhosts".toList, [.pointer, .ints64, .ints32, .int32], .none⟩,
   ⟨"cengpar_checkValidity".toList, [.pointer], .none⟩,
   ⟨"cengpar_destroyGraph".toList, [.pointer], .none⟩,
   ⟨"cengpar_getPartition".toList, [.pointer, .ints64, .ints32, .int32], .none⟩,
   ⟨"cengpar_createDiffusiveInput".toList, [.pointer, .double], .pointer⟩,
   ⟨"cengpar_addPriority".toList, [.pointer, .int32, .double], .none⟩,
   ⟨"cengpar_setCutGrowthFactor".toList, [.pointer, .double], .none⟩,
   ⟨"cengpar_balanceGhosts".toList, [.pointer, .bool], .none⟩,
   ⟨"cengpar_balance".toList, [.pointer, .int32], .none⟩]

/-- the interfaces of ftn/engpar.f90: `AGI_EDGE_FT` is `LOCAL_ID_FTYPE` (agi/agi_types.h:12-13), `AGI_PART_FT` is `C_INT32_T` -/
def fortran (long : Bool) : List Sig :=
  [⟨"cengpar_initialize".toList, [], .none⟩,
   ⟨"cengpar_finalize".toList, [], .none⟩,
   ⟨"cengpar_setftncommunicator".toList, [.int32], .none⟩,
   ⟨"cengpar_createEmptyGraph".toList, [], .pointer⟩,
   ⟨"cengpar_createLocalSplitInput".toList, [.pointer, .int32, .int32, .bool, .int32, .double, .ints32, lidTy long], .pointer⟩,
   ⟨"cengpar_createGlobalSplitInput".toList, [.pointer, .int32, .int32, .bool, .double, lidTy long], .pointer⟩,
   ⟨"cengpar_createDiffusiveInput".toList, [.pointer, .double], .pointer⟩,
   ⟨"cengpar_setCutGrowthFactor".toList, [.pointer, .double], .none⟩,
   ⟨"cengpar_addPriority".toList, [.pointer, lidTy long, .double], .none⟩,
   ⟨"cengpar_balanceGhosts".toList, [.pointer, .bool], .none⟩,
   ⟨"cengpar_balance".toList, [.pointer, .int32], .none⟩,
   ⟨"cengpar_loadFromFile".toList, [.pointer, .chars], .none⟩,
   ⟨"cengpar_saveToFile".toList, [.pointer, .chars], .none⟩,
   ⟨"cengpar_evaluatePartition".toList, [.pointer], .none⟩,
   ⟨"cengpar_split".toList, [.pointer, .chars], .none⟩,
   ⟨"cengpar_constructVerts".toList, [.pointer, .bool, .ints64, .doubles, .int32], .none⟩,
   ⟨"cengpar_constructEdges".toList, [.pointer, .ints64, lidsTy long, .doubles, .ints64, .int32, .int32], lidTy long⟩,
   ⟨"cengpar_constructGhosts".toList, [.pointer, .ints64, .ints32, .int32], .none⟩,
   ⟨"cengpar_checkValidity".toList, [.pointer], .none⟩,
   ⟨"cengpar_destroyGraph".toList, [.pointer], .none⟩,
   ⟨"cengpar_getPartition".toList, [.pointer, .ints64, .ints32, .int32], .none⟩]

/-- the symbols of C the library has: a definition has C linkage if it defines a function declared so, that is, one of the same name
*and* arguments; otherwise it is another function, of C++ -/
def symbols (long : Bool) : List Sig :=
  (definitions long).filter (fun d => (header long).any (fun s => decide (s.name = d.name ∧ s.args = d.args)))

/-- a call of `caller`'s idea of a function from C or Fortran: no symbol, no program; other types, undefined -/
def call (long : Bool) (caller : Sig) : Outcome Sig :=
  match (symbols long).find? (fun s => decide (s.name = caller.name)) with
  | none => .fail
  | some s => if s.args = caller.args ∧ s.res = caller.res then .ok s else .ub

end Verif.Inputs
