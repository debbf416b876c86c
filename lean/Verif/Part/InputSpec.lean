import Verif.Part.InputModel
/-!
# Specification for C80: what a sequence of calls gives each input

Inputs are numbered in the order they are made.  Everything is read off the list of calls.
-/
namespace Verif.Inputs

/-- the calls that make an input -/
def Op.makes : Op → Bool
  | .newDiff .. | .newLocal .. | .newGlobal .. => true
  | _ => false

/-- the calls that made the inputs, in order -/
def news (ops : List Op) : List Op := ops.filter Op.makes

/-- the priorities given to input `h`, in order -/
def prios (h : Nat) (ops : List Op) : List (Int × Rat) :=
  ops.filterMap (fun op => match op with
    | .addPriority k t tol => if k = h then some (t, tol) else none
    | _ => none)

/-- the cut growth factors set for input `h` -/
def cuts (h : Nat) (ops : List Op) : List Rat :=
  ops.filterMap (fun op => match op with
    | .setCutGrowth k f => if k = h then some f else none
    | _ => none)

/-- the choices about ghosts made for input `h` -/
def ghostings (h : Nat) (ops : List Op) : List Bool :=
  ops.filterMap (fun op => match op with
    | .balanceGhosts k b => if k = h then some b else none
    | _ => none)

/-- input `h` has been given to `balance` or `split` -/
def spent (h : Nat) (ops : List Op) : Bool :=
  ops.any (fun op => match op with
    | .balance k _ => k == h
    | .split k _ => k == h
    | _ => false)

/-- a diffusive input after the calls `ops`: the graph and step factor it was made with, the priorities given to it in order, the last
cut growth factor and the last choice about ghosts, and the documented defaults for the rest -/
def diffOf (h : Nat) (ops : List Op) (graph : Nat) (isHyper : Bool) (stepFactor : Rat) : Diff :=
  { graph, stepFactor, useDistanceQueue := isHyper
    priorities := (prios h ops).map Prod.fst
    tolerances := (prios h ops).map Prod.snd
    countGhosts := (ghostings h ops).getLast?.getD false
    limitEdgeCutGrowth := (cuts h ops).getLast?.getD 0
    maxIterations := 1000, maxIterationsPerType := 100, runPartWeightBalancer := false, sidesEdgeType := 0, selectionEdgeType := 0
    bfsPush := true, minConnectivity := 1, connectivityType := 0 }

/-- what input `h` is after the calls `ops` -/
def objOf (h : Nat) (ops : List Op) : Op → Option Obj
  | .newDiff g hy sf => some (.diff (diffOf h ops g hy sf))
  | .newLocal g sm la o f n tol r t => some (.spl ⟨g, sm, la, o, f, n, tol, t, r⟩)
  | .newGlobal g sm la o n tol t => some (.spl ⟨g, sm, la, o, -1, n, tol, t, none⟩)
  | _ => none

def now (h : Nat) (ops : List Op) : Option Obj := ((news ops)[h]?).bind (objOf h ops)

/-- the name of a method in the C interface -/
def nameOf : Method → List Char
  | .globalParmetis => "GLOBAL_PARMETIS".toList
  | .localParmetis => "LOCAL_PARMETIS".toList

/-- what the call `op` runs after the calls `ops` -/
inductive Runs (ops : List Op) : Op → Done → Prop
  | balance (h : Nat) (v : Int) (d : Diff) (e : now h ops = some (.diff d)) : Runs ops (.balance h v) (.balanced d v)
  | split (h : Nat) (m : Method) (p : Spl) (e : now h ops = some (.spl p)) : Runs ops (.split h (nameOf m)) (.split p m)

/-- `op` is used as documented after the calls `ops`: the input is there and not yet used up, and of the right kind -/
def Legal (ops : List Op) : Op → Prop
  | .newDiff .. | .newLocal .. | .newGlobal .. => True
  | .addPriority h _ _ | .balanceGhosts h _ => (∃ o, now h ops = some o) ∧ spent h ops = false
  | .setCutGrowth h _ | .balance h _ => (∃ d, now h ops = some (.diff d)) ∧ spent h ops = false
  | .split h name => spent h ops = false ∧ ∃ p m, now h ops = some (.spl p) ∧ name = nameOf m ∧
      (m = .localParmetis → p.isOriginal = true → p.splitFactor ≠ -1 ∧ ∃ r, p.ranks = some r)

/-- the operations `l` are those the calls run, in order -/
inductive Results : List Op → List Done → Prop
  | nil : Results [] []
  | quiet {ops : List Op} {l : List Done} (op : Op) : Results ops l → (∀ h v, op ≠ .balance h v) → (∀ h n, op ≠ .split h n) →
      Results (ops ++ [op]) l
  | ran {ops : List Op} {l : List Done} (op : Op) (x : Done) : Results ops l → Runs ops op x → Results (ops ++ [op]) (l ++ [x])

/-- the communicator after the calls: that of the application, the small one when a split input was made last, the large one after a split -/
inductive CommIs (c : Nat) : List Op → Nat → Prop
  | nil : CommIs c [] c
  | local {ops : List Op} {k : Nat} (g sm la : Nat) (o : Bool) (f : Int) (n : Nat) (tol : Rat) (r : Option (List Int)) (t : Int) :
      CommIs c ops k → CommIs c (ops ++ [.newLocal g sm la o f n tol r t]) sm
  | global {ops : List Op} {k : Nat} (g sm la : Nat) (o : Bool) (n : Nat) (tol : Rat) (t : Int) :
      CommIs c ops k → CommIs c (ops ++ [.newGlobal g sm la o n tol t]) sm
  | split {ops : List Op} {k : Nat} (h : Nat) (name : List Char) (p : Spl) :
      CommIs c ops k → now h ops = some (.spl p) → CommIs c (ops ++ [.split h name]) p.largeComm
  | other {ops : List Op} {k : Nat} (op : Op) : CommIs c ops k → (op.makes = true → ∃ g hy sf, op = .newDiff g hy sf) →
      (∀ h n, op ≠ .split h n) → CommIs c (ops ++ [op]) k

end Verif.Inputs
