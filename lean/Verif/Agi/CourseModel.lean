import Verif.Agi.ValidModel
/-!
# Model of `checkValidity` on all processes, with its collective calls

`PCU_Add_Long` comes back when all processes have called it (C30); a process that has returned never calls it again.
-/
namespace Verif.Agi

/-- what a process does: it returns, or contributes to a sum and goes on with it -/
inductive Course where
  | stop (o : Outcome Bool)
  | ask (x : Int) (k : Int → Course)

/-- a computation before going on -/
def Course.of {α : Type} (o : Outcome α) (f : α → Course) : Course :=
  match o with
  | .ok a => f a
  | .fail => .stop .fail
  | .ub => .stop .ub

/-- agi/agiValid.cpp:110-123 -/
def Graph.edgesRight (g : Graph) (t : Nat) : Outcome Bool := do
  let it ← g.edgeBegin t
  iterAll g.iterEdge g.checkEdgeDegree g.bound it

/-- agi/agiValid.cpp:64-124: the sums of lines 92 and 103 -/
def Graph.typesCourse (g : Graph) (fin : Course) : List Nat → Course
  | [] => fin
  | t :: ts =>
    .of (g.validCounts t) fun c =>
    .of (g.numLocalEdges t) fun ne =>
    if c.1 ≠ (ne : Int) then .stop (.ok false)
    else .ask c.2.1 fun s =>
      .of (g.numGlobalEdges t) fun ge =>
      if s ≠ ge then .stop (.ok false)
      else .of (g.numLocalPins t) fun np =>
        if c.2.2.2 ≠ (np : Int) then .stop (.ok false)
        else .ask c.2.2.1 fun s =>
          .of (g.numGlobalPins t) fun gp =>
          if s ≠ gp then .stop (.ok false)
          else .of (g.edgesRight t) fun b => if b then g.typesCourse fin ts else .stop (.ok false)

/-- `checkValidity`, agi/agiValid.cpp:6-144, with the sum of line 18 -/
def Graph.validCourse (g : Graph) : Course :=
  .of (iterCount g.iterVertex g.bound vertexBegin) fun i =>
  if (g.numLocal : Int) ≠ (i : Int) then .stop (.ok false)
  else .ask (i : Int) fun s =>
    if g.globalVerts ≠ s then .stop (.ok false)
    else .of (iterAll g.iterVertex (fun v => forTypes (g.checkDegree v) (List.range g.numTypes)) g.bound vertexBegin) fun a =>
      if a = false then .stop (.ok false)
      else .of (iterAll g.iterVertex (fun v => forTypes (g.checkAdjacent v) (List.range g.numTypes)) g.bound vertexBegin) fun b =>
        if b = false then .stop (.ok false)
        else g.typesCourse (.stop (iterAll g.iterGhost g.checkGhost g.bound g.ghostBegin)) (List.range g.numTypes)

/-- what the processes see -/
inductive Together where
  /-- all have returned -/
  | answers (os : List (Outcome Bool))
  /-- some have returned, the others wait for them in `PCU_Add_Long` -/
  | waiting
deriving DecidableEq

/-- the answers, if all have returned -/
def allStop : List Course → Option (List (Outcome Bool))
  | [] => some []
  | .stop o :: cs => (allStop cs).map (o :: ·)
  | .ask _ _ :: _ => none

/-- the contributions and how to go on, if all have called `PCU_Add_Long` -/
def allAsk : List Course → Option (List (Int × (Int → Course)))
  | [] => some []
  | .ask x k :: cs => (allAsk cs).map ((x, k) :: ·)
  | .stop _ :: _ => none

/-- at most `n` sums -/
def rounds : Nat → List Course → Together
  | n, cs =>
    match allStop cs with
    | some os => .answers os
    | none =>
      match n, allAsk cs with
      | n + 1, some as => rounds n (as.map fun a => a.2 (as.map (·.1)).sum)
      | _, _ => .waiting

/-- `checkValidity` on all processes: one sum for the vertices, two for each of the `T` types -/
def checkTogether (gs : List Graph) (T : Nat) : Together := rounds (2 * T + 1) (gs.map Graph.validCourse)

end Verif.Agi
