import Verif.Io.NameModel
import Verif.Part.MetricsModel
/-!
# Model of the texts the balancer puts together in arrays of fixed size

`getImbalances` (partition/Metrics/engpar_metrics.cpp:43-50), the log entry and the message of `Balancer::balance`
(partition/Diffusive/src/engpar_balancer.cpp:197-221, 296-320), the parameters given to Zoltan (partition/Multilevel/engpar_zoltan.cpp:82-95) and the log
entries of `constructGraph` and `constructVerts` (agi/agiConstruct.cpp:51-59, 73-81).  Texts are lists of characters without the terminating zero;
`sprintf` of C70 says whether they fit.  `sprintf(m,"%s..",m)`, formally undefined, appends as in glibc.
-/
namespace Verif.Part.Text
open Verif.Names

/-- a quotient rounded to the nearest number, ties to even, as `printf` does -/
def roundDiv (a b : Nat) : Nat :=
  if 2 * (a % b) < b then a / b
  else if b < 2 * (a % b) then a / b + 1
  else if a / b % 2 = 0 then a / b else a / b + 1

/-- the last `k` digits, with leading zeros -/
def pad (k n : Nat) : List Char := List.replicate (k - (dec n).length) '0' ++ dec n

/-- `%.kf` -/
def fixed (k : Nat) (x : Rat) : List Char :=
  let n := roundDiv (x.num.natAbs * 10 ^ k) x.den
  (if x < 0 then ['-'] else []) ++ dec (n / 10 ^ k) ++ '.' :: pad k (n % 10 ^ k)

/-- `%.kf` of a double: `none` is printed as not a number -/
def double (k : Nat) : Option Rat → List Char
  | some x => fixed k x
  | none => ['-', 'n', 'a', 'n']

/-- `%d` -/
def int (i : Int) : List Char := if i < 0 then '-' :: dec i.natAbs else dec i.natAbs

/-- `temp += sprintf(temp,..)` again and again in `char buffer[cap]` -/
def build (cap : Nat) (ts : List (List Char)) : Outcome (List Char) := ts.foldlM (fun buf t => sprintf cap (buf ++ t)) []

/-- `getImbalances` on rank 0, engpar_metrics.cpp:43-50, into the `char buffer[100]` of its callers (engpar_balancer.cpp:174-175, 264-265,
engpar_weightBalancer.cpp:98-99, 177-178); for every criterion the weights of the parts.  Width 2 of `%2.4f` is always exceeded. -/
def getImbalances (crit : List (List Rat)) : Outcome (List Char) := build 100 (crit.map (fun ws => double 4 (imbalance ws) ++ [' ']))

/-- the parameters reported: partition/Diffusive/engpar_diffusive_input.h -/
structure Params where
  priorities : List Int
  tolerances : List Rat
  maxIterations : Int
  maxIterationsPerType : Int
  stepFactor : Rat
  sidesType : Int
  selectionType : Int
  countGhosts : Bool

/-- engpar_balancer.cpp:199-219, piece by piece -/
def logPieces (p : Params) : List (List Char) :=
  ["balance() : \n".toList, " priorities :".toList] ++ p.priorities.map (fun i => ' ' :: int i) ++ [['\n']] ++
  (if 0 < p.tolerances.length then [" tolerances :".toList] ++ p.tolerances.map (fun x => ' ' :: fixed 6 x) ++ [['\n']] else []) ++
  [" maxIterations : ".toList ++ int p.maxIterations ++ ['\n'], " maxIterationsPerType : ".toList ++ int p.maxIterationsPerType ++ ['\n'],
   " step_factor : ".toList ++ fixed 6 p.stepFactor ++ ['\n'], " sides_edge_type : ".toList ++ int p.sidesType ++ ['\n'],
   " selection_edge_type : ".toList ++ int p.selectionType ++ ['\n'], " countGhosts : ".toList ++ int (if p.countGhosts then 1 else 0) ++ ['\n']]

/-- the log entry of `balance`, engpar_balancer.cpp:197-221, `char message[1000]` -/
def balanceLog (p : Params) : Outcome (List Char) := build 1000 (logPieces p)

/-- engpar_balancer.cpp:306-316 -/
def reason (rc : Int) : List Char :=
  if rc = 1 then "target tolerance reached".toList
  else if rc = 2 then "stagnation".toList
  else if rc = 3 then "nothing was migrated".toList
  else if rc = 0 then "max iterations".toList
  else []

/-- engpar_balancer.cpp:298-317 -/
def donePieces (dim steps : Int) (secs : Rat) (verbosity rc : Int) : List (List Char) :=
  ["Completed diffusion for ".toList, if dim = -1 then "vertices ".toList else "edge type ".toList ++ int dim ++ [' '],
   "in ".toList ++ int steps ++ " steps and ".toList ++ fixed 6 secs ++ " seconds".toList] ++
  (if 2 ≤ verbosity then [" due to ".toList, reason rc] else []) ++ [".\n".toList]

/-- the message at the end of a criterion, engpar_balancer.cpp:296-320, `char buffer[200]` -/
def doneMessage (dim steps : Int) (secs : Rat) (verbosity rc : Int) : Outcome (List Char) := build 200 (donePieces dim steps secs verbosity rc)

/-- `setParameters`, engpar_zoltan.cpp:85-91, `char param[100]`: number of parts and tolerance -/
def zoltanParams (target : Int) (tol : Rat) : Outcome (List Char × List Char) := do
  let a ← sprintf 100 (int target)
  let b ← sprintf 100 (fixed 6 tol)
  return (a, b)

/-- agi/agiConstruct.cpp:51-58 and 73-80, `char message[45]` -/
def constructLog (title : List Char) (hyper : Bool) : Outcome (List Char) :=
  build 45 [title, if hyper then "Creating hypergraph\n".toList else "Creating traditional graph\n".toList]

end Verif.Part.Text
