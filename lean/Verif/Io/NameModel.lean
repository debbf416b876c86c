/-
Model of the file names and directories of `saveToFile`, `loadFromFile` and `writeVTK`, and of the
texts `printStats` and `evaluatePartition` put together in arrays of fixed size.

Texts are lists of (one byte) characters, without the terminating zero.
-/
import Verif.Base
import Verif.Mem

namespace Verif.Names
open Verif

/-- `%d` and `%ld` of a number that is not negative. -/
def dec (n : Nat) : List Char := Nat.toDigits 10 n

/-- `char buffer[cap]; sprintf(buffer, ..)`: the text and its terminating zero have to fit. -/
def sprintf (cap : Nat) (text : List Char) : Outcome (List Char) :=
  if text.length + 1 ≤ cap then .ok text else .ub

/-- `sprintf(filename,"%s_%d.bgd",prefix,PCU_Comm_Self())` with `char filename[256]`, in
`saveToFile` (agi/agiIO.cpp:142-143) and `loadFromFile` (agi/agiIO.cpp:226-227). -/
def bgdName (pre : List Char) (rank : Nat) : Outcome (List Char) :=
  sprintf 256 (pre ++ ['_'] ++ dec rank ++ ['.', 'b', 'g', 'd'])

/-- `sprintf(filename,"%s%d.vtu",prefix,..)` with `char filename[256]`, in `writeVTK`
(agi/agiVTK.cpp:270-271) and `writePSources` (agi/agiVTK.cpp:252-254). -/
def vtuName (pre : List Char) (rank : Nat) : Outcome (List Char) :=
  sprintf 256 (pre ++ dec rank ++ ['.', 'v', 't', 'u'])

/-- `sprintf(pfilename,"%s.pvtu",prefix)` (agi/agiVTK.cpp:290-291), rank 0 only. -/
def pvtuName (pre : List Char) : Outcome (List Char) :=
  sprintf 256 (pre ++ ['.', 'p', 'v', 't', 'u'])

/-- The names listed by `writePSources` (agi/agiVTK.cpp:251-257). -/
def pieces (pre : List Char) (peers : Nat) : Outcome (List (List Char)) :=
  (List.range peers).mapM (vtuName pre)

/-! ### Directories -/

/-- Reading a path one character at a time: the components that are complete, and the one being
read. -/
def compStep : List (List Char) × List Char → Char → List (List Char) × List Char
  | (done, cur), c =>
      if c = '/' then (if cur = [] then (done, []) else (done ++ [cur], []))
      else (done, cur ++ [c])

/-- The components of a path up to its last slash, and what follows it. -/
def compSplit (path : List Char) : List (List Char) × List Char := path.foldl compStep ([], [])

/-- The components of a path; repeated slashes count once, as for the system. Simplified: `.` and
`..` are names like any other. -/
def comps (path : List Char) : List (List Char) :=
  let (done, cur) := compSplit path
  if cur = [] then done else done ++ [cur]

/-- Where a path starts: `true` for the root, `false` for the working directory. -/
def absolute (path : List Char) : Bool := path.head? = some '/'

/-- The directories there are: by starting point and components. -/
abbrev Fs := Bool → List (List Char) → Bool

/-- `mkdir(path, S_IRWXU)`, its result not looked at: the directory is there afterwards if it was
before or if its parent is there. Simplified: the permissions suffice and no file is in the way. -/
def mkdir (path : List Char) (fs : Fs) : Fs :=
  if comps path ≠ [] ∧ fs (absolute path) (comps path).dropLast = true then
    fun b cs => if b = absolute path ∧ cs = comps path then true else fs b cs
  else fs

/-- The body of the loop of `mkdir_r` (agi/agiIO.cpp:134-139) at position `p`. -/
def mkdirAt (tmp : List Char) (fs : Fs) (p : Nat) : Fs :=
  if tmp[p]? = some '/' then mkdir (tmp.take p) fs else fs

/-- `mkdir_r` (agi/agiIO.cpp:126-140). -/
def mkdirR (dir : List Char) (fs : Fs) : Outcome Fs :=
  let tmp := dir.take 255                                   -- snprintf(tmp, sizeof(tmp),"%s",dir)
  if tmp = [] then .ub                                      -- tmp[len - 1]
  else
    let tmp := if tmp.getLast? = some '/' then tmp.dropLast else tmp
    .ok ((List.range' 1 (tmp.length - 1)).foldl (mkdirAt tmp) fs)

/-- The beginning of `saveToFile` (agi/agiIO.cpp:141-149): the name, the directories, and opening
the file, which fails if its directory is not there. -/
def saveOpen (pre : List Char) (rank : Nat) (fs : Fs) : Outcome (List Char × Fs) := do
  let name ← bgdName pre rank
  let fs ← mkdirR name fs
  if fs (absolute name) (comps name).dropLast = true then .ok (name, fs) else .fail

/-! ### Reports -/

/-- One turn of the loops of `printStats` (agi/agiConstruct.cpp:597-600, 605-608):
`n = sprintf(temp,"Type %d: %ld ",t,..); temp+=n;` in `char edges[100]`. -/
def statStep (buf : List Char) (c : Nat × Nat) : Outcome (List Char) :=
  sprintf 100 (buf ++ ['T', 'y', 'p', 'e', ' '] ++ dec c.2 ++ [':', ' '] ++ dec c.1 ++ [' '])

/-- A line of `printStats`: a title and the counts of the edge types. -/
def statLine (title : List Char) (counts : List Nat) : Outcome (List Char) :=
  (counts.zipIdx).foldlM statStep title

/-- `Ngraph::printStats` (agi/agiConstruct.cpp:588-611): the number of vertices, the line of the
edges, and for a hypergraph the line of the pins. Simplified: the texts without the prefix of
`EnGPar_Status_Message` and the final newline. -/
def printStats (hyper : Bool) (verts : Nat) (edges pins : List Nat) :
    Outcome (List (List Char)) := do
  let e ← statLine ['E', 'd', 'g', 'e', 's', ':', ' '] edges
  let first := ['V', 'e', 'r', 't', 'i', 'c', 'e', 's', ':', ' '] ++ dec verts
  if hyper then do
    let p ← statLine ['P', 'i', 'n', 's', ':', ' '] pins
    .ok [first, e, p]
  else .ok [first, e]

/-- The labels of `evaluatePartition` on rank 0 (partition/engpar.cpp:103-104, 114-116):
`char prefix[100]; sprintf(prefix,"PARTITION %s",name);` and for every edge type
`char edge_name[30]; sprintf(edge_name,"%s: Edges type %d",prefix,i);`. -/
def evalLabels (name : List Char) (types : Nat) : Outcome (List Char × List (List Char)) := do
  let pre ← sprintf 100 (['P', 'A', 'R', 'T', 'I', 'T', 'I', 'O', 'N', ' '] ++ name)
  let ls ← (List.range types).mapM fun i =>
    sprintf 30 (pre ++ [':', ' ', 'E', 'd', 'g', 'e', 's', ' ', 't', 'y', 'p', 'e', ' '] ++ dec i)
  .ok (pre, ls)

end Verif.Names
