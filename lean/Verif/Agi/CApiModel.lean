import Verif.Agi.DistSpec
import Verif.Agi.PartitionModel
/-!
# Model of the C interface: interfaces/cengpar.cpp

The caller's arrays are memories that may be longer than the numbers passed with them say.  The casts between `void*` and
the classes, `cengpar_initialize`, `cengpar_finalize` and the calls that only pass their arguments on are not modelled.
-/
namespace Verif.Agi

/-- `std::vector<T> v(a, a+n)`, e.g. interfaces/cengpar.cpp:76-77 -/
def vecOf {α : Type} (a : Mem α) (n : Nat) : Outcome (List α) := (List.range n).mapM a.load

/-- `cengpar_constructVerts`, interfaces/cengpar.cpp:73-79; the sum over all parts is `total` -/
def capiVerts (g : Graph) (isHg : Bool) (verts : Mem Gid) (wgts : Mem Wgt) (nverts : Nat) (total : Int) : Outcome Graph := do
  let v ← vecOf verts nverts
  let w ← vecOf wgts nverts
  constructVertsV g isHg v w total

/-- the arguments of `cengpar_constructEdges` -/
structure CEdges where
  edges : Mem Gid
  degs : Mem Nat
  wgts : Mem Wgt
  pins : Mem Gid
  nedges : Nat
  npins : Nat

/-- `cengpar_constructEdges`, interfaces/cengpar.cpp:81-90 -/
def capiEdges (g : Graph) (a : CEdges) : Outcome Graph := do
  let e ← vecOf a.edges a.nedges
  let d ← vecOf a.degs a.nedges
  let w ← vecOf a.wgts a.nedges
  let p ← vecOf a.pins a.npins
  constructEdgesV g e d p w

/-- the loop of `cengpar_constructGhosts`, interfaces/cengpar.cpp:95-97 -/
def capiOwners (verts : Mem Gid) (owners : Mem Part) (n : Nat) : Outcome (GMap Part) :=
  (List.range n).foldlM (fun (m : GMap Part) i => do
    let v ← verts.load i
    let o ← owners.load i
    return m.put v o) GMap.empty

/-- what one part passes to the interface -/
structure CArgs where
  isHg : Bool
  verts : Mem Gid
  wgts : Mem Wgt
  nverts : Nat
  edges : List CEdges
  ghosts : Mem Gid
  owners : Mem Part
  nghosts : Nat

/-- `cengpar_createEmptyGraph`, `cengpar_constructVerts` and one `cengpar_constructEdges` per type, on all parts -/
def capiBuild (as : List CArgs) : Outcome (List Graph) :=
  (List.range as.length).mapM (fun p => do
    let a ← rd as p
    let g ← capiVerts (emptyGraph (p : Int) as.length) a.isHg a.verts a.wgts a.nverts ((as.map (fun a => (a.nverts : Int))).sum)
    a.edges.foldlM capiEdges g)

/-- then `cengpar_constructGhosts` on all parts -/
def capiSetup (as : List CArgs) (o1 o2 : Nat → List Nat) : Outcome (List Graph) := do
  let gs ← capiBuild as
  let owns ← as.mapM (fun a => capiOwners a.ghosts a.owners a.nghosts)
  constructGhosts gs owns o1 o2

/-- one entry, interfaces/cengpar.cpp:120-123 -/
def capiEntry (m : GMap Nat) (s : Mem Gid × Mem Nat × Nat) (k : Gid) : Outcome (Mem Gid × Mem Nat × Nat) := do
  let p ← deref (m k)
  let vs ← s.1.store s.2.2 k
  let ps ← s.2.1.store s.2.2 p
  return (vs, ps, s.2.2 + 1)

/-- `cengpar_getPartition`, interfaces/cengpar.cpp:111-126, with the map `getPartition` gave this part and its keys in the
order of iteration; the result is the caller's two arrays -/
def capiFill (m : GMap Nat) (keys : List Gid) (verts : Mem Gid) (parts : Mem Nat) (nverts : Nat) : Outcome (Mem Gid × Mem Nat) :=
  if keys.length ≠ nverts then .fail
  else do
    let r ← keys.foldlM (capiEntry m) (verts, parts, 0)
    return (r.1, r.2.1)

end Verif.Agi
