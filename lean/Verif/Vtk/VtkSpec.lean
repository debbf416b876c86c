import Verif.Vtk.VtkModel
import Verif.Agi.MigSpec
import Verif.Agi.TradProps
/-!
# What a `.vtu` file means

The reading of an unstructured grid: cell `k` is made of the points whose numbers stand in the connectivity array from
`offsets[k-1]` (0 for the first) up to `offsets[k]`.
-/
namespace Verif.Vtk
open Verif.Agi

/-- the cells, each the list of its point numbers -/
def cellsFrom (conn : List Nat) : Nat → List Nat → List (List Nat)
  | _, [] => []
  | a, b :: rest => ((conn.drop a).take (b - a)) :: cellsFrom conn b rest

def File.cells (f : File) : List (List Nat) := cellsFrom f.connectivity 0 f.offsets

/-- the file is a proper unstructured grid of lines (cell type 3, two points): the arrays have the announced sizes and
every cell refers to points of the file -/
structure File.WF (f : File) : Prop where
  points : f.points.length = f.numPoints
  offsets : f.offsets.length = f.numCells
  types : f.types = List.replicate f.numCells 3
  lines : ∀ c ∈ f.cells, c.length = 2
  used : f.cells.flatten = f.connectivity
  inside : ∀ i ∈ f.connectivity, i < f.numPoints
  part : f.part.length = f.numPoints
  vorE : ∀ l, f.vorE = some l → l.length = f.numPoints
  tag : ∀ l, f.tag = some l → l.length = f.numPoints

instance (f : File) : Decidable f.WF :=
  if h : f.points.length = f.numPoints ∧ f.offsets.length = f.numCells ∧ f.types = List.replicate f.numCells 3 ∧
      (∀ c ∈ f.cells, c.length = 2) ∧ f.cells.flatten = f.connectivity ∧ (∀ i ∈ f.connectivity, i < f.numPoints) ∧
      f.part.length = f.numPoints ∧ (∀ l ∈ f.vorE, l.length = f.numPoints) ∧ (∀ l ∈ f.tag, l.length = f.numPoints) then
    isTrue ⟨h.1, h.2.1, h.2.2.1, h.2.2.2.1, h.2.2.2.2.1, h.2.2.2.2.2.1, h.2.2.2.2.2.2.1, h.2.2.2.2.2.2.2.1, h.2.2.2.2.2.2.2.2⟩
  else isFalse (fun w => h ⟨w.points, w.offsets, w.types, w.lines, w.used, w.inside, w.part, w.vorE, w.tag⟩)

/-- the mean position -/
def mean (cs : List Coord) : Coord :=
  ((cs.map (fun c => c.1)).sum / cs.length, (cs.map (fun c => c.2.1)).sum / cs.length, (cs.map (fun c => c.2.2)).sum / cs.length)

/-- what a point stands for -/
inductive Pt where
  | vertex (v : Gid)
  | edge (e : Gid)
deriving DecidableEq

/-- the points of the file of a part with the vertices `vs` and the hyperedges `es` -/
def ptsH (vs : List Gid) (es : List EdgeView) : List Pt := vs.map Pt.vertex ++ es.map (fun e => Pt.edge e.id)

/-- the values of a tag at the points of a hypergraph's file: those of the entities the tag is for, -1 elsewhere; nothing
without a tag or without telling what it is for -/
def tagH (vals : Option (List Int)) (t : TagOn) (nv ne : Nat) : Option (List Int) :=
  match vals, t with
  | some d, .vtx => some (d.take nv ++ List.replicate ne (-1))
  | some d, .edge 0 => some (List.replicate nv (-1) ++ d.take ne)
  | some _, .edge _ => some (List.replicate nv (-1) ++ List.replicate ne (-1))
  | _, _ => none

/-- a tag has a value for each of the entities it is for -/
def TagOk (vals : Option (List Int)) (t : TagOn) (nv ne : Nat) : Prop :=
  ∀ d, vals = some d → (t = .vtx → nv ≤ d.length) ∧ (t = .edge 0 → ne ≤ d.length)

/-- the file of part `p` shows the vertices `vs` (at their coordinates) and the hyperedges `es` (at the mean position of
all their pins), the part's number and the kind of each point, and a line for every pin of the part -/
structure ShowsH (f : File) (c : Gid → Coord) (vals : Option (List Int)) (t : TagOn) (p : Nat) (vs : List Gid) (es : List EdgeView) : Prop where
  wf : f.WF
  points : f.points = vs.map (fun v => some (c v)) ++ es.map (fun e => some (mean (e.pins.map (fun x => c x.1))))
  cells : f.cells.map (fun cell => cell.map (fun i => (ptsH vs es)[i]?)) =
    es.flatMap (fun e => (e.pins.filter (fun x => decide (x.2 = (p : Int)))).map (fun x => [some (Pt.edge e.id), some (Pt.vertex x.1)]))
  part : f.part = List.replicate (vs.length + es.length) (p : Int)
  vorE : f.vorE = some (List.replicate vs.length 0 ++ List.replicate es.length 1)
  tag : f.tag = tagH vals t vs.length es.length

/-- the values of a tag at the points of a traditional graph's file -/
def tagT (vals : Option (List Int)) (t : TagOn) (nv : Nat) : Option (List Int) :=
  match vals, t with
  | some d, .vtx => some (d.take nv)
  | _, _ => none

/-- the file of part `p` of a traditional graph with the vertices `vs`, the ghosts `gs` and the edges `es`: a point for every
vertex, a line for every edge.  The end of an edge that is a ghost is numbered as the part numbers its ghosts: after its
vertices -/
structure ShowsT (f : File) (c : Gid → Coord) (vals : Option (List Int)) (t : TagOn) (p : Nat) (vs gs : List Gid) (es : List EdgeView) : Prop where
  points : f.points = vs.map (fun v => some (c v))
  count : f.numPoints = vs.length
  cells : f.cells.map (fun cell => cell.map (fun i => (vs ++ gs)[i]?)) = es.map (fun e => e.pins.map (fun x => some x.1))
  part : f.part = List.replicate vs.length (p : Int)
  vorE : f.vorE = none
  tag : f.tag = tagT vals t vs.length

end Verif.Vtk
