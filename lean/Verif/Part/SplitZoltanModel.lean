import Verif.Part.SplitModel
import Verif.Part.ZoltanModel
/-!
# Model of `split` with `ZOLTAN_PHG`: partition/Multilevel/engpar_split.cpp, engpar_zoltan.cpp

All ranks of the large communicator hand their part over to Zoltan, the ranks outside the small communicator an empty
graph.  Zoltan's documented contract: it calls every callback on every rank and reads the arrays they fill (see
ZoltanModel.lean); with `RETURN_LISTS` = `EXPORT` it returns on each rank local ids with the ranks they go to.
-/
namespace Verif.Part
open Verif.Agi

/-- what one rank hands over: its vertices, then the hyperedges of each vertex and the weights of the hyperedges, or the
neighbours of each vertex -/
inductive ZData where
  | hypergraph (verts : ZVertList) (rows : List (Int × List Int)) (wgts : ZVertList)
  | graph (verts : ZVertList) (nbrs : List (List (Int × Int × Wgt)))
deriving DecidableEq

/-- the callbacks of one rank, engpar_zoltan.cpp:214-236: which of them are registered depends on whether any rank has a
hypergraph -/
def zoltanData (isHyper : Bool) (zid : Gid → Int) (g : Graph) : Outcome ZData := do
  let vs ← zVertices g zid
  if isHyper then do
    let rows ← zHyper g zid
    let ws ← zEdgeWeights g zid
    return .hypergraph vs rows ws
  else do
    let nbrs ← (List.range g.numLocal).mapM (zEdges g zid)
    return .graph vs nbrs

/-- `PCU_Max_Int(g->isHyper())`, engpar_zoltan.cpp:34-35 -/
def anyHyper (gs : List Graph) : Bool := gs.any (fun g => g.isHyper)

/-- what `Zoltan_LB_Partition` returns on rank `r`, from what all ranks hand over and the number of parts wanted -/
abbrev ZoltanLib := List ZData → Nat → Nat → List (Nat × Part)

/-- `EnGPar_Zoltan(input, target_parts, false)` on all ranks, engpar_zoltan.cpp:17-80 -/
def zoltanAll (n : Nat) (gs : List Graph) (zid : Gid → Int) (z : ZoltanLib) : Outcome (List Plan) := do
  let D ← gs.mapM (zoltanData (anyHyper gs) zid)
  gs.zipIdx.mapM (fun x => zoltanPlan x.1 (z D n x.2))

/-- `split(input, ZOLTAN_PHG)`, engpar_split.cpp:31-63: Zoltan on the large communicator, before `expandParts`; the ranks
outside the small communicator drop their plan -/
def splitZoltan (n : Nat) (ranks : List Nat) (gs : List Graph) (zid : Gid → Int) (z : ZoltanLib) (env : MigrateEnv) :
    Outcome (List Graph) := do
  let all ← (List.range n).mapM (onRank n ranks gs)
  let plans ← zoltanAll n all zid z
  let own ← ranks.mapM (fun r => rd plans r)
  splitApply n ranks gs own env

end Verif.Part
