import Verif.Agi.IterModel
import Verif.Io.BytesModel
/-!
# Model of the loader of binary edge lists: interfaces/binGraph.cpp

The file is a list of bytes.  Every rank runs the same code; a function with argument `me` is what rank `me` computes, and
the two MPI collectives (`MPI_Allreduce`, `MPI_Alltoall(v)`) combine the results of the ranks.  Overflow of the `int32_t`
counters (more than 2³¹ numbers on a rank) is not modelled.  The ghost weights created at the end (line 349) are not
modelled.
-/
namespace Verif.Io
open Verif.Agi

/-- the number with a 4-byte two's complement pattern -/
def signed32 (x : Nat) : Int := if x < 2147483648 then x else x - 4294967296

/-- `read_offset_start`, interfaces/binGraph.cpp:152-153 -/
def readStart (P me m : Nat) : Nat := me * 8 * (m / P)

/-- `read_offset_end`, interfaces/binGraph.cpp:154-158 -/
def readStop (P me m : Nat) : Nat := if me = P - 1 then 8 * m else (me + 1) * 8 * (m / P)

/-- the reading part of `load_edges`, interfaces/binGraph.cpp:145-169; `m` = `num_global_edges` is the size of the file
over 8.  A short read leaves the array uninitialised. -/
def loadEdges (little : Bool) (file : List Nat) (P me : Nat) : Outcome (List Int) :=
  let m := file.length / 8
  let start := readStart P me m
  let mread := (readStop P me m - start) / 8
  let bytes := (file.drop start).take (mread * 8)
  if bytes.length < mread * 8 then .ub else .ok ((ofArray little 4 (2 * mread) bytes).map signed32)

/-- the largest id read, interfaces/binGraph.cpp:171-175 -/
def maxId (l : List Int) : Int := l.foldl (fun a x => if a < x then x else a) 0

/-- `num_global_verts`, interfaces/binGraph.cpp:171-178; the maximum over the ranks is taken of numbers that are not
negative -/
def globalVerts (reads : List (List Int)) : Nat := ((reads.map maxId).foldl max 0).toNat + 1

/-- `vert_block_ranks`, interfaces/binGraph.cpp:199-206 -/
def vertBlockRanks (n P : Nat) : Outcome (Mem Int) :=
  (List.range n).foldlM (fun (m : Mem Int) i => m.store i ((i / (n / P + 1) : Nat) : Int)) (Mem.alloc n)

/-- a signed number as an index: negative ones are outside of every array -/
def toIdx (x : Int) : Outcome Nat := if 0 ≤ x then .ok x.toNat else .ub

/-- `m[t] += k` -/
def incr (m : Mem Nat) (t k : Nat) : Outcome (Mem Nat) := do
  let x ← m.load t
  m.store t (x + k)

/-- `buf[cur[t]++] = x` -/
def cursorPut {α : Type} (s : Mem Nat × Mem α) (t : Nat) (x : α) : Outcome (Mem Nat × Mem α) := do
  let i ← s.1.load t
  let buf ← s.2.store i x
  let cur ← s.1.store t (i + 1)
  return (cur, buf)

/-- `d[i] = d[i-1] + c[i-1]` -/
def displStep (c : Mem Nat) (d : Mem Nat) (i : Nat) : Outcome (Mem Nat) := do
  let a ← d.load (i - 1)
  let b ← c.load (i - 1)
  d.store i (a + b)

/-- the rank of the source of the edge at position `i` of the ids read -/
def taskOf (ranks : Mem Int) (re : Mem Int) (i : Nat) : Outcome Nat := do
  let vert ← re.load i
  let v ← toIdx vert
  let r ← ranks.load v
  toIdx r

/-- what a rank hands to the collective: counts, displacements, buffer -/
structure SendBuf where
  counts : Mem Nat
  displs : Mem Nat
  buf : Mem Int

/-- the sending part of `exchange_edges`, interfaces/binGraph.cpp:209-259 -/
def packEdges (P : Nat) (ranks : Mem Int) (re : Mem Int) (mread : Nat) : Outcome SendBuf := do
  let sc ← (List.range mread).foldlM (fun (m : Mem Nat) k => do
    let t ← taskOf ranks re (2 * k)
    incr m t 2) (List.replicate P (some 0))
  let sd ← (List.range' 1 (P - 1)).foldlM (displStep sc) (List.replicate P (some 0))
  let a ← sd.load (P - 1)
  let b ← sc.load (P - 1)
  let s ← (List.range mread).foldlM (fun (s : Mem Nat × Mem Int) k => do
    let t ← taskOf ranks re (2 * k)
    let x ← re.load (2 * k)
    let y ← re.load (2 * k + 1)
    let s ← cursorPut s t x
    cursorPut s t y) (sd, Mem.alloc (a + b))
  return ⟨sc, sd, s.2⟩

/-- `MPI_Alltoall` of the counts, interfaces/binGraph.cpp:234-235 -/
def recvCounts (sends : List SendBuf) (me : Nat) : Outcome (List Nat) := sends.mapM (fun s => s.counts.load me)

/-- the block of one sender in `MPI_Alltoallv` -/
def recvBlock (me : Nat) (s : SendBuf) (n disp : Nat) (el : Mem Int) : Outcome (Mem Int) := do
  let o ← s.displs.load me
  (List.range n).foldlM (fun (el : Mem Int) k => do
    let x ← s.buf.load (o + k)
    el.store (disp + k) x) el

/-- the receiving part of `exchange_edges`, interfaces/binGraph.cpp:237-266: the edge list of rank `me` -/
def exchangeEdges (P : Nat) (sends : List SendBuf) (me : Nat) : Outcome (Mem Int) := do
  let rc ← recvCounts sends me
  let rd' ← (List.range' 1 (P - 1)).foldlM (displStep (Mem.ofList rc)) (List.replicate P (some 0))
  let a ← rd'.load (P - 1)
  let b ← rd rc (P - 1)
  (List.range P).foldlM (fun (el : Mem Int) p => do
    let s ← rd sends p
    let n ← rd rc p
    let d ← rd'.load p
    recvBlock me s n d el) (Mem.alloc (a + b))

/-! ## the distributed graph -/

/-- the state of the first loop of `create_dist_csr` -/
structure Relabel where
  el : Mem Int
  map : GMap Nat
  unmap : Mem Gid
  cur : Nat

/-- one number of the edge list, interfaces/binGraph.cpp:294-305: ids of vertices of the part become labels, other ids
stay -/
def relabelStep (me : Int) (ranks : Mem Int) (s : Relabel) (i : Nat) : Outcome Relabel := do
  let out ← s.el.load i
  let v ← toIdx out
  let r ← ranks.load v
  if r ≠ me then return s
  else match s.map out with
    | none => do
      let u ← s.unmap.store s.cur out
      let el ← s.el.store i (s.cur : Int)
      return ⟨el, s.map.put out s.cur, u, s.cur + 1⟩
    | some l => do
      let el ← s.el.store i (l : Int)
      return { s with el := el }

/-- the state of the loop over the ghosts -/
structure GhostScan where
  edges : Mem Int
  map : GMap Nat
  cur : Nat
  ids : List Gid

/-- one destination, interfaces/binGraph.cpp:329-338: the number found in the list, a label or an id, is looked up as an
id -/
def ghostStep (nl : Nat) (s : GhostScan) (i : Nat) : Outcome GhostScan := do
  let out ← s.edges.load i
  match s.map out with
  | none => do
    let e ← s.edges.store i (s.cur : Int)
    return ⟨e, s.map.put out s.cur, s.cur + 1, s.ids ++ [out]⟩
  | some l =>
    if nl ≤ l then do
      let e ← s.edges.store i (l : Int)
      return { s with edges := e }
    else return s

/-- the compressed rows, interfaces/binGraph.cpp:306-324: degree list and destinations -/
def csrRows (nl ne : Nat) (el : Mem Int) : Outcome (Mem Nat × Mem Int) := do
  let temp ← (List.range ne).foldlM (fun (m : Mem Nat) k => do
    let x ← el.load (2 * k)
    let l ← toIdx x
    incr m l 1) (List.replicate nl (some 0))
  let deg ← (List.range' 1 nl).foldlM (displStep temp) (List.replicate (nl + 1) (some 0))
  let s ← (List.range ne).foldlM (fun (s : Mem Nat × Mem Int) k => do
    let x ← el.load (2 * k)
    let l ← toIdx x
    let y ← el.load (2 * k + 1)
    cursorPut s l y) (deg.take nl, Mem.alloc ne)
  return (deg, s.2)

/-- how many vertices a rank has, interfaces/binGraph.cpp:282-286 -/
def countLocal (me : Int) (ranks : Mem Int) (n : Nat) : Outcome Nat :=
  (List.range n).foldlM (fun c i => do
    let r ← ranks.load i
    return if r = me then c + 1 else c) 0

/-- the owners of the ghosts, interfaces/binGraph.cpp:340-347 -/
def ghostOwners (ranks : Mem Int) (ids : List Gid) : Outcome (Mem Part) := do
  let os ← ids.mapM (fun v => do
    let i ← toIdx v
    ranks.load i)
  return Mem.ofList os

/-- the arrays of the one edge type, interfaces/binGraph.cpp:160-168, 246-247, 306-324; the weights by `setEdgeWeights`
(line 48).  Neither `edge_unmap` nor pins are set. -/
def binEdges (m ne : Nat) (deg : Mem Nat) (edges : Mem Int) : EType :=
  { numEdges := ne, numPins := 2 * ne, globalEdges := m, globalPins := 2 * m, weights := List.replicate ne (some 1), degreeList := deg, edgeList := edges.map (Option.map Int.toNat), pinDegree := [], pinList := [], edgeMap := GMap.empty, unmap := [] }

/-- the graph made of the arrays; `nl` vertices, `gh` the result of the loop over the ghosts -/
def binGraphOf (P me n nl : Nat) (et : EType) (unmap : Mem Gid) (gh : GhostScan) (os : Mem Part) : Graph :=
  { emptyGraph (me : Int) P with numTypes := 1, globalVerts := n, numLocal := nl, numGhost := gh.ids.length, weights := List.replicate nl (some 1), types := (List.replicate maxTypes none).set 0 (some et), vtxMap := gh.map, localUnmap := unmap, ghostUnmap := if gh.ids.length = 0 then none else some (Mem.ofList gh.ids), owners := if gh.ids.length = 0 then none else some os }

/-- `create_dist_csr`, interfaces/binGraph.cpp:280-353, on the edge list of rank `me` of `P`, `n` the number of vertices
of the whole graph, `m` its number of edges -/
def createDistCsr (P me : Nat) (n m : Nat) (ranks : Mem Int) (el : Mem Int) : Outcome Graph := do
  let nl ← countLocal (me : Int) ranks n
  let ne := el.length / 2
  let s ← (List.range (2 * ne)).foldlM (relabelStep (me : Int) ranks) ⟨el, GMap.empty, Mem.alloc nl, 0⟩
  let (deg, edges) ← csrRows nl ne s.el
  let gh ← (List.range ne).foldlM (ghostStep nl) ⟨edges, s.map, nl, []⟩
  let os ← ghostOwners ranks gh.ids
  return binGraphOf P me n nl (binEdges m ne deg gh.edges) s.unmap gh os

/-- the table of ranks, interfaces/binGraph.cpp:38-42: block ranks (lines 199-206), or the numbers of a part file
(`read_ranks`, lines 183-197).  `l` holds the number `atoi` finds on every line of the file; lines after the `n`-th are not
read, and when there are no more lines `getline` leaves the line empty and `atoi` gives 0 (for a file whose last line ends
with a newline) -/
def rankTable (n P : Nat) : Option (List Int) → Outcome (Mem Int)
  | none => vertBlockRanks n P
  | some l => .ok (Mem.ofList ((List.range n).map (fun i => l.getD i 0)))

/-- the loader up to the exchange, interfaces/binGraph.cpp:29-44, with block ranks or given ones: number of vertices,
ranks and the edge lists of all ranks -/
def loadAll (little : Bool) (file : List Nat) (P : Nat) (given : Option (List Int)) :
    Outcome (Nat × Mem Int × List (Mem Int)) := do
  let reads ← (List.range P).mapM (loadEdges little file P)
  let n := globalVerts reads
  let ranks ← rankTable n P given
  let sends ← reads.mapM (fun re => packEdges P ranks (Mem.ofList re) (re.length / 2))
  let els ← (List.range P).mapM (exchangeEdges P sends)
  return (n, ranks, els)

/-- `createBinGraph`: the graphs of all ranks -/
def createBinGraph (little : Bool) (file : List Nat) (P : Nat) (given : Option (List Int)) : Outcome (List Graph) := do
  let (n, ranks, els) ← loadAll little file P given
  (List.range P).mapM (fun me => do
    let el ← rd els me
    createDistCsr P me n (file.length / 8) ranks el)

end Verif.Io
