import Verif.Agi.Build
/-!
# Specification: a hypergraph distributed over parts
-/
namespace Verif.Agi

/-- a hyperedge of the global hypergraph -/
structure HEdge where
  id : Gid
  pins : List Gid
  w : Wgt
deriving DecidableEq

/-- the hyperedges a part passes to one `constructEdges` call -/
def EdgeInput.edges (e : EdgeInput) : List HEdge :=
  (e.ids.zip (e.pins.zip e.weights)).map (fun x => ⟨x.1, x.2.1, x.2.2⟩)

/-- the parts' inputs `ins` are a distribution of the hypergraph `H` (hyperedges per type) with the
vertices owned according to `own`: each part has the vertices it owns and exactly the hyperedges with a pin
it owns, each once, with all their pins -/
structure HDist (H : List (List HEdge)) (ins : List Input) (own : Gid → Nat) : Prop where
  wf : ∀ i ∈ ins, i.WF
  hyper : ∀ i ∈ ins, i.hyper = true
  verts : ∀ p (h : p < ins.length), ∀ v ∈ ins[p].verts, own v = p
  pins : ∀ es ∈ H, ∀ e ∈ es, ∀ v ∈ e.pins, ∃ h : own v < ins.length, v ∈ ins[own v].verts
  nonempty : ∀ es ∈ H, ∀ e ∈ es, e.pins ≠ []
  types : ∀ p (h : p < ins.length), ins[p].types.length = H.length
  edges : ∀ p (h : p < ins.length) t (ht : t < ins[p].types.length) (ht' : t < H.length),
    (ins[p].types[t].edges).Perm (H[t].filter (fun e => decide (∃ v ∈ e.pins, own v = p)))

/-- the construction calls of all parts; the parts add up their vertex counts (`PCU_Add_Long`) -/
def buildAll (ins : List Input) : Outcome (List Graph) :=
  (List.range ins.length).mapM (fun p => do
    let i ← rd ins p
    build (p : Int) ins.length ((ins.map (fun i => (i.verts.length : Int))).sum) i)

/-- the owner maps handed to `constructGhosts` tell the owner of every ghost -/
def OwnMaps (ins : List Input) (own : Gid → Nat) (owns : List (GMap Part)) : Prop :=
  owns.length = ins.length ∧ ∀ p (h : p < ins.length) (h' : p < owns.length),
    ∀ v ∈ ins[p].allPins, v ∉ ins[p].verts → owns[p] v = some (own v : Int)

end Verif.Agi
