import Verif.Model.GatherScatter
import Mathlib.Analysis.SpecialFunctions.Log.Basic

/-!
# Model of `core/premesh.py`
-/

namespace Verif.Core

/-! ### `Premesh.create` -/

/-- Python's `round` on a real number: to the nearest integer, ties to the even one. -/
noncomputable def pyRound (x : ℝ) : ℤ :=
  if Int.fract x < 1 / 2 then ⌊x⌋
  else if 1 / 2 < Int.fract x then ⌊x⌋ + 1
  else if Even ⌊x⌋ then ⌊x⌋ else ⌊x⌋ + 1

/-- `Premesh.create` (premesh.py 73-115): the result holds the number of points per axis and the order.
`np.exp` and `np.log` are the real functions. -/
noncomputable def premeshCreate (nodesPerElement ndim : ℕ) (order : Option ℤ) (gridpoints : Option ℕ) :
    Except String (ℕ × ℤ) :=
  let numPoints : ℕ := match gridpoints with
    | some m => m
    | none => (pyRound (Real.exp (Real.log nodesPerElement / ndim))).toNat
  if nodesPerElement ≠ numPoints ^ ndim then .error "ValueError"
  else .ok (numPoints, match order with
    | some o => o
    | none => (numPoints : ℤ) - 1)

/-! ### `Premesh.finalize` -/

/-- The attributes of `Premesh` (premesh.py 65-71) that `finalize` uses. Facets of a physical group are
flattened to the list of their nodes (as in `_mask`, premesh.py 33). `C` is the type of a coordinate tuple. -/
structure Premesh (C : Type*) where
  numNodes : ℕ
  nodeCoords : ℕ → C
  elements : List (List ℤ)
  physicalGroups : List (String × List ℤ)
  periodicLinks : Option (List (List ℤ × List ℤ))

/-- `_mask(facets, node_indices)` (premesh.py 31-34) at one node index. -/
def maskAt (facetNodes : List ℤ) (nodeIndex : ℤ) : Bool := decide (nodeIndex ∈ facetNodes)

/-- Result of `finalize` without partitions (premesh.py 160-168). -/
structure MeshData (C : Type*) where
  nodeCoords : ℕ → C
  elements : List (List ℤ)
  nodeIndices : ℕ → ℤ
  physicalMasks : List (String × (ℕ → Bool))

/-- `finalize` of an unpartitioned premesh (premesh.py 152-168). -/
def finalizeUnpartitioned {C : Type*} (pm : Premesh C) : MeshData C :=
  let nodeIndices : ℕ → ℤ := fun k => uniqueNodeIndex pm.periodicLinks (k : ℤ)
  { nodeCoords := pm.nodeCoords
    elements := pm.elements
    nodeIndices := nodeIndices
    physicalMasks := pm.physicalGroups.map (fun g => (g.1, fun k => maskAt g.2 (nodeIndices k))) }

/-- Result of `finalize` with partitions (premesh.py 216-222): row `p` is what device `p` gets. The element
array of a device is flattened. -/
structure DeviceMesh (C : Type*) where
  nodeCoords : List (List C)
  elements : List (List ℤ)
  nodeIndices : List (List ℤ)
  physicalMasks : List (String × List (List Bool))
  exchangeRows : List (ℕ → ℤ)

/-- `jax.vmap(partial(gather, indices=element_indices), in_axes=-1, out_axes=-1)(self.elements)`
(premesh.py 177-178), one device, flattened; `nodesPerElement` is the width of the element array. -/
def gatherElements (elements : List (List ℤ)) (nodesPerElement : ℕ) (ids : List ℤ) : List ℤ :=
  ids.flatMap (fun e => if e ≠ sentinel then elements.getD (readPos elements.length e) []
    else List.replicate nodesPerElement sentinel)

/-- numpy indexing `node_coords[i]`: negative indices count from the end. -/
def coordAt {C : Type*} (pm : Premesh C) (i : ℤ) : C := pm.nodeCoords (readPos pm.numNodes i)

/-- `finalize` of a partitioned premesh with an axis name (premesh.py 170-222). -/
def finalizePartitioned {C : Type*} (pm : Premesh C) (nodesPerElement : ℕ) (partitions : List ℕ) :
    Except String (DeviceMesh C) :=
  let elementIndices := groupByPartitions partitions
  let elements := elementIndices.map (gatherElements pm.elements nodesPerElement)
  let nl := getLocalElements elements
  let nodeIndices := nl.1.map (fun row => row.map (uniqueNodeIndex pm.periodicLinks))
  let width := (nodeIndices.map List.length).foldl max 0
  match exchangeIndicesPart nodeIndices.length width (fun p i => (nodeIndices.getD p []).getD i sentinel) with
  | .error e => .error e
  | .ok rows => .ok
    { nodeCoords := nodeIndices.map (fun row => row.map (coordAt pm))
      elements := nl.2
      nodeIndices := nodeIndices
      physicalMasks := pm.physicalGroups.map
        (fun g => (g.1, nodeIndices.map (fun row => row.map (maskAt g.2))))
      exchangeRows := rows }

end Verif.Core
