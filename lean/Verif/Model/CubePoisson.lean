import Verif.Model.CubePremesh
import Verif.Model.GaussNodes
import Verif.Model.Poisson
import Verif.Model.Premesh

/-!
# From `unit_cube_mesh` to `solve_poisson`

The functions that user code calls one after the other: node tables, refinement, `finalize`, quadrature.
-/

namespace Verif.Core

/-- `Nodes1D.create(num_points, node_type)` (interpolation.py 52-74) together with the barycentric weights of its type
(interpolation.py 180-208); `none` is an exception. -/
noncomputable def createNodes (t : NodeType) (m : ℕ) : Option (Nodes1D ℝ) :=
  match t with
  | .newtonCotes => some { nodeType := t, numPoints := m, value := ncNode m, bary := ncWeight m }
  | .gaussLegendre =>
    match glNodes m with
    | none => none
    | some l => some { nodeType := t, numPoints := m, value := vec l m, bary := vec (glBary l (glWeights m l)) m }
  | .gaussLobattoLegendre =>
    match gllNodes m with
    | none => none
    | some l => some { nodeType := t, numPoints := m, value := vec l m, bary := vec (gllBary (gllWeights m l)) m }
  | .single => none

/-- `Quadrature1D.create(num_points, quadrature_type)` (interpolation.py 103-118, 120-136). -/
noncomputable def createQuadrature (t : NodeType) (m : ℕ) : Option (Quadrature1D ℝ) :=
  match createNodes t m with
  | none => none
  | some nodes =>
    let weights : Option (List ℝ) := match t with
      | .newtonCotes => ncQuadWeights m
      | .gaussLegendre => (glNodes m).map (glWeights m)
      | .gaussLobattoLegendre => some (gllWeights m (List.ofFn nodes.value))
      | .single => none
    weights.map (fun w => { nodes := nodes, weights := w })

/-- The quadrature of `solve_poisson` (poisson.py 111-113). -/
noncomputable def poissonQuadrature (order ndim : ℕ) : Option (Quadrature1D ℝ) :=
  createQuadrature .gaussLegendre (order + (ndim + 1) / 2)

section

variable {K : Type*} [Field K] [LinearOrder K] {d : ℕ}

/-- `Premesh.create` at the end of `refine` (mesh_refiner.py 281-287), as the argument of `finalize`. -/
def Refined.toPremesh (r : Refined (Fin d → K)) : Premesh (Fin d → K) where
  numNodes := r.nodeCoords.length
  nodeCoords := fun j => r.nodeCoords.getD j 0
  elements := r.elements
  physicalGroups := r.physicalGroups.map (fun g => (g.1, g.2.flatten))
  periodicLinks := r.periodicLinks

/-- The mesh and the physical masks that `refine_premesh(premesh, nodes).finalize()` returns (premesh.py 152-168,
core/mesh.py 90-135). -/
def finalMesh (grid : Nodes1D K) (r : Refined (Fin d → K)) : Mesh K d × List (String × (ℕ → Bool)) :=
  let m := finalizeUnpartitioned r.toPremesh
  ({ numNodes := r.nodeCoords.length
     numElements := m.elements.length
     grid := grid
     coords := m.nodeCoords
     elements := fun e i => (m.elements.getD e []).getD i sentinel
     nodeIndices := m.nodeIndices },
   m.physicalMasks)

end

/-- The node values as a vector of given length. -/
def Nodes1D.vector (grid : Nodes1D ℝ) (m : ℕ) : Fin m → ℝ :=
  fun i => if h : (i : ℕ) < grid.numPoints then grid.value ⟨i, h⟩ else 0

/-- `refine_premesh(unit_cube_mesh(n, ndim, a, b, periodic_dims), Nodes1D.create(p + 1, t)).finalize()`
(premesh_commons.py 67-145, mesh_refiner.py 35-57). -/
noncomputable def cubeMesh (n d p : ℕ) (t : NodeType) (a b : ℝ) (per : List ℕ) :
    Except String (Mesh ℝ d × List (String × (ℕ → Bool))) :=
  match createNodes t (p + 1) with
  | none => .error "ValueError"
  | some grid =>
    match refinePremesh (cubePremesh n d a b per) (grid.vector (p + 1)) with
    | .error e => .error e
    | .ok r => .ok (finalMesh grid r)

end Verif.Core
