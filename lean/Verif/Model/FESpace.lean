import Verif.Model.GatherScatter
import Verif.Model.Interpolation
import Mathlib.LinearAlgebra.Matrix.NonsingularInverse

/-!
# Model of `core/mesh.py` and `core/fespace.py`

Arrays are functions of natural number indices of which only the entries inside the shape count; arithmetic on finite
numbers is exact. A q-function (fespace.py 36-56) is represented by its values at the quadrature points of the elements,
which is what `vmap(vmap(f))(quad_coords)` returns: a nodal function ignores the coordinates and evaluates on all
elements at once (fespace.py 121-167), any other callable is applied to the coordinates of the point (`coordFn`).
-/

namespace Verif.Core

/-- `NodeType` (interpolation.py 29-34). -/
inductive NodeType
  | newtonCotes
  | gaussLegendre
  | gaussLobattoLegendre
  | single
  deriving DecidableEq

/-- `Nodes1D` (interpolation.py 37-91). The values of the Gauss types come from numpy/scipy; `bary` are the barycentric
weights that `BarycentricInterpolator._barycentric_weights` (interpolation.py 180-208) derives from the type. -/
structure Nodes1D (K : Type*) where
  nodeType : NodeType
  numPoints : ℕ
  value : Fin numPoints → K
  bary : Fin numPoints → K

/-- `Nodes1D.__eq__` (interpolation.py 83-91). Two single points are compared up to rounding in Python; the model only
calls two `single` lists equal never, which selects the general path of `interpolate`. -/
def Nodes1D.same {K : Type*} (a b : Nodes1D K) : Prop :=
  a.nodeType = b.nodeType ∧ a.nodeType ≠ .single ∧ a.numPoints = b.numPoints

instance {K : Type*} (a b : Nodes1D K) : Decidable (a.same b) := by unfold Nodes1D.same; infer_instance

/-- `Quadrature1D` (interpolation.py 94-140). -/
structure Quadrature1D (K : Type*) where
  nodes : Nodes1D K
  weights : List K

/-- `Mesh` (core/mesh.py 31-88); one row of `numPoints ^ d` node positions per element (checked in `create`, 113-117). -/
structure Mesh (K : Type*) (d : ℕ) where
  numNodes : ℕ
  numElements : ℕ
  grid : Nodes1D K
  coords : ℕ → Fin d → K
  elements : ℕ → ℕ → ℤ
  nodeIndices : ℕ → ℤ

section

variable {K : Type*} [Field K] [LinearOrder K] {d : ℕ}

/-- `num_nodes_per_element` (core/mesh.py 150-153). -/
def Mesh.nodesPerElem (mesh : Mesh K d) : ℕ := mesh.grid.numPoints ^ d

/-- Row `m` of `elements`. -/
def Mesh.row (mesh : Mesh K d) (m : ℕ) : List ℤ := (List.range mesh.nodesPerElem).map (mesh.elements m)

/-- `Mesh.gather` (core/mesh.py 155-160): entry `(m, n)` of the gathered array. -/
def Mesh.gather (mesh : Mesh K d) (u : ℕ → K) (m n : ℕ) : K :=
  (Verif.Core.gather mesh.numNodes u (mesh.row m) 0).getD n 0

/-- `Mesh.scatter` (core/mesh.py 165-168). -/
def Mesh.scatter (mesh : Mesh K d) (ul : ℕ → ℕ → K) : ℕ → K :=
  Verif.Core.scatter
    ((List.range mesh.numElements).flatMap (fun m => (List.range mesh.nodesPerElem).map (ul m)))
    ((List.range mesh.numElements).flatMap mesh.row) mesh.numNodes

/-- `Mesh.element_coords` (core/mesh.py 170-172). -/
def Mesh.elementCoords (mesh : Mesh K d) (m n : ℕ) (j : Fin d) : K := mesh.gather (fun p => mesh.coords p j) m n

/-- `Mesh.exchange` (core/mesh.py 174-179) of an unpartitioned mesh. -/
def Mesh.exchange (mesh : Mesh K d) (u : ℕ → K) : ℕ → K := meshExchange mesh.numNodes mesh.nodeIndices u

/-! ### finite element spaces -/

/-- `FiniteElementSpace` (fespace.py 256-304); `interpolate` and `gradMat` are the parts of `interpolator` in use. -/
structure FESpace (K : Type*) (d : ℕ) where
  mesh : Mesh K d
  numQuad : ℕ
  weights : List K
  interpolate : (ℕ → K) → ℕ → K
  gradMat : Fin d → NMat K
  invjacs : ℕ → ℕ → Matrix (Fin d) (Fin d) K
  jacdets : ℕ → ℕ → K
  quadCoords : ℕ → ℕ → Fin d → K

/-- `jacs = einsum('mnj,qni->mqij', elem_coords, interpolation_matrix_grad)` (fespace.py 335-340). -/
def jacobian (mesh : Mesh K d) (G : Fin d → NMat K) (m q : ℕ) : Matrix (Fin d) (Fin d) K :=
  Matrix.of fun i j => ∑ n ∈ Finset.range mesh.nodesPerElem, mesh.elementCoords m n j * (G i).entry q n

/-- `jnp.linalg.inv` of a matrix with non zero determinant. -/
def matInv (J : Matrix (Fin d) (Fin d) K) : Matrix (Fin d) (Fin d) K := J.det⁻¹ • J.adjugate

/-- `FiniteElementSpace.create` (fespace.py 307-348), except that the inverse Jacobians are only meaningful where the
determinant is not zero; see `create`. `none` when an entry of the interpolation matrix is not finite, and when
`ndim = 0`. Of the pressure space the code uses only `jacdets` and `interpolate`, so this function models it. -/
def FESpace.build (mesh : Mesh K d) (quad : Quadrature1D K) : Option (FESpace K d) :=
  match interpMatrix1d mesh.grid.bary mesh.grid.value quad.nodes.value with
  | none => none
  | some M1 =>
    match interpMatrix d M1, weightsNd quad.weights d with
    | some A, some W =>
      let G : Fin d → NMat K := fun i =>
        (interpMatrixGrad d M1 (diffMatrix1d mesh.grid.bary mesh.grid.value) i).getD ⟨0, 0, fun _ _ => 0⟩
      let interpolate : (ℕ → K) → ℕ → K := if mesh.grid.same quad.nodes then fun x => x else A.apply
      some {
        mesh := mesh
        numQuad := quad.nodes.numPoints ^ d
        weights := W
        interpolate := interpolate
        gradMat := G
        invjacs := fun m q => matInv (jacobian mesh G m q)
        jacdets := fun m q => (jacobian mesh G m q).det
        quadCoords := fun m q j => interpolate (fun n => mesh.elementCoords m n j) q }
    | _, _ => none

/-- All inverse Jacobians are finite. -/
def FESpace.regular (fs : FESpace K d) : Prop := ∀ m < fs.mesh.numElements, ∀ q < fs.numQuad, fs.jacdets m q ≠ 0

instance (fs : FESpace K d) : Decidable fs.regular := by unfold FESpace.regular; infer_instance

/-- `FiniteElementSpace.create` (fespace.py 307-348) of a space whose gradients are used: `none` when a Jacobian is
singular at a quadrature point (`jnp.linalg.inv` returns infinities or NaN there). -/
def FESpace.create (mesh : Mesh K d) (quad : Quadrature1D K) : Option (FESpace K d) :=
  match FESpace.build mesh quad with
  | none => none
  | some fs => if fs.regular then some fs else none

/-- A q-function, by its values at quadrature point `q` of element `m`. -/
abbrev QFun (α : Type*) := ℕ → ℕ → α

/-- A function of the coordinates, evaluated by `_evaluate` (fespace.py 360-362). -/
def coordFn {α : Type*} (fs : FESpace K d) (g : (Fin d → K) → α) : QFun α := fun m q => g (fs.quadCoords m q)

/-- `ScalarNodalQFunction` (fespace.py 170-179). -/
def scalarFn (fs : FESpace K d) (ul : ℕ → ℕ → K) : QFun K := fun m q => fs.interpolate (ul m) q

/-- `interpolate_grad` (interpolation.py 288-292). -/
def elemGrad (fs : FESpace K d) (x : ℕ → K) (q : ℕ) (i : Fin d) : K := (fs.gradMat i).apply x q

/-- `ScalarNodalQFunctionGrad` (fespace.py 182-195). -/
def scalarGrad (fs : FESpace K d) (ul : ℕ → ℕ → K) : QFun (Fin d → K) :=
  fun m q j => ∑ i, elemGrad fs (ul m) q i * fs.invjacs m q j i

/-- `VectorNodalQFunction` (fespace.py 198-209). -/
def vectorFn (fs : FESpace K d) (ul : ℕ → ℕ → Fin d → K) : QFun (Fin d → K) :=
  fun m q k => fs.interpolate (fun n => ul m n k) q

/-- `VectorNodalQFunctionGrad` (fespace.py 212-225): entry `(j, k)`. -/
def vectorGrad (fs : FESpace K d) (ul : ℕ → ℕ → Fin d → K) : QFun (Fin d → Fin d → K) :=
  fun m q j k => ∑ i, elemGrad fs (fun n => ul m n k) q i * fs.invjacs m q j i

/-- `div` (fespace.py 244-248). -/
def divFn (fs : FESpace K d) (ul : ℕ → ℕ → Fin d → K) : QFun K := fun m q => ∑ j, vectorGrad fs ul m q j j

/-- `integrate` (fespace.py 381-403). -/
def integrate (fs : FESpace K d) (w : QFun K) : K :=
  ∑ m ∈ Finset.range fs.mesh.numElements, ∑ q ∈ Finset.range fs.numQuad,
    w m q * fs.jacdets m q * fs.weights.getD q 0

/-- The local array with a one at node `n` of element `m`. -/
def unitLocal (m n : ℕ) : ℕ → ℕ → K := fun m' n' => if m' = m ∧ n' = n then 1 else 0

/-- `local_covector` (fespace.py 405-471) with a scalar placeholder: `F v` is `integrate(form(..., v, ...))` and the
transposed linear map applied to `1` has the values of `F` on the unit arrays as entries. -/
def scalarCovector (F : (ℕ → ℕ → K) → K) : ℕ → ℕ → K := fun m n => F (unitLocal m n)

/-- `local_covector` with a vector placeholder. -/
def vectorCovector (F : (ℕ → ℕ → Fin d → K) → K) : ℕ → ℕ → Fin d → K :=
  fun m n k => F (fun m' n' k' => if k' = k then unitLocal m n m' n' else 0)

/-! ### operators of examples/poisson.py -/

/-- The mass form `l` (poisson.py 133-134) applied to local arrays. -/
def massForm (fs : FESpace K d) (ul vl : ℕ → ℕ → K) : K := integrate fs (fun m q => scalarFn fs ul m q * scalarFn fs vl m q)

/-- The stiffness form `a` (poisson.py 136-137). -/
def stiffForm (fs : FESpace K d) (ul vl : ℕ → ℕ → K) : K :=
  integrate fs (fun m q => ∑ j, scalarGrad fs ul m q j * scalarGrad fs vl m q j)

/-- `mesh.scatter(fespace.local_covector(l, (u, v)))` (poisson.py 149-154; StokesPressure.B, navier_stokes.py 129-136). -/
def massOp (fs : FESpace K d) (u : ℕ → K) : ℕ → K :=
  fs.mesh.scatter (scalarCovector (massForm fs (fs.mesh.gather u)))

/-- `mesh.scatter(fespace.local_covector(a, (u, v)))` (poisson.py 141-146). -/
def stiffOp (fs : FESpace K d) (u : ℕ → K) : ℕ → K :=
  fs.mesh.scatter (scalarCovector (stiffForm fs (fs.mesh.gather u)))

end

end Verif.Core
