import Verif.Model.FESpace
import Verif.Model.CG

/-!
# Model of `examples/poisson.py`

`jax.scipy.sparse.linalg.cg` without preconditioner performs the recurrences of `linalg/cg.py` with `M` the identity and
`maxiter = 10 * size`; it is modelled by `cg`. The physical masks of the mesh (core/mesh.py 71-75) are an argument. The
quadrature (poisson.py 111-113) is an argument: its Gauss points come from numpy.
-/

namespace Verif.Core

open Verif.Linalg

/-- `BCType` (poisson.py 43-46, navier_stokes.py 82-85). -/
inductive BCType
  | dirichlet
  | neumann
  deriving DecidableEq

variable {K : Type*} [Field K] [LinearOrder K] {d : ℕ}

/-- The product over the boundary conditions in `with_bc` (poisson.py 123-129) and `dirichlet_bc`
(navier_stokes.py 88-95); `none` is the `KeyError` of an unknown physical group. -/
def interiorMask (masks : List (String × (ℕ → Bool))) (bcs : List (String × BCType)) : Option (ℕ → K) :=
  bcs.foldlM (fun w bc =>
    if bc.2 = .dirichlet then
      match masks.lookup bc.1 with
      | none => none
      | some mask => some (fun j => w j * (1 - if mask j then 1 else 0))
    else some w) (fun _ => 1)

/-- A boundary condition of `solve_poisson`; the value is `none` unless it is a scalar. -/
structure PoissonBC (K : Type*) where
  group : String
  type : BCType
  value : Option K

/-- The matrix free operator `A` (poisson.py 141-146). -/
def poissonOp (fs : FESpace K d) (mask : ℕ → K) (u : ℕ → K) : ℕ → K := fun j => stiffOp fs u j * mask j

/-- The right hand side `B(forcing)` (poisson.py 149-154, 157). -/
def poissonRhs (fs : FESpace K d) (mask : ℕ → K) (f : ℕ → K) : ℕ → K := fun j => massOp fs f j * mask j

/-- `jnp.vdot` of two nodal vectors. -/
def nodeDot (N : ℕ) (u v : ℕ → K) : K := ∑ j ∈ Finset.range N, u j * v j

/-- `solve_poisson` (poisson.py 49-164). Non-finite values are reported as `"nan"`. -/
def solvePoisson (mesh : Mesh K d) (quad : Quadrature1D K) (masks : List (String × (ℕ → Bool))) (forcing : ℕ → K)
    (bcs : List (PoissonBC K)) (rtol atol : K) : Except String (ℕ → K) :=
  match FESpace.create mesh quad with
  | none => .error "nan"
  | some fs =>
    if bcs.any (fun bc => decide (bc.value ≠ some 0)) then .error "NotImplementedError"
    else
      match interiorMask masks (bcs.map (fun bc => (bc.group, bc.type))) with
      | none => .error "KeyError"
      | some mask =>
        match cgDefault mesh.numNodes (nodeDot mesh.numNodes) (poissonOp fs mask) (poissonRhs fs mask forcing) rtol atol with
        | none => .error "nan"
        | some (u, _, _) => .ok u

end Verif.Core
