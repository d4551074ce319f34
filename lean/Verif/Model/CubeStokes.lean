import Verif.Model.CubePoisson
import Verif.Model.Stokes

/-!
# From `unit_cube_mesh` to `StokesSEM`
-/

namespace Verif.NS

open Verif.Core

/-- What `StokesSEM.create` builds for a unit cube mesh: the two meshes, the masks of the velocity mesh, the quadratures,
the operators, and the grid points of one order less that `filter` creates from those of the velocity mesh. -/
structure CubeStokes (d : ℕ) where
  vmesh : Mesh ℝ d
  pmesh : Mesh ℝ d
  masks : List (String × (ℕ → Bool))
  quad : Quadrature1D ℝ
  overQuad : Quadrature1D ℝ
  low : Nodes1D ℝ
  sem : StokesSEM ℝ d

/-- `StokesSEM.create(unit_cube_mesh(n, ndim, a, b, periodic_dims), bcs, order, over)` (navier_stokes.py 258-293) with
`StokesPressure.create` (103-121: `order - 1` Gauss-Legendre points), `StokesVelocity.create` (154-193: `order + 1`
Gauss-Lobatto-Legendre points, quadrature on the same points, overintegration with `over` more) and `dirichlet_bc` (88-94);
`low_gridpoints` of `filter` (462-464). A premesh of `unit_cube_mesh` has order one. -/
noncomputable def cubeStokes (n d order over : ℕ) (a b : ℝ) (per : List ℕ) (bcs : List (String × BCType)) :
    Except String (CubeStokes d) :=
  match createQuadrature .gaussLobattoLegendre (order + 1) with
  | none => .error "ValueError"
  | some quad =>
    if order < 2 then .error "ValueError"
    else
      match cubeMesh n d (order - 2) .gaussLegendre a b per with
      | .error e => .error e
      | .ok (pmesh, _) =>
        match cubeMesh n d order .gaussLobattoLegendre a b per with
        | .error e => .error e
        | .ok (vmesh, masks) =>
          match interiorMask (K := ℝ) masks bcs with
          | none => .error "KeyError"
          | some mask =>
            match createQuadrature .gaussLobattoLegendre (order + 1 + over) with
            | none => .error "ValueError"
            | some overQuad =>
              match createNodes .gaussLobattoLegendre order with
              | none => .error "ValueError"
              | some low =>
                match StokesSEM.create vmesh pmesh quad overQuad mask with
                | none => .error "nan"
                | some sem => .ok ⟨vmesh, pmesh, masks, quad, overQuad, low, sem⟩

end Verif.NS
