import Mathlib.Algebra.Polynomial.Roots
import Mathlib.Algebra.Polynomial.Derivative
import Mathlib.Analysis.Real.Sqrt
import Mathlib.Data.Finset.Sort

/-!
# Gauss node and weight tables of `core/interpolation.py`

numpy and scipy compute the roots of orthogonal polynomials; the model takes the exact roots, in increasing order, and
exact real arithmetic.
-/

namespace Verif.Core

open Polynomial

/-- Legendre polynomials by Bonnet's recursion, as in `scipy.special.eval_legendre` (called in interpolation.py 111). -/
noncomputable def legendre : ℕ → ℝ[X]
  | 0 => 1
  | 1 => X
  | n + 2 => C ((n : ℝ) + 2)⁻¹ * (C (2 * (n : ℝ) + 3) * X * legendre (n + 1) - C ((n : ℝ) + 1) * legendre n)

/-- Jacobi polynomials with both parameters one, by their three term recursion; their roots are returned by
`scipy.special.roots_jacobi(m, alpha=1, beta=1)` (called in interpolation.py 67-68). -/
noncomputable def jacobi11 : ℕ → ℝ[X]
  | 0 => 1
  | 1 => 2 * X
  | n + 2 => C (((n : ℝ) + 2) * (n + 4))⁻¹ *
      (C ((2 * (n : ℝ) + 5) * (n + 3)) * X * jacobi11 (n + 1) - C (((n : ℝ) + 2) * (n + 3)) * jacobi11 n)

/-- The distinct roots of a polynomial in increasing order. -/
noncomputable def sortedRoots (p : ℝ[X]) : List ℝ := p.roots.toFinset.sort (· ≤ ·)

/-- `node_values` of the Gauss-Lobatto-Legendre nodes (interpolation.py 60-69). With fewer than two points
`roots_jacobi` raises. -/
noncomputable def gllNodes (m : ℕ) : Option (List ℝ) :=
  if m < 2 then none
  else some ([-1] ++ (if m = 2 then [] else sortedRoots (jacobi11 (m - 2))) ++ [1])

/-- `weights` of the Gauss-Lobatto-Legendre rule (interpolation.py 109-111). -/
noncomputable def gllWeights (m : ℕ) (nodes : List ℝ) : List ℝ :=
  nodes.map (fun x => 2 / ((m : ℝ) * ((m : ℝ) - 1)) / ((legendre (m - 1)).eval x) ^ 2)

/-- Nodes of `np.polynomial.legendre.leggauss(deg=m)` (interpolation.py 58). -/
noncomputable def glNodes (m : ℕ) : Option (List ℝ) := if m = 0 then none else some (sortedRoots (legendre m))

/-- Weights of `np.polynomial.legendre.leggauss(deg=m)` (interpolation.py 107): numpy evaluates
`1 / (L_m'(x) L_{m-1}(x))` and scales the result to sum two. -/
noncomputable def glWeights (m : ℕ) (nodes : List ℝ) : List ℝ :=
  let raw := nodes.map (fun x => 1 / ((derivative (legendre m)).eval x * (legendre (m - 1)).eval x))
  raw.map (fun w => w * (2 / raw.sum))

/-- Barycentric weights for Gauss-Lobatto-Legendre grid points (interpolation.py 199-206). -/
noncomputable def gllBary (weights : List ℝ) : List ℝ := weights.mapIdx (fun i w => (-1) ^ i * Real.sqrt w)

/-- Barycentric weights for Gauss-Legendre grid points (interpolation.py 190-198). -/
noncomputable def glBary (nodes weights : List ℝ) : List ℝ :=
  (nodes.zip weights).mapIdx (fun i xw => (-1) ^ i * Real.sqrt ((1 - xw.1 ^ 2) * xw.2))

/-- A list as a vector. -/
def vec (l : List ℝ) (m : ℕ) : Fin m → ℝ := fun i => l.getD i 0

end Verif.Core
