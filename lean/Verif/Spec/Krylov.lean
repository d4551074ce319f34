import Mathlib.Algebra.Module.LinearMap.Basic
import Mathlib.Algebra.Field.Defs
import Mathlib.Algebra.Module.LinearMap.End
import Mathlib.LinearAlgebra.Span.Defs
import Mathlib.LinearAlgebra.BilinearMap

/-! Krylov spaces and the energy of the error. -/

namespace Verif.Spec

variable {K V : Type*} [Field K] [AddCommGroup V] [Module K V]

/-- The span of `v, T v, ..., T ^ (n - 1) v`. -/
def krylov (T : V →ₗ[K] V) (v : V) (n : ℕ) : Submodule K V :=
  Submodule.span K {w | ∃ i < n, w = (T ^ i) v}

/-- The square of the `A`-norm of the difference. -/
def energyDist (dot : V →ₗ[K] V →ₗ[K] K) (A : V →ₗ[K] V) (x y : V) : K := dot (x - y) (A (x - y))

end Verif.Spec
