import Verif.Spec.Grid
import Mathlib.Data.Set.Function

/-! Specification: symmetries of the `d`-dimensional cube acting on the points of a tensor grid. -/

namespace Verif.Spec

/-- `σ` permutes the `d` axes. -/
def AxisPerm (d : ℕ) (σ : ℕ → ℕ) : Prop := Set.BijOn σ {i | i < d} {i | i < d}

/-- Grid point `q` of the `m^d` grid is the image of grid point `p` under the symmetry that takes axis `σ i` to
axis `i`, reversed when `fl i`. -/
def CubeImage (m d : ℕ) (σ : ℕ → ℕ) (fl : ℕ → Prop) (p q : ℕ) : Prop :=
  q < m ^ d ∧ ∀ i < d, (fl i → digit m d i q = m - 1 - digit m d (σ i) p) ∧
    (¬ fl i → digit m d i q = digit m d (σ i) p)

/-- The corners of `cur'` are those of `cur` moved by the symmetry. -/
def Matching (k : ℕ) (cur cur' : List ℕ) (σ : ℕ → ℕ) (fl : ℕ → Prop) : Prop :=
  ∀ c < 2 ^ k, ∀ q, CubeImage 2 k σ fl c q → cur'[q]? = cur[c]?

/-- The symmetry is its own inverse on the `mm^k` grid. -/
def Involutive (mm k : ℕ) (σ : ℕ → ℕ) (fl : ℕ → Prop) : Prop :=
  ∀ p q r, p < mm ^ k → CubeImage mm k σ fl p q → CubeImage mm k σ fl q r → r = p

end Verif.Spec
