import Verif.Model.PScan
import Mathlib.Algebra.Field.Rat

/-! The operators of `pscan` (`swirl_fem/communication/pscan.py` 42-50) on floating point numbers.

`Model/PScan.lean` models `pscan` and `preduce` for an arbitrary operator, so it covers operators that are not
associative. `jnp.add` and `jnp.multiply` on floats round their result with `fl`; their units are `0` and `1`. -/

namespace Verif.Comm

/-- `jnp.add` on floats (pscan.py 43). -/
def addFl (fl : ℚ → ℚ) (a b : ℚ) : ℚ := fl (a + b)

/-- `jnp.multiply` on floats (pscan.py 44). -/
def mulFl (fl : ℚ → ℚ) (a b : ℚ) : ℚ := fl (a * b)

end Verif.Comm
