import Verif.Model.SDE
import Mathlib.Algebra.Field.Rat
import Mathlib.Algebra.Order.Ring.Rat

/-! Model of `_sdeint` (`swirl_fem/sde/sdeint.py` 110-128) with rounded times.

The solver carries the time along, adds `dt` to it in every step and takes a step only while `t < ts[1]`
(sdeint.py 121-123). Here every operation on times is followed by a rounding `fl`. The operations on the states stay
exact, as in `Model/SDE.lean`, since the point is which steps are taken and with which times. -/

namespace Verif.SDE

variable {E W : Type*} [AddCommGroup E] [Module ℚ E]

/-- The new state of one Euler-Heun step (sdeint.py 118-120). -/
def heunFl (fl : ℚ → ℚ) (f : E → ℚ → W → E × E) (dt t : ℚ) (x : E) (dw : W) : E :=
  let drift := (f x t dw).1
  let diff := (f x t dw).2
  let diffh := (f (x + diff) (fl (t + dt)) dw).2
  x + dt • drift + (1 / 2 : ℚ) • (diff + diffh)

/-- `step_fn` (sdeint.py 116-124). -/
def stepFnFl (fl : ℚ → ℚ) (f : E → ℚ → W → E × E) (ts : ℚ × ℚ) (dt : ℚ) (state : ℚ × E) (dw : W) : ℚ × E :=
  if state.1 ≥ ts.1 ∧ state.1 < ts.2 then (fl (state.1 + dt), heunFl fl f dt state.1 state.2 dw)
  else (fl (state.1 + dt), state.2)

/-- `dt = (ts[1] - ts[0]) / len(dw)` (sdeint.py 114). -/
def dtFl (fl : ℚ → ℚ) (ts : ℚ × ℚ) (n : ℕ) : ℚ := fl (fl (ts.2 - ts.1) / n)

/-- `_sdeint` (sdeint.py 110-128). -/
def sdeintSegFl (fl : ℚ → ℚ) (f : E → ℚ → W → E × E) (reverse : Bool) (y0 : E) (ts : ℚ × ℚ) (dw : List W) : E :=
  let dt := dtFl fl ts dw.length
  if reverse then (dw.foldr (fun w s => stepFnFl fl f ts dt s w) (ts.1, y0)).2
  else (dw.foldl (stepFnFl fl f ts dt) (ts.1, y0)).2

end Verif.SDE
