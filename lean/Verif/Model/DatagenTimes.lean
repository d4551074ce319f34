import Verif.Model.Datagen
import Verif.Model.ExchangeFloat

/-! # The time stamps of the generated files with rounding (niles/datagen/datagen.py 126-146)

`t` is a Python `float`: one product at the start of a cycle, one rounded addition for every step. The solver and the other
arrays of the file are left out (see `Model/Datagen.lean`). -/

namespace Verif.Niles

/-- The loop (datagen.py 135-144): `n` steps starting with `stepIdx`; the time and the list of time stamps. -/
def stampLoop (fl : ℚ → ℚ) (DT : ℚ) : ℕ → ℕ → ℚ → List ℚ → ℚ × List ℚ
  | 0, _, t, ts => (t, ts)
  | n + 1, stepIdx, t, ts =>
    let t' := fl (t + DT)
    stampLoop fl DT n (stepIdx + 1) t' (if stepIdx % 10 = 0 then ts ++ [t'] else ts)

/-- `dataset['t']` of the file of one cycle (datagen.py 126-128, 150-151). -/
def fileTimesFl (fl : ℚ → ℚ) (DT : ℚ) (startStep numSteps : ℕ) : List ℚ :=
  (stampLoop fl DT numSteps 1 (fl (startStep * DT)) [fl (startStep * DT)]).2

end Verif.Niles
