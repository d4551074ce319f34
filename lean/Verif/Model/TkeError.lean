import Verif.Model.Spectrum
import Mathlib.Analysis.SpecialFunctions.Log.Basic

/-!
# Model of the error of the energy spectrum in `compute_mse_loss` (niles/train.py 317-335, 346)

Exact real arithmetic, with the infinities and the undefined value of IEEE arithmetic for logarithms of zero. The velocities
are given at the nodes of the uniform mesh, as in `Verif.Model.Spectrum`.
-/

namespace Verif.Niles

/-- Values of IEEE arithmetic without rounding. -/
inductive Flt
  | fin (x : ℝ)
  | posInf
  | negInf
  | nan

open Classical in
/-- `jnp.log` on numbers that are not negative; below zero the result is undefined. -/
noncomputable def Flt.log (x : ℝ) : Flt :=
  if x < 0 then .nan else if x = 0 then .negInf else .fin (Real.log x)

/-- Sum. -/
noncomputable def Flt.add : Flt → Flt → Flt
  | .fin x, .fin y => .fin (x + y)
  | .nan, _ => .nan
  | _, .nan => .nan
  | .posInf, .negInf => .nan
  | .negInf, .posInf => .nan
  | .posInf, _ => .posInf
  | _, .posInf => .posInf
  | .negInf, _ => .negInf
  | _, .negInf => .negInf

/-- Negation. -/
noncomputable def Flt.neg : Flt → Flt
  | .fin x => .fin (-x)
  | .posInf => .negInf
  | .negInf => .posInf
  | .nan => .nan

/-- Difference. -/
noncomputable def Flt.sub (a b : Flt) : Flt := a.add b.neg

/-- `jnp.square`. -/
noncomputable def Flt.square : Flt → Flt
  | .fin x => .fin (x * x)
  | .posInf => .posInf
  | .negInf => .posInf
  | .nan => .nan

/-- Sum of the entries. -/
noncomputable def Flt.sum (l : List Flt) : Flt := l.foldr Flt.add (.fin 0)

/-- Mean of the entries: the sum divided by their number. The mean of no entries is `0 / 0`. -/
noncomputable def Flt.mean (l : List Flt) : Flt :=
  match Flt.sum l with
  | .fin x => if l.length = 0 then .nan else .fin (x / l.length)
  | v => v

/-- `pred_tkes[:, num_solver_steps // 2:].mean(axis=1)` (train.py 328-329): the mean over the last half of the steps;
`u t` is the velocity after step `t + 1`. Without steps the mean is `0 / 0` in the code; `tkeError` treats that case. -/
noncomputable def lateTke (n steps : ℕ) (u : ℕ → ℕ → Fin 2 → ℝ) (a b : ℕ) : ℝ :=
  (((List.range steps).drop (steps / 2)).map fun t => getTke n (u t) a b).sum / ((steps - steps / 2 : ℕ) : ℝ)

/-- `tke_error` of one example (train.py 330-335). -/
noncomputable def tkeError (n steps : ℕ) (pred target : ℕ → ℕ → Fin 2 → ℝ) : Flt :=
  if steps = 0 then .nan
  else
    Flt.sum (((energySpectrum n (lateTke n steps pred)).zip (energySpectrum n (lateTke n steps target))).map
      fun p => ((Flt.log p.1).sub (Flt.log p.2)).square)

/-- `aux['tke_err']` (train.py 346): the mean over the examples of a batch, given by their predictions and targets. -/
noncomputable def tkeErr (n steps : ℕ) (batch : List ((ℕ → ℕ → Fin 2 → ℝ) × (ℕ → ℕ → Fin 2 → ℝ))) : Flt :=
  Flt.mean (batch.map fun e => tkeError n steps e.1 e.2)

end Verif.Niles
