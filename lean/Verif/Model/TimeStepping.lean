import Verif.Model.Interpolation

/-!
# Model of the time stepping coefficients (navier_stokes/navier_stokes.py 49-70)
-/

namespace Verif.NS

open Verif.Core

variable {K : Type*} [Field K] [LinearOrder K]

/-- `extk_coeffs(k)` (navier_stokes.py 49-58); `k = 0` divides by zero in Python. -/
def extkCoeffs (k : ℕ) : Option (Fin (k + 1) → K) :=
  if k = 0 then none
  else match interpMatrix1d (ncWeight (k + 1)) (ncNode (k + 1)) (fun _ : Fin 1 => (1 + 2 / (k : K))) with
    | none => none
    | some M => match interpMatrix 1 M with
      | none => none
      | some A => some (fun i => A.entry 0 i)

/-- `bdfk_coeffs(k)` (navier_stokes.py 61-70). -/
def bdfkCoeffs (k : ℕ) : Option (Fin (k + 1) → K) :=
  if k = 0 then none
  else match interpMatrix1d (ncWeight (k + 1)) (ncNode (k + 1)) (fun _ : Fin 1 => (1 : K)) with
    | none => none
    | some M => match interpMatrixGrad 1 M (diffMatrix1d (ncWeight (k + 1)) (ncNode (k + 1))) 0 with
      | none => none
      | some A => some (fun i => A.entry 0 i * (2 / (k : K)))

end Verif.NS
