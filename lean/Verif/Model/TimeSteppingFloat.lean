import Verif.Model.TimeStepping
import Verif.Model.InterpFloat

/-! # The time stepping coefficients with rounding (navier_stokes/navier_stokes.py 49-70)

As in `Model/TimeStepping.lean`, with every operation rounded. The weights (signed binomials) are taken as exact. -/

namespace Verif.NS

open Verif.Core

/-- `np.linspace(-1, 1, num=k + 1)` (interpolation.py 58): the step is computed first, then `arange * step + start`; the last
point is set to the end. -/
def linspaceFl (fl : ℚ → ℚ) (k : ℕ) (i : Fin (k + 1)) : ℚ :=
  if i = Fin.last k then 1 else fl (fl ((i : ℕ) * fl (2 / (k : ℚ))) + -1)

/-- `extk_coeffs(k)` (navier_stokes.py 49-58). -/
def extkCoeffsFl (fl : ℚ → ℚ) (k : ℕ) : Fin (k + 1) → Ext ℚ :=
  evaluateFl fl (ncWeight (k + 1)) (linspaceFl fl k) (fl (1 + fl (2 / (k : ℚ))))

/-- `c` is a possible result of `bdfk_coeffs(k)` (navier_stokes.py 61-70): the row of the interpolation matrix at the last
node, times the differentiation matrix (interpolation.py 272), times the step. The order of the sums is left open. -/
def BdfkCoeffsFl (fl : ℚ → ℚ) (k : ℕ) (c : Fin (k + 1) → ℚ) : Prop :=
  ∃ (D : Fin (k + 1) → Fin (k + 1) → ℚ) (M : Fin (k + 1) → ℚ),
    DiffMatrixFl fl (ncWeight (k + 1)) (linspaceFl fl k) D ∧
    (∀ l, evaluateFl fl (ncWeight (k + 1)) (linspaceFl fl k) 1 l = .fin (M l)) ∧
    ∀ j, ∃ s, RoundedSum fl (((List.finRange (k + 1)).map (fun l => fl (M l * D l j)) : List ℚ) : Multiset ℚ) s ∧
      c j = fl (s * fl (2 / (k : ℚ)))

/-- One such result: sums from the left. -/
def bdfkCoeffsSeq (fl : ℚ → ℚ) (k : ℕ) (j : Fin (k + 1)) : ℚ :=
  let nodes := linspaceFl fl k
  let w : Fin (k + 1) → ℚ := ncWeight (k + 1)
  let D : Fin (k + 1) → Fin (k + 1) → ℚ := fun i j =>
    if i = j then -sumLeft fl ((List.finRange (k + 1)).map (diffOffFl fl w nodes i)) else diffOffFl fl w nodes i j
  let M : Fin (k + 1) → ℚ := fun l => ((evaluateFl fl w nodes 1 l).toField?).getD 0
  fl (sumLeft fl ((List.finRange (k + 1)).map (fun l => fl (M l * D l j))) * fl (2 / (k : ℚ)))

end Verif.NS
