import Verif.Model.Interpolation
import Verif.Model.ExchangeFloat

/-! # The interpolation and differentiation matrices with rounding

`_interpolation_matrix_1d` and `_differentiation_matrix_1d` (core/interpolation.py 210-244) as in `Model/Interpolation.lean`,
but with every subtraction, division and addition followed by a rounding `fl`. Overflow and underflow are left out;
infinities arise from divisions by zero only. -/

namespace Verif.Core

/-- Rounding of a finite number; infinities and NaN stay. -/
def Ext.round (fl : ℚ → ℚ) : Ext ℚ → Ext ℚ
  | .fin x => .fin (fl x)
  | y => y

/-- `w / (x - xj)` (interpolation.py 224). -/
def baryTermFl {n : ℕ} (fl : ℚ → ℚ) (w nodes : Fin n → ℚ) (x : ℚ) (j : Fin n) : Ext ℚ :=
  Ext.round fl (Ext.div (.fin (w j)) (.fin (fl (x - nodes j))))

/-- `sum(terms)` (interpolation.py 225): Python's `sum` starts from zero and goes from left to right. -/
def Ext.sumFl (fl : ℚ → ℚ) (l : List (Ext ℚ)) : Ext ℚ := l.foldl (fun s t => Ext.round fl (Ext.add s t)) (.fin 0)

/-- `evaluate(x, i)` (interpolation.py 217-225). -/
def evaluateFl {n : ℕ} (fl : ℚ → ℚ) (w nodes : Fin n → ℚ) (x : ℚ) (i : Fin n) : Ext ℚ :=
  if x = nodes i then .fin 1
  else Ext.round fl (Ext.div (baryTermFl fl w nodes x i)
    (Ext.sumFl fl ((List.finRange n).map (baryTermFl fl w nodes x))))

/-- Off-diagonal entries of `_differentiation_matrix_1d` (interpolation.py 239-241), zero on the diagonal. -/
def diffOffFl {n : ℕ} (fl : ℚ → ℚ) (w nodes : Fin n → ℚ) (i j : Fin n) : ℚ :=
  if i ≠ j then fl (fl (w j / w i) / fl (nodes i - nodes j)) else 0

/-- `D` is a possible result of `_differentiation_matrix_1d` (interpolation.py 230-244): the order in which numpy adds up the
row (line 243) is left open. -/
def DiffMatrixFl {n : ℕ} (fl : ℚ → ℚ) (w nodes : Fin n → ℚ) (D : Fin n → Fin n → ℚ) : Prop :=
  ∀ i, (∀ j, i ≠ j → D i j = diffOffFl fl w nodes i j) ∧
    ∃ s, RoundedSum fl (((List.finRange n).map (diffOffFl fl w nodes i) : List ℚ) : Multiset ℚ) s ∧ D i i = -s

end Verif.Core
