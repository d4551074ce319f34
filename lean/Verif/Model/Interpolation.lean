import Verif.Model.Ext
import Mathlib.Data.Nat.Choose.Basic
import Mathlib.Algebra.BigOperators.Group.List.Basic
import Mathlib.Algebra.BigOperators.Fin
import Mathlib.Data.Matrix.Mul

/-!
# Model of `core/interpolation.py`

A numpy vector of length `n` is a function on `Fin n`, a matrix is a `Matrix (Fin q) (Fin n) K`. Arithmetic on finite
numbers is exact. The functions below take node and weight vectors as arguments; the Gauss-Legendre and
Gauss-Lobatto-Legendre tables are in `Model/GaussNodes.lean`.
-/

namespace Verif.Core

variable {K : Type*} [Field K] [LinearOrder K]

/-- Newton-Cotes nodes `np.linspace(-1, 1, num=n)` (interpolation.py 57-58). -/
def ncNode (n : ℕ) (i : Fin n) : K := -1 + (i : ℕ) * (2 / ((n - 1 : ℕ) : K))

/-- Newton-Cotes barycentric weights `(-1)^i binom(order, i)` (interpolation.py 182-189). -/
def ncWeight (n : ℕ) (i : Fin n) : K := (-1) ^ (i : ℕ) * ((n - 1).choose i : K)

/-- `is_continuous` (interpolation.py 76-79); an empty node list raises and is outside the model. -/
def isContinuous {n : ℕ} (nodes : Fin (n + 1) → K) : Bool := nodes 0 = -1 ∧ nodes (Fin.last n) = 1

/-- `terms` of the barycentric formula (interpolation.py 224). -/
def baryTerms {n : ℕ} (w nodes : Fin n → K) (x : K) : List (Ext K) :=
  (List.finRange n).map (fun j => Ext.div (.fin (w j)) (.fin (x - nodes j)))

/-- `evaluate(x, i)` (interpolation.py 217-225). -/
def evaluate {n : ℕ} (w nodes : Fin n → K) (x : K) (i : Fin n) : Ext K :=
  if x = nodes i then .fin 1
  else Ext.div (Ext.div (.fin (w i)) (.fin (x - nodes i))) (Ext.sum (baryTerms w nodes x))

/-- The entry as a finite number; infinities and NaN have no value in the field. -/
def Ext.toField? : Ext K → Option K
  | .fin x => some x
  | _ => none

/-- `_interpolation_matrix_1d` (interpolation.py 210-228): `none` when an entry is infinite or NaN. -/
def interpMatrix1d {n q : ℕ} (w nodes : Fin n → K) (evalpoints : Fin q → K) : Option (Matrix (Fin q) (Fin n) K) :=
  if ∀ a i, (evaluate w nodes (evalpoints a) i).toField? ≠ none then
    some (Matrix.of fun a i => ((evaluate w nodes (evalpoints a) i).toField?).getD 0)
  else none

/-- Off-diagonal entries of `_differentiation_matrix_1d` (interpolation.py 239-241), zero on the diagonal. -/
def diffOff {n : ℕ} (w nodes : Fin n → K) (i j : Fin n) : K :=
  if i ≠ j then (w j / w i) / (nodes i - nodes j) else 0

/-- `_differentiation_matrix_1d` (interpolation.py 230-244). -/
def diffMatrix1d {n : ℕ} (w nodes : Fin n → K) : Matrix (Fin n) (Fin n) K :=
  Matrix.of fun i j => if i = j then - ∑ k, diffOff w nodes i k else diffOff w nodes i j

/-- A matrix with flat indices and explicit shape, as used by `np.kron`. -/
structure NMat (K : Type*) where
  rows : ℕ
  cols : ℕ
  entry : ℕ → ℕ → K

/-- A matrix on `Fin` indices as a flat matrix. -/
def toNMat {q n : ℕ} (M : Matrix (Fin q) (Fin n) K) : NMat K where
  rows := q
  cols := n
  entry := fun a b => if h : a < q ∧ b < n then M ⟨a, h.1⟩ ⟨b, h.2⟩ else 0

/-- `np.kron(A, B)`. -/
def kron (A B : NMat K) : NMat K where
  rows := A.rows * B.rows
  cols := A.cols * B.cols
  entry := fun i j => A.entry (i / B.rows) (j / B.cols) * B.entry (i % B.rows) (j % B.cols)

/-- `functools.reduce(np.kron, Ms)`; an empty sequence raises `TypeError`. -/
def kronReduce : List (NMat K) → Option (NMat K)
  | [] => none
  | M :: Ms => some (Ms.foldl kron M)

/-- `interpolation_matrix` (interpolation.py 246-252). -/
def interpMatrix {n q : ℕ} (d : ℕ) (M : Matrix (Fin q) (Fin n) K) : Option (NMat K) :=
  kronReduce (List.replicate d (toNMat M))

/-- Component `i` (last axis) of `interpolation_matrix_grad` (interpolation.py 265-286). -/
def interpMatrixGrad {n q : ℕ} (d : ℕ) (M : Matrix (Fin q) (Fin n) K) (D : Matrix (Fin n) (Fin n) K) (i : ℕ) :
    Option (NMat K) :=
  kronReduce ((List.range d).map (fun j => if i = j then toNMat (M * D) else toNMat M))

/-- `einsum('ij,j->i', A, x)` (interpolation.py 262, 291). -/
def NMat.apply (A : NMat K) (x : ℕ → K) (i : ℕ) : K := ∑ j ∈ Finset.range A.cols, A.entry i j * x j

/-- Newton-Cotes quadrature weights `1 / (m - 1) * [1, 2, ..., 2, 1]` (interpolation.py 112-114); `m = 1` divides by
zero in Python. -/
def ncQuadWeights (m : ℕ) : Option (List K) :=
  if m ≤ 1 then none
  else some (([(1 : K)] ++ List.replicate (m - 2) (2 : K) ++ [(1 : K)]).map (fun v : K => (1 / ((m - 1 : ℕ) : K)) * v))

/-- `np.outer(a, b).reshape(-1)`. -/
def outer (a b : List K) : List K := a.flatMap (fun x => b.map (fun y => x * y))

/-- `weights_nd` (interpolation.py 138-140). -/
def weightsNd (w : List K) : ℕ → Option (List K)
  | 0 => none
  | d + 1 => some ((List.replicate d w).foldl outer w)

end Verif.Core
