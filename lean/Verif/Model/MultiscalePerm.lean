import Mathlib.Data.List.Basic
import Mathlib.Data.List.Sort

/-!
# Model of `make_multiscale_perm` and of its use in `compute_mse_loss` (niles/train.py)

`int(size / np.prod(patch_sizes))` is a natural quotient; patch sizes are positive (with a zero patch size Python raises
`OverflowError`).
-/

namespace Verif.Niles

/-- `_lex(n)` (train.py 178-179): the pairs in lexicographic order. -/
def lex (n : ℕ) : List (ℕ × ℕ) := (List.range n).flatMap (fun i => (List.range n).map (fun j => (i, j)))

/-- `_shifted(p, n, shift_factor)` (train.py 181-186). -/
def shifted (p : List (ℕ × ℕ)) (n factor : ℕ) : List (ℕ × ℕ) :=
  (lex n).flatMap (fun s => p.map (fun x => (x.1 + factor * s.1, x.2 + factor * s.2)))

/-- The coordinates before raveling (train.py 188-190). -/
def multiscaleCoords (size : ℕ) (patchSizes factors : List ℕ) : List (ℕ × ℕ) :=
  (List.zip patchSizes factors).foldl (fun p pf => shifted p pf.1 pf.2) (lex (size / patchSizes.prod))

/-- `make_multiscale_perm` (train.py 176-193). -/
def makeMultiscalePerm (size : ℕ) (patchSizes factors : List ℕ) : List ℕ :=
  (multiscaleCoords size patchSizes factors).map (fun x => size * x.1 + x.2)

/-- `np.argsort(a)` of distinct entries. -/
def argsort (a : List ℕ) : List ℕ :=
  (List.range a.length).insertionSort (fun i j => a.getD i 0 ≤ a.getD j 0)

/-- `x[:, idx, :]` on the element axis (train.py 239, 256); `none` when an index is out of range. -/
def takeIdx {α : Type*} (x : List α) (idx : List ℕ) : Option (List α) :=
  idx.mapM (fun i => x[i]?)

end Verif.Niles
