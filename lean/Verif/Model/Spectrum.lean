import Mathlib.Analysis.SpecialFunctions.Complex.Circle
import Mathlib.Data.List.MinMax

/-!
# Model of `transfer_perm`, `get_tke` and `get_energy_spectrum` of niles/train.py (51-93)

Exact real arithmetic. The field is given at the nodes of the uniform mesh: the call `uniform_mesh.interpolate`
(train.py 65-67) is not modelled, `Mesh` has no such method. An image of the transform is a function of two indices below
`n`.
-/

namespace Verif.Niles

/-- Squared Euclidean distance. -/
noncomputable def sqDist {d : ℕ} (x y : Fin d → ℝ) : ℝ := ∑ k, (x k - y k) ^ 2

/-- `KDTree(src).query(y)[1]` (train.py 53, 57): the index of a nearest point. Simplified: the first one when several are
equally near, where scipy does not promise which. `none` when there are no points. -/
noncomputable def nearest {d : ℕ} (src : List (Fin d → ℝ)) (y : Fin d → ℝ) : Option ℕ :=
  (List.range src.length).argmin (fun i => sqDist (src.getD i 0) y)

/-- `transfer_perm` (train.py 51-59). -/
noncomputable def transferPerm {d : ℕ} (src tgt : List (Fin d → ℝ)) : Option (List ℕ) := tgt.mapM (nearest src)

/-- `jnp.fft.fftn` of a two dimensional array with `n` rows and columns. -/
noncomputable def dft2 (n : ℕ) (f : ℕ → ℕ → ℂ) (a b : ℕ) : ℂ :=
  ∑ x ∈ Finset.range n, ∑ y ∈ Finset.range n,
    f x y * Complex.exp (-(2 * Real.pi * Complex.I) * ((a * x + b * y : ℕ) : ℂ) / n)

/-- The index that `fftshift` moves to position `i`: `np.roll` by `n // 2`. -/
def unshift (n i : ℕ) : ℕ := (i + (n - n / 2)) % n

/-- `get_tke` (train.py 62-76) after the interpolation: `u` are the values at the nodes in the order of the first order
mesh, reshaped to `(n, n, 2)`. -/
noncomputable def getTke (n : ℕ) (u : ℕ → Fin 2 → ℝ) (a b : ℕ) : ℝ :=
  (1 / 2) * ∑ k, ‖dft2 n (fun x y => (u (x * n + y) k : ℂ)) (unshift n a) (unshift n b)‖ ^ 2

/-- `np.fft.fftfreq(n, d)`. -/
noncomputable def fftfreq (n : ℕ) (d : ℝ) (j : ℕ) : ℝ := (if j < (n - 1) / 2 + 1 then (j : ℝ) else j - n) / (n * d)

/-- `freqs` (train.py 81-82). -/
noncomputable def freqs (n i : ℕ) : ℝ := fftfreq n (1 / n) (unshift n i)

/-- `k` (train.py 83-84); `meshgrid` with its default indexing varies the first array along the second axis. -/
noncomputable def waveNumber (n i j : ℕ) : ℝ := Real.sqrt (freqs n j ^ 2 + freqs n i ^ 2)

/-- `np.max(k)` (train.py 86). -/
noncomputable def maxWave (n : ℕ) : ℝ :=
  ((List.range n).flatMap fun i => (List.range n).map fun j => waveNumber n i j).foldr max 0

/-- `num_bins` (train.py 85). -/
def numBins : ℕ := 20

/-- `bins` (train.py 86). -/
noncomputable def bins (n : ℕ) : List ℝ := (List.range numBins).map fun i : ℕ => i * (maxWave n / (numBins - 1 : ℕ))

open Classical in
/-- `np.digitize(x, bins)` for increasing bins: the number of bins that are at most `x` (train.py 87). -/
noncomputable def digitize (bins : List ℝ) (x : ℝ) : ℕ := (bins.filter fun b => b ≤ x).length

/-- `get_energy_spectrum` (train.py 78-93): the second result. -/
noncomputable def energySpectrum (n : ℕ) (tke : ℕ → ℕ → ℝ) : List ℝ :=
  (List.range' 1 (numBins - 2)).map fun i =>
    ∑ a ∈ Finset.range n, ∑ b ∈ Finset.range n, tke a b * (if digitize (bins n) (waveNumber n a b) = i then 1 else 0)

end Verif.Niles
