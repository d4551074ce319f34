import Mathlib.Data.Finset.Lattice.Fold
import Mathlib.Order.Interval.Finset.Nat
import Mathlib.Data.Finset.Range

/-!
# Device groups shared by `pscan.py` and `crystal_router.py`

Both collectives subdivide the devices `0, ..., P-1` recursively. The group of device `i` is the
interval `[base i, base i + n i)`. `n`, `base`, ... are `SemiTracedScalar`s; by C01 a
`SemiTracedScalar` is the same as a function of the device index, which is how they are modelled.
-/

namespace Verif.Comm

/-- `np.max(n.global_)` (pscan.py 170, crystal_router.py 327). -/
def maxGlobal (P : ℕ) (n : ℕ → ℕ) : ℕ := (Finset.range P).sup n

/-- `n_lo = (n + 1) // 2` (pscan.py 172, crystal_router.py 331). -/
def nLo (n : ℕ → ℕ) (i : ℕ) : ℕ := (n i + 1) / 2

/-- `base_hi = base_lo + n_lo` (pscan.py 173, crystal_router.py 332). -/
def baseHi (n base : ℕ → ℕ) (i : ℕ) : ℕ := base i + nLo n i

/-- `n = where(idx < base_hi, n_lo, n - n_lo)` (pscan.py 174, 182; crystal_router.py 333, 362). -/
def nextN (n base : ℕ → ℕ) (i : ℕ) : ℕ :=
  if i < baseHi n base i then nLo n i else n i - nLo n i

/-- `base_lo = where(idx < base_hi, base_lo, base_hi)` (pscan.py 183, crystal_router.py 363). -/
def nextBase (n base : ℕ → ℕ) (i : ℕ) : ℕ :=
  if i < baseHi n base i then base i else baseHi n base i

/-- The largest group shrinks: this is what makes the two schedules finite. -/
theorem maxGlobal_next_lt (P : ℕ) (n base : ℕ → ℕ) (h : 1 < maxGlobal P n) :
    maxGlobal P (nextN n base) < maxGlobal P n := by
  unfold maxGlobal at *
  rw [Finset.sup_lt_iff (by rw [Nat.bot_eq_zero]; omega)]
  intro i hi
  have hle : n i ≤ (Finset.range P).sup n := Finset.le_sup (f := n) hi
  unfold nextN nLo
  split <;> omega

/-- `jax.lax.pshuffle(x, axis_name, perm)`: device `i` receives the value of device `perm i`; a `perm`
that does not list every device is rejected (`ValueError` in JAX). -/
def pshuffle {α : Type*} (P : ℕ) (perm : ℕ → ℕ) (x : ℕ → α) : Except String (ℕ → α) :=
  if (∀ i < P, perm i < P) ∧ (∀ j < P, ∃ i, i < P ∧ perm i = j) then
    .ok (fun i => x (perm i))
  else .error "ValueError: perm is not a permutation"

end Verif.Comm
