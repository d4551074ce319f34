import Verif.Props.C47
import Mathlib.Algebra.BigOperators.Group.List.Lemmas

/-!
# C98: for constant coefficients `sdeint` follows the given Brownian path

The documentation of `sdeint` (sdeint.py 47-50, 74-78) takes `dw` as the increments of a path at `n = len(dw)` uniformly
spaced points of `[0, 1]`, and output times that are multiples of `1 / n`.
-/

namespace Verif.SDE

variable {K E : Type*} [Field K] [LinearOrder K] [IsStrictOrderedRing K] [AddCommGroup E] [Module K E]

/-- The value at time `k / n` of the path with the increments `dw`. -/
def pathValue (dw : List E) (k : ℕ) : E := (dw.take k).sum

/-- The claim for `dY = μ dt + dW` and the output times `k / n`, `k` from the list: the values of
`y0 + (t - t0) μ + W(t) - W(t0)`. -/
def FollowsPath (μ y0 : E) (k0 : ℕ) (ks : List ℕ) (dw : List E) : Prop :=
  let n : K := dw.length
  sdeint (fun _ _ w => (μ, w)) y0 ((k0 : K) / n :: ks.map fun k : ℕ => (k : K) / n) dw =
    .ok (ks.map fun k : ℕ => y0 + ((k : K) / n - k0 / n) • μ + (pathValue dw k - pathValue dw k0))

/-- What `sdeint` computes for increasing output times: the drift is right, but each of the `m` intervals takes the same
number of increments whatever its length. -/
theorem C98_any (μ y0 : E) (t0 : K) (touts : List K) (hinc : (t0 :: touts).Pairwise (· < ·)) (dw : List E) (n : ℕ)
    (hn : 0 < n) (hm : 0 < touts.length) (hl : dw.length = touts.length * n) :
    sdeint (fun _ _ w => (μ, w)) y0 (t0 :: touts) dw =
      .ok ((List.range touts.length).map fun j => y0 + (touts.getD j 0 - t0) • μ + pathValue dw ((j + 1) * n)) := by
  obtain ⟨ys, h1, h2, h3⟩ := C47_segments (fun (_ : E) (_ : K) (w : E) => (μ, w)) y0 t0 touts dw n hn hm hl
  rw [h1]
  congr 1
  have hlt : ∀ j (hj : j < touts.length), (t0 :: touts)[j]'(by simp; omega) < touts[j] := by
    intro j hj
    have := List.pairwise_iff_getElem.mp hinc j (j + 1) (by simp; omega) (by simp; omega) (by omega)
    simpa using this
  have hsum : ∀ k (hk : k < dw.length), pathValue dw (k + 1) = pathValue dw k + dw[k] := by
    intro k hk
    unfold pathValue
    rw [List.sum_take_succ]
  have hstep : ∀ j (hj : j < touts.length), ys[j]'(by omega) = (y0 :: ys)[j]'(by simp; omega) +
      (touts[j] - (t0 :: touts)[j]'(by simp; omega)) • μ + (pathValue dw ((j + 1) * n) - pathValue dw (j * n)) := by
    intro j hj
    obtain ⟨X, hX0, hX, hXn⟩ := (h3 j hj).1 (hlt j hj)
    rw [hXn]
    have hle : (j + 1) * n ≤ dw.length := by rw [hl]; exact Nat.mul_le_mul_right n hj
    have hk : ∀ k ≤ n, X k = (y0 :: ys)[j]'(by simp; omega) +
        ((k : K) * ((touts[j] - (t0 :: touts)[j]'(by simp; omega)) / n)) • μ +
        (pathValue dw (j * n + k) - pathValue dw (j * n)) := by
      intro k
      induction k with
      | zero => intro _; rw [hX0]; simp
      | succ k ih =>
        intro hk
        have hb : j * n + k < dw.length := by rw [Nat.add_mul, Nat.one_mul] at hle; omega
        have e := hX k (by omega)
        simp only at e
        rw [e, ih (by omega), ← Nat.add_assoc, hsum _ hb, ← two_smul K (dw[j * n + k]), smul_smul]
        push_cast
        rw [show (1 / 2 : K) * 2 = 1 by norm_num, one_smul, add_mul, add_smul, one_mul]
        abel
    have hn0 : (n : K) ≠ 0 := by exact_mod_cast hn.ne'
    rw [hk n le_rfl, mul_div_cancel₀ _ hn0, Nat.add_mul, Nat.one_mul]
  have key : ∀ j (hj : j < touts.length), ys[j]'(by omega) =
      y0 + (touts[j] - t0) • μ + pathValue dw ((j + 1) * n) := by
    intro j
    induction j with
    | zero =>
      intro hj
      rw [hstep 0 hj]
      simp [pathValue]
    | succ j ih =>
      intro hj
      rw [hstep (j + 1) hj]
      simp only [List.getElem_cons_succ]
      rw [ih (by omega), sub_smul, sub_smul, sub_smul]
      abel
  apply List.ext_getElem (by simpa using h2)
  intro j hj1 hj2
  have hj : j < touts.length := by omega
  rw [key j hj, List.getElem_map, List.getElem_range, List.getD_eq_getElem touts 0 hj]

/-- The claim holds for the output times `0, 1 / m, 2 / m, ..., 1`. -/
theorem C98_partial (μ y0 : E) (m n : ℕ) (hm : 0 < m) (hn : 0 < n) (dw : List E) (hl : dw.length = m * n) :
    FollowsPath (K := K) μ y0 0 ((List.range m).map fun j => (j + 1) * n) dw := by
  have hl0 : (0 : K) < dw.length := by rw [hl]; exact_mod_cast Nat.mul_pos hm hn
  unfold FollowsPath
  simp only [Nat.cast_zero, zero_div, List.map_map]
  have hpw : ((0 : K) :: (List.range m).map ((fun k : ℕ => (k : K) / dw.length) ∘ fun j => (j + 1) * n)).Pairwise
      (· < ·) := by
    rw [List.pairwise_cons]
    constructor
    · intro a ha
      obtain ⟨j, _, rfl⟩ := List.mem_map.mp ha
      exact div_pos (by exact_mod_cast Nat.mul_pos (Nat.succ_pos j) hn) hl0
    · rw [List.pairwise_map]
      refine List.pairwise_lt_range.imp ?_
      intro a b hab
      exact div_lt_div_of_pos_right (by exact_mod_cast Nat.mul_lt_mul_of_pos_right (Nat.succ_lt_succ hab) hn) hl0
  rw [C98_any μ y0 0 _ hpw dw n hn (by simpa using hm) (by simpa using hl)]
  congr 1
  apply List.ext_getElem (by simp)
  intro j hj1 hj2
  have hj : j < m := by simpa using hj1
  simp [pathValue, List.getD_eq_getElem?_getD, hj]

/-- Not the path when the intervals have different lengths: at time `1 / 4` the second increment is already used. -/
theorem C98_uneven_violated : ¬ FollowsPath (K := ℚ) (0 : ℚ) 0 0 [1, 4] [0, 1, 0, 0] := by
  unfold FollowsPath
  decide +kernel

/-- Not the path on a part of `[0, 1]`: all increments are used up to time `1 / 2`. -/
theorem C98_half_violated : ¬ FollowsPath (K := ℚ) (0 : ℚ) 0 0 [1] [0, 1] := by
  unfold FollowsPath
  decide +kernel

/-- More generally: up to a time `k / n` before `1` the whole path is used. -/
theorem C98_half (y0 : E) (dw : List E) (k : ℕ) (hk : 0 < k) (hkn : k ≤ dw.length) :
    FollowsPath (K := K) 0 y0 0 [k] dw ↔ (dw.drop k).sum = 0 := by
  have hl0 : (0 : K) < dw.length := by exact_mod_cast lt_of_lt_of_le hk hkn
  unfold FollowsPath
  have h := C98_any (K := K) 0 y0 ((0 : ℕ) / (dw.length : K)) ([k].map fun k : ℕ => (k : K) / dw.length)
    (by simpa using div_pos (by exact_mod_cast hk : (0 : K) < k) hl0) dw dw.length (by omega) (by simp) (by simp)
  simp only at h ⊢
  rw [h]
  have : (dw.take k).sum + (dw.drop k).sum = dw.sum := List.sum_take_add_sum_drop dw k
  have hz : y0 + (dw.take dw.length).sum = y0 + (dw.take k).sum ↔ (dw.drop k).sum = 0 := by
    rw [List.take_length, ← this, add_right_inj, add_eq_left]
  rw [← hz]
  simp [pathValue]

/-- The hypotheses of `C98_partial`. -/
example : FollowsPath (K := ℚ) (3 : ℚ) 1 0 [2, 4] [1, -1, 2, 1 / 2] := C98_partial 3 1 2 2 (by norm_num) (by norm_num) _ rfl

end Verif.SDE
