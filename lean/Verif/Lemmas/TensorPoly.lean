import Verif.Lemmas.FESpace
import Mathlib.Combinatorics.Nullstellensatz
import Mathlib.Algebra.MvPolynomial.PDeriv

/-! Nodal values on a tensor product grid are the samples of one polynomial; gradients that vanish on a large enough
grid come from constants. -/

set_option linter.unusedSectionVars false

namespace Verif.Core

open Verif.Spec Verif.Common MvPolynomial

variable {K : Type*} [Field K] {d : ℕ}

theorem digit_ext {b d i j : ℕ} (hi : i < b ^ d) (hj : j < b ^ d) (h : ∀ k < d, digit b d k i = digit b d k j) :
    i = j := by
  rw [← ravel_digits hi, ← ravel_digits hj]
  congr 1
  unfold digits
  apply List.map_congr_left
  intro k hk
  exact h k (List.mem_range.mp hk)

theorem digit_surj {b d : ℕ} (a : Fin d → Fin b) : ∃ j < b ^ d, ∀ k : Fin d, digit b d k j = a k := by
  have hlen : (List.ofFn (fun k => (a k : ℕ))).length = d := by simp
  have hlt : ∀ x ∈ List.ofFn (fun k => (a k : ℕ)), x < b := by
    intro x hx
    obtain ⟨k, rfl⟩ := (List.mem_ofFn' _ _).mp hx
    exact (a k).2
  have h1 := ravel_lt hlt
  have h2 := digits_ravel hlt
  rw [hlen] at h1 h2
  refine ⟨_, h1, fun k => ?_⟩
  have h3 : (digits b d (ravel b (List.ofFn fun k => (a k : ℕ))))[(k : ℕ)]? = some (a k : ℕ) := by
    rw [h2]; simp
  unfold digits at h3
  simpa using h3

theorem degreeOf_aeval_X (k i : Fin d) (p : Polynomial K) :
    degreeOf i (Polynomial.aeval (X k : MvPolynomial (Fin d) K) p) ≤ if i = k then p.natDegree else 0 := by
  rw [Polynomial.aeval_eq_sum_range]
  refine (degreeOf_sum_le _ _ _).trans (Finset.sup_le fun e he => ?_)
  rw [smul_eq_C_mul]
  refine (degreeOf_C_mul_le _ _ _).trans ((degreeOf_pow_le _ _ _).trans ?_)
  rw [degreeOf_X]
  split
  · rw [mul_one]
    have := Finset.mem_range.mp he
    omega
  · simp

theorem degreeOf_pderiv_le (i k : Fin d) (p : MvPolynomial (Fin d) K) : degreeOf k (pderiv i p) ≤ degreeOf k p := by
  rw [degreeOf_le_iff]
  intro m hm
  rw [mem_support_iff, coeff_pderiv] at hm
  have h1 : m + Finsupp.single i 1 ∈ p.support := by
    rw [mem_support_iff]
    exact left_ne_zero_of_mul hm
  have h2 := (degreeOf_le_iff (n := k) (d := degreeOf k p)).mp le_rfl _ h1
  rw [Finsupp.add_apply] at h2
  omega

/-- A polynomial with zero gradient is a constant. -/
theorem eq_C_of_pderiv [CharZero K] (p : MvPolynomial (Fin d) K) (h : ∀ i, pderiv i p = 0) : p = C (coeff 0 p) := by
  ext m
  rw [coeff_C]
  split
  · rename_i h0; rw [h0]
  · rename_i h0
    have : ∃ i, m i ≠ 0 := by
      by_contra hall
      push Not at hall
      exact h0 (Finsupp.ext fun i => by simp [hall i])
    obtain ⟨i, hi⟩ := this
    have h1 := congrArg (coeff (m - Finsupp.single i 1)) (h i)
    rw [coeff_pderiv, coeff_zero] at h1
    have h2 : m - Finsupp.single i 1 + Finsupp.single i 1 = m := by
      ext j
      by_cases hj : j = i
      · subst hj; simp; omega
      · simp [Ne.symm hj]
    rw [h2] at h1
    rcases mul_eq_zero.mp h1 with h3 | h3
    · exact h3
    · exact absurd h3 (Nat.cast_add_one_ne_zero _)

/-- The tensor product Lagrange polynomial of grid point `j`. -/
noncomputable def tensorBasis {n : ℕ} (hn : 0 < n) (d : ℕ) (nodes : Fin n → K) (j : ℕ) : MvPolynomial (Fin d) K :=
  ∏ k : Fin d, Polynomial.aeval (X k : MvPolynomial (Fin d) K)
    (Lagrange.basis Finset.univ nodes ⟨digit n d k j, digit_lt n d k j hn⟩)

theorem tensorBasis_degree {n : ℕ} (hn : 0 < n) (nodes : Fin n → K) (hnodes : Function.Injective nodes) (j : ℕ)
    (i : Fin d) : degreeOf i (tensorBasis hn d nodes j) ≤ n - 1 := by
  refine (degreeOf_prod_le _ _ _).trans ?_
  refine (Finset.sum_le_sum fun k _ => degreeOf_aeval_X k i _).trans ?_
  rw [Finset.sum_ite_eq, if_pos (Finset.mem_univ i)]
  rw [Lagrange.natDegree_basis hnodes.injOn (Finset.mem_univ _)]
  simp

theorem tensorBasis_eval {n : ℕ} (hn : 0 < n) (nodes : Fin n → K) (hnodes : Function.Injective nodes) (i j : ℕ)
    (hi : i < n ^ d) (hj : j < n ^ d) :
    eval (gridPoint d nodes i) (tensorBasis hn d nodes j) = if i = j then 1 else 0 := by
  unfold tensorBasis
  rw [eval_prod]
  have h1 : ∀ k : Fin d, eval (gridPoint d nodes i) (Polynomial.aeval (X k : MvPolynomial (Fin d) K)
      (Lagrange.basis Finset.univ nodes ⟨digit n d k j, digit_lt n d k j hn⟩)) =
      if digit n d k i = digit n d k j then 1 else 0 := by
    intro k
    have h2 : ∀ p : Polynomial K, eval (gridPoint d nodes i) (Polynomial.aeval (X k : MvPolynomial (Fin d) K) p) =
        p.eval (nodes ⟨digit n d k i, digit_lt n d k i hn⟩) := by
      intro p
      rw [Polynomial.aeval_eq_sum_range, eval_sum, Polynomial.eval_eq_sum_range]
      apply Finset.sum_congr rfl
      intro e _
      rw [smul_eval, eval_pow, eval_X]
      simp [gridPoint, at0, digit_lt n d k i hn]
    rw [h2]
    by_cases h : digit n d k i = digit n d k j
    · rw [if_pos h]
      have h3 : (⟨digit n d k i, digit_lt n d k i hn⟩ : Fin n) = ⟨digit n d k j, digit_lt n d k j hn⟩ := Fin.ext h
      rw [h3]
      exact Lagrange.eval_basis_self hnodes.injOn (Finset.mem_univ _)
    · rw [if_neg h]
      exact Lagrange.eval_basis_of_ne (fun h' => h (Fin.mk.inj h').symm) (Finset.mem_univ _)
  rw [Finset.prod_congr rfl fun k _ => h1 k]
  by_cases h : i = j
  · subst h; simp
  · rw [if_neg h]
    by_contra hne
    apply h
    apply digit_ext hi hj
    intro k hk
    by_contra hd
    apply hne
    apply Finset.prod_eq_zero (Finset.mem_univ (⟨k, hk⟩ : Fin d))
    rw [if_neg hd]

/-- Every array of nodal values is sampled from a polynomial of degree less than `n` in each variable. -/
theorem exists_samples {n : ℕ} (hn : 0 < n) (nodes : Fin n → K) (hnodes : Function.Injective nodes) (x : ℕ → K) :
    ∃ p : MvPolynomial (Fin d) K, (∀ k, p.degreeOf k < n) ∧ ∀ j < n ^ d, eval (gridPoint d nodes j) p = x j := by
  refine ⟨∑ j ∈ Finset.range (n ^ d), C (x j) * tensorBasis hn d nodes j, fun k => ?_, fun j hj => ?_⟩
  · refine lt_of_le_of_lt (degreeOf_sum_le _ _ _) ?_
    rw [Finset.sup_lt_iff hn]
    intro j _
    have := (degreeOf_C_mul_le (tensorBasis hn d nodes j) k (x j)).trans (tensorBasis_degree hn nodes hnodes j k)
    omega
  · rw [eval_sum, Finset.sum_eq_single j]
    · rw [eval_mul, eval_C, tensorBasis_eval hn nodes hnodes j j hj hj, if_pos rfl, mul_one]
    · intro i hi hij
      rw [eval_mul, tensorBasis_eval hn nodes hnodes j i hj (Finset.mem_range.mp hi), if_neg hij.symm, mul_zero]
    · intro h; exact absurd (Finset.mem_range.mpr hj) h

/-- A polynomial that vanishes on a tensor product grid with more points per axis than its degrees is zero. -/
theorem eq_zero_of_grid {q : ℕ} (pts : Fin q → K) (hpts : Function.Injective pts) (p : MvPolynomial (Fin d) K)
    (hdeg : ∀ k, p.degreeOf k < q) (h : ∀ i < q ^ d, eval (gridPoint d pts i) p = 0) : p = 0 := by
  classical
  apply eq_zero_of_eval_zero_at_prod_finset p (fun _ => Finset.univ.image pts)
  · intro k
    rw [Finset.card_image_of_injective _ hpts]
    simpa using hdeg k
  · intro x hx
    have h1 : ∀ k, ∃ a : Fin q, pts a = x k := fun k => by simpa using hx k
    choose a ha using h1
    obtain ⟨j, hj, hd⟩ := digit_surj a
    have h2 : gridPoint d pts j = x := by
      funext k
      simp only [gridPoint, hd k, at0, (a k).2, dif_pos, Fin.eta, ha k]
    rw [← h2]
    exact h j hj

end Verif.Core
