import Verif.Model.GaussNodes
import Mathlib.Algebra.Polynomial.Derivative
import Mathlib.Algebra.Polynomial.FieldDivision
import Mathlib.Analysis.Calculus.LocalExtr.Polynomial
import Mathlib.Analysis.SpecialFunctions.Integrals.Basic
import Mathlib.MeasureTheory.Integral.IntervalIntegral.FundThmCalculus
import Mathlib.Analysis.Calculus.Deriv.Polynomial
import Mathlib.Tactic.LinearCombination
import Mathlib.Tactic.Ring
import Mathlib.Tactic.FieldSimp
import Mathlib.Tactic.ComputeDegree

/-!
# Legendre polynomials

Bonnet's recursion as the definition; derivative identities, differential equation, orthogonality and norm, real simple
roots.
-/

namespace Verif.Core

open Polynomial

theorem legendre_rec (n : ℕ) : ((n : ℝ[X]) + 2) * legendre (n + 2) =
    (2 * (n : ℝ[X]) + 3) * X * legendre (n + 1) - ((n : ℝ[X]) + 1) * legendre n := by
  rw [legendre]
  have h : ((n : ℝ[X]) + 2) * C ((n : ℝ) + 2)⁻¹ = 1 := by
    have : ((n : ℝ[X]) + 2) = C ((n : ℝ) + 2) := by simp [map_ofNat]
    rw [this, ← C_mul, mul_inv_cancel₀ (by positivity), C_1]
  rw [← mul_assoc, h, one_mul]
  simp [map_ofNat]

theorem legendre_identities (n : ℕ) :
    derivative (legendre (n + 1)) = X * derivative (legendre n) + ((n : ℝ[X]) + 1) * legendre n ∧
    X * derivative (legendre (n + 1)) = derivative (legendre n) + ((n : ℝ[X]) + 1) * legendre (n + 1) := by
  induction n with
  | zero => simp [legendre]
  | succ n ih =>
    obtain ⟨hA, hB⟩ := ih
    have hR := legendre_rec n
    have hD := congrArg derivative hR
    simp only [derivative_mul, derivative_add, derivative_sub, derivative_natCast, derivative_X, derivative_ofNat,
      derivative_one] at hD
    have hne : ((n : ℝ[X]) + 2) ≠ 0 := by
      have : ((n : ℝ[X]) + 2) = ((n + 2 : ℕ) : ℝ[X]) := by push_cast; ring
      rw [this]; exact_mod_cast (by omega : n + 2 ≠ 0)
    have hA' : derivative (legendre (n + 1 + 1)) =
        X * derivative (legendre (n + 1)) + (((n + 1 : ℕ) : ℝ[X]) + 1) * legendre (n + 1) := by
      apply mul_left_cancel₀ hne
      push_cast
      linear_combination hD + ((n : ℝ[X]) + 1) * hB
    refine ⟨hA', ?_⟩
    rw [hA']
    push_cast
    linear_combination X * hB - hA - hR

theorem legendre_A (n : ℕ) :
    derivative (legendre (n + 1)) = X * derivative (legendre n) + ((n : ℝ[X]) + 1) * legendre n := (legendre_identities n).1

theorem legendre_B (n : ℕ) :
    X * derivative (legendre (n + 1)) = derivative (legendre n) + ((n : ℝ[X]) + 1) * legendre (n + 1) :=
  (legendre_identities n).2

theorem legendre_D (n : ℕ) : (X ^ 2 - 1) * derivative (legendre (n + 1)) =
    ((n : ℝ[X]) + 1) * (X * legendre (n + 1) - legendre n) := by
  linear_combination X * legendre_B n - legendre_A n

theorem legendre_ode (n : ℕ) : derivative ((X ^ 2 - 1) * derivative (legendre n)) =
    (n : ℝ[X]) * ((n : ℝ[X]) + 1) * legendre n := by
  cases n with
  | zero => simp [legendre]
  | succ n =>
    rw [legendre_D]
    simp only [derivative_mul, derivative_add, derivative_sub, derivative_natCast, derivative_X, derivative_one]
    push_cast
    linear_combination ((n : ℝ[X]) + 1) * legendre_B n

theorem legendre_one (n : ℕ) : (legendre n).eval 1 = 1 := by
  induction n using Nat.strong_induction_on with
  | _ n ih =>
    match n with
    | 0 => simp [legendre]
    | 1 => simp [legendre]
    | n + 2 =>
      have := congrArg (eval 1) (legendre_rec n)
      simp only [eval_mul, eval_add, eval_sub, eval_natCast, eval_ofNat, eval_X, eval_one] at this
      rw [ih (n + 1) (by omega), ih n (by omega)] at this
      have h0 : ((n : ℝ) + 2) ≠ 0 := by positivity
      apply mul_left_cancel₀ h0
      linear_combination this

theorem legendre_neg (n : ℕ) (x : ℝ) : (legendre n).eval (-x) = (-1) ^ n * (legendre n).eval x := by
  induction n using Nat.strong_induction_on with
  | _ n ih =>
    match n with
    | 0 => simp [legendre]
    | 1 => simp [legendre]
    | n + 2 =>
      have h1 := congrArg (eval (-x)) (legendre_rec n)
      have h2 := congrArg (eval x) (legendre_rec n)
      simp only [eval_mul, eval_add, eval_sub, eval_natCast, eval_ofNat, eval_X, eval_one] at h1 h2
      rw [ih (n + 1) (by omega), ih n (by omega)] at h1
      have h0 : ((n : ℝ) + 2) ≠ 0 := by positivity
      apply mul_left_cancel₀ h0
      linear_combination h1 - (-1) ^ n * h2

theorem legendre_neg_one_sq (n : ℕ) : (legendre n).eval (-1) ^ 2 = 1 := by
  rw [legendre_neg, legendre_one, mul_one, ← pow_mul, mul_comm n 2, pow_mul]
  simp

/-- Degree at most `n`, and the leading coefficients. -/
theorem legendre_degree (n : ℕ) : (legendre n).natDegree ≤ n ∧ 0 < (legendre n).coeff n := by
  induction n using Nat.strong_induction_on with
  | _ n ih =>
    match n with
    | 0 => simp [legendre]
    | 1 => simp [legendre]
    | n + 2 =>
      obtain ⟨d1, c1⟩ := ih (n + 1) (by omega)
      obtain ⟨d0, c0⟩ := ih n (by omega)
      have hX : (C (2 * (n : ℝ) + 3) * X * legendre (n + 1)) = C (2 * (n : ℝ) + 3) * (X * legendre (n + 1)) := by ring
      constructor
      · rw [legendre]
        refine (natDegree_C_mul_le _ _).trans ((natDegree_sub_le _ _).trans (max_le ?_ ?_))
        · rw [hX]
          refine (natDegree_C_mul_le _ _).trans (natDegree_mul_le.trans ?_)
          rw [natDegree_X]; omega
        · exact (natDegree_C_mul_le _ _).trans (by omega)
      · rw [legendre, coeff_C_mul, coeff_sub, hX, coeff_C_mul, coeff_C_mul, coeff_X_mul,
          coeff_eq_zero_of_natDegree_lt (by omega : (legendre n).natDegree < n + 2), mul_zero, sub_zero]
        positivity

theorem legendre_lead (n : ℕ) : ((n : ℝ) + 1) * (legendre (n + 1)).coeff (n + 1) = (2 * n + 1) * (legendre n).coeff n := by
  cases n with
  | zero => simp [legendre]
  | succ n =>
    have h := congrArg (fun p => coeff p (n + 2)) (legendre_rec n)
    simp only [coeff_sub] at h
    have e1 : ((n : ℝ[X]) + 2) = C ((n : ℝ) + 2) := by simp [map_ofNat]
    have e2 : (2 * (n : ℝ[X]) + 3) = C (2 * (n : ℝ) + 3) := by simp [map_ofNat]
    have e3 : ((n : ℝ[X]) + 1) = C ((n : ℝ) + 1) := by simp
    rw [e1, e2, e3, mul_assoc, coeff_C_mul, coeff_C_mul, coeff_C_mul, coeff_X_mul,
      coeff_eq_zero_of_natDegree_lt (by have := (legendre_degree n).1; omega : (legendre n).natDegree < n + 2)] at h
    push_cast
    linear_combination h

theorem legendre_ne_zero (n : ℕ) : legendre n ≠ 0 := fun h => by
  have := (legendre_degree n).2
  rw [h] at this
  simp at this

theorem legendre_natDegree (n : ℕ) : (legendre n).natDegree = n :=
  le_antisymm (legendre_degree n).1 (le_natDegree_of_ne_zero (legendre_degree n).2.ne')

/-! ### The integral over the reference element -/

/-- Integral of a polynomial over `[-1, 1]`. -/
noncomputable def integ : ℝ[X] →ₗ[ℝ] ℝ where
  toFun p := ∫ x in (-1 : ℝ)..1, p.eval x
  map_add' p q := by
    simp only [eval_add]
    exact intervalIntegral.integral_add (p.continuous.intervalIntegrable _ _) (q.continuous.intervalIntegrable _ _)
  map_smul' c p := by
    simp only [eval_smul, smul_eq_mul, RingHom.id_apply]
    exact intervalIntegral.integral_const_mul c _

theorem integ_apply (p : ℝ[X]) : integ p = ∫ x in (-1 : ℝ)..1, p.eval x := rfl

theorem integ_C_mul (c : ℝ) (p : ℝ[X]) : integ (C c * p) = c * integ p := by
  rw [← smul_eq_C_mul, map_smul, smul_eq_mul]

theorem integ_nat_mul (n : ℕ) (p : ℝ[X]) : integ ((n : ℝ[X]) * p) = n * integ p := by
  rw [← C_eq_natCast, integ_C_mul]

theorem integ_derivative (p : ℝ[X]) : integ (derivative p) = p.eval 1 - p.eval (-1) := by
  rw [integ_apply]
  exact intervalIntegral.integral_eq_sub_of_hasDerivAt (fun x _ => p.hasDerivAt x)
    ((derivative p).continuous.intervalIntegrable _ _)

theorem integ_parts (p q : ℝ[X]) (h1 : p.eval 1 * q.eval 1 = 0) (h2 : p.eval (-1) * q.eval (-1) = 0) :
    integ (derivative p * q) = - integ (p * derivative q) := by
  have := integ_derivative (p * q)
  rw [derivative_mul, map_add, eval_mul, eval_mul, h1, h2] at this
  linarith

theorem legendre_orthogonal {n m : ℕ} (h : n ≠ m) : integ (legendre n * legendre m) = 0 := by
  have e1 := integ_parts ((X ^ 2 - 1) * derivative (legendre n)) (legendre m) (by simp) (by simp)
  have e2 := integ_parts ((X ^ 2 - 1) * derivative (legendre m)) (legendre n) (by simp) (by simp)
  rw [legendre_ode] at e1 e2
  have e3 : (X ^ 2 - 1) * derivative (legendre m) * derivative (legendre n) =
      (X ^ 2 - 1) * derivative (legendre n) * derivative (legendre m) := by ring
  rw [e3] at e2
  have c1 : (n : ℝ[X]) * ((n : ℝ[X]) + 1) * legendre n * legendre m =
      C ((n : ℝ) * (n + 1)) * (legendre n * legendre m) := by simp; ring
  have c2 : (m : ℝ[X]) * ((m : ℝ[X]) + 1) * legendre m * legendre n =
      C ((m : ℝ) * (m + 1)) * (legendre n * legendre m) := by simp; ring
  rw [c1, integ_C_mul] at e1
  rw [c2, integ_C_mul] at e2
  have hz : ((n : ℝ) * (n + 1) - m * (m + 1)) * integ (legendre n * legendre m) = 0 := by linarith
  rcases mul_eq_zero.mp hz with hc | hc
  · exfalso
    have hf : ((n : ℝ) - m) * (n + m + 1) = 0 := by linear_combination hc
    rcases mul_eq_zero.mp hf with hc | hc
    · exact h (by exact_mod_cast sub_eq_zero.mp hc)
    · have : (0 : ℝ) < n + m + 1 := by positivity
      linarith
  · exact hc

/-- Reduction of the degree by a Legendre polynomial. -/
theorem reduce_degree {m : ℕ} {q : ℝ[X]} (hq : q.degree < (m + 1 : ℕ)) :
    (q - C (q.coeff m / (legendre m).coeff m) * legendre m).degree < (m : ℕ) := by
  rw [degree_lt_iff_coeff_zero] at hq ⊢
  intro k hk
  rw [coeff_sub, coeff_C_mul]
  rcases Nat.eq_or_lt_of_le hk with rfl | hlt
  · rw [div_mul_cancel₀ _ (legendre_degree m).2.ne', sub_self]
  · rw [hq k (by omega), coeff_eq_zero_of_natDegree_lt (p := legendre m) (n := k) (by rw [legendre_natDegree]; omega), mul_zero, sub_zero]

theorem legendre_orthogonal_lt (n : ℕ) : ∀ m ≤ n, ∀ q : ℝ[X], q.degree < (m : ℕ) → integ (legendre n * q) = 0
  | 0, _, q, hq => by
    have : q = 0 := by
      rw [Nat.cast_zero] at hq
      by_contra hne
      exact absurd (zero_le_degree_iff.mpr hne) (not_le.mpr hq)
    rw [this, mul_zero, map_zero]
  | m + 1, hm, q, hq => by
    have ih := legendre_orthogonal_lt n m (by omega) _ (reduce_degree hq)
    rw [mul_sub, map_sub, sub_eq_zero] at ih
    rw [ih, mul_left_comm, integ_C_mul, legendre_orthogonal (by omega), mul_zero]

theorem legendre_orth {n : ℕ} {q : ℝ[X]} (hq : q.degree < (n : ℕ)) : integ (legendre n * q) = 0 :=
  legendre_orthogonal_lt n n le_rfl q hq

theorem derivative_degree_lt (n : ℕ) : (derivative (legendre n)).degree < (n + 1 : ℕ) := by
  refine lt_of_le_of_lt degree_derivative_le ?_
  rw [degree_eq_natDegree (legendre_ne_zero n), legendre_natDegree]
  exact_mod_cast Nat.lt_succ_self n

theorem legendre_norm (n : ℕ) : (2 * (n : ℝ) + 1) * integ (legendre n * legendre n) = 2 := by
  have h := integ_derivative (X * (legendre n * legendre n))
  have hb : eval 1 (X * (legendre n * legendre n)) - eval (-1) (X * (legendre n * legendre n)) = 2 := by
    simp only [eval_mul, eval_X, legendre_one]
    have := legendre_neg_one_sq n
    linarith [this, sq (eval (-1) (legendre n))]
  rw [hb] at h
  cases n with
  | zero =>
    have e : derivative (X * (legendre 0 * legendre 0)) = legendre 0 * legendre 0 := by simp [legendre]
    rw [e] at h
    rw [h]; norm_num
  | succ n =>
    have e : derivative (X * (legendre (n + 1) * legendre (n + 1))) =
        C (2 * ((n : ℝ) + 1) + 1) * (legendre (n + 1) * legendre (n + 1)) +
          C 2 * (legendre (n + 1) * derivative (legendre n)) := by
      simp only [derivative_mul, derivative_X]
      have := legendre_B n
      simp only [map_add, map_mul, map_ofNat, map_one, map_natCast]
      linear_combination (2 * legendre (n + 1)) * this
    rw [e, map_add, integ_C_mul, integ_C_mul, legendre_orth (derivative_degree_lt n), mul_zero, add_zero] at h
    push_cast
    exact h

/-! ### Roots -/

theorem legendre_ge_one (x : ℝ) (hx : 1 ≤ x) (n : ℕ) : 1 ≤ (legendre n).eval x ∧
    (legendre n).eval x ≤ (legendre (n + 1)).eval x := by
  induction n with
  | zero => simpa [legendre] using hx
  | succ n ih =>
    obtain ⟨h1, h2⟩ := ih
    refine ⟨h1.trans h2, ?_⟩
    have h := congrArg (eval x) (legendre_rec n)
    simp only [eval_mul, eval_add, eval_sub, eval_natCast, eval_ofNat, eval_X, eval_one] at h
    have h0 : (0 : ℝ) < (n : ℝ) + 2 := by positivity
    have hn : (0 : ℝ) ≤ n := Nat.cast_nonneg n
    set u := (legendre n).eval x
    set v := (legendre (n + 1)).eval x
    have k1 : (2 * (n : ℝ) + 3) * v ≤ (2 * (n : ℝ) + 3) * x * v := by
      have hv : 0 ≤ v := by linarith
      have : 0 ≤ (2 * (n : ℝ) + 3) * v := by positivity
      nlinarith
    have k2 : ((n : ℝ) + 1) * u ≤ ((n : ℝ) + 1) * v := by
      have : (0 : ℝ) ≤ (n : ℝ) + 1 := by positivity
      nlinarith
    have : ((n : ℝ) + 2) * v ≤ ((n : ℝ) + 2) * (legendre (n + 1 + 1)).eval x := by
      rw [h]; linarith
    exact le_of_mul_le_mul_left this h0

theorem derivative_pos (x : ℝ) (hx : 1 ≤ x) (n : ℕ) : 0 < (derivative (legendre (n + 1))).eval x := by
  induction n with
  | zero => simp [legendre]
  | succ n ih =>
    rw [legendre_A]
    simp only [eval_add, eval_mul, eval_X, eval_natCast, eval_one]
    have := (legendre_ge_one x hx (n + 1)).1
    have : 0 < x * (derivative (legendre (n + 1))).eval x := by nlinarith
    positivity

theorem derivative_neg (n : ℕ) (x : ℝ) : (derivative (legendre n)).eval (-x) =
    (-1) ^ (n + 1) * (derivative (legendre n)).eval x := by
  induction n with
  | zero => simp [legendre]
  | succ n ih =>
    rw [legendre_A]
    simp only [eval_add, eval_mul, eval_X, eval_natCast, eval_one]
    rw [ih, legendre_neg]
    ring

/-- No root outside `(-1, 1)`. -/
theorem legendre_root_inside {n : ℕ} {x : ℝ} (h : (legendre n).eval x = 0) : -1 < x ∧ x < 1 := by
  constructor
  · by_contra hc
    have h1 := (legendre_ge_one (-x) (by linarith) n).1
    rw [legendre_neg, h] at h1
    norm_num at h1
  · by_contra hc
    have h1 := (legendre_ge_one x (by linarith) n).1
    rw [h] at h1
    norm_num at h1

theorem derivative_root_inside {n : ℕ} {x : ℝ} (h : (derivative (legendre (n + 1))).eval x = 0) : -1 < x ∧ x < 1 := by
  constructor
  · by_contra hc
    have h1 := derivative_pos (-x) (by linarith) n
    rw [derivative_neg, h] at h1
    norm_num at h1
  · by_contra hc
    have h1 := derivative_pos x (by linarith) n
    rw [h] at h1
    norm_num at h1

/-- Roots of consecutive polynomials do not coincide. -/
theorem no_common_root (x : ℝ) : ∀ n, ¬ ((legendre n).eval x = 0 ∧ (legendre (n + 1)).eval x = 0)
  | 0, h => by simp [legendre] at h
  | n + 1, h => by
    have hr := congrArg (eval x) (legendre_rec n)
    simp only [eval_mul, eval_add, eval_sub, eval_natCast, eval_ofNat, eval_X, eval_one] at hr
    rw [h.1, h.2] at hr
    have h0 : ((n : ℝ) + 1) ≠ 0 := by positivity
    have : (legendre n).eval x = 0 := by
      apply mul_left_cancel₀ h0
      linear_combination hr
    exact no_common_root x n ⟨this, h.1⟩

/-- Roots are simple. -/
theorem legendre_simple {n : ℕ} {x : ℝ} (h0 : (legendre n).eval x = 0) (h1 : (derivative (legendre n)).eval x = 0) :
    False := by
  cases n with
  | zero => simp [legendre] at h0
  | succ n =>
    have hd := congrArg (eval x) (legendre_D n)
    simp only [eval_mul, eval_add, eval_sub, eval_natCast, eval_X, eval_one, eval_pow] at hd
    rw [h0, h1] at hd
    have hz : ((n : ℝ) + 1) ≠ 0 := by positivity
    have : (legendre n).eval x = 0 := by
      apply mul_left_cancel₀ hz
      linear_combination hd
    exact no_common_root x n ⟨this, h0⟩

theorem derivative_simple {n : ℕ} {x : ℝ} (h1 : (derivative (legendre (n + 1))).eval x = 0)
    (h2 : (derivative (derivative (legendre (n + 1)))).eval x = 0) : False := by
  have h := congrArg (eval x) (legendre_ode (n + 1))
  simp only [derivative_mul, derivative_sub, derivative_X_pow, derivative_one, eval_mul, eval_add, eval_sub, eval_natCast,
    eval_X, eval_one, eval_pow] at h
  rw [h1, h2] at h
  have h0 : (legendre (n + 1)).eval x = 0 := by
    have hz : (((n + 1 : ℕ) : ℝ) * (((n + 1 : ℕ) : ℝ) + 1)) ≠ 0 := by positivity
    apply mul_left_cancel₀ hz
    linear_combination -h
  exact legendre_simple h0 h1

/-! ### Rodrigues' formula up to a factor, and real roots -/

theorem rodrigues_vanish {n k : ℕ} (hk : k < n) {x : ℝ} (hx : x ^ 2 = 1) :
    (derivative^[k] ((X ^ 2 - 1 : ℝ[X]) ^ n)).eval x = 0 := by
  have h := pow_sub_dvd_iterate_derivative_pow (X ^ 2 - 1 : ℝ[X]) n k
  obtain ⟨c, hc⟩ := (dvd_pow_self (X ^ 2 - 1 : ℝ[X]) (by omega : n - k ≠ 0)).trans h
  rw [hc, eval_mul]
  simp [hx]

theorem rodrigues_orth (n : ℕ) : ∀ k ≤ n, ∀ q : ℝ[X], integ (derivative^[k] ((X ^ 2 - 1 : ℝ[X]) ^ n) * q) =
    (-1) ^ k * integ ((X ^ 2 - 1 : ℝ[X]) ^ n * derivative^[k] q)
  | 0, _, q => by simp
  | k + 1, hk, q => by
    rw [Function.iterate_succ_apply' derivative k, integ_parts _ _ (by rw [rodrigues_vanish (by omega) (by norm_num), zero_mul])
      (by rw [rodrigues_vanish (by omega) (by norm_num), zero_mul]), rodrigues_orth n k (by omega), pow_succ,
      Function.iterate_succ_apply]
    ring

theorem rodrigues_base (n : ℕ) : ((X ^ 2 - 1 : ℝ[X]) ^ n).natDegree = 2 * n ∧ (X ^ 2 - 1 : ℝ[X]) ^ n ≠ 0 ∧
    ((X ^ 2 - 1 : ℝ[X]) ^ n).coeff (2 * n) = 1 ∧ Multiset.card ((X ^ 2 - 1 : ℝ[X]) ^ n).roots = 2 * n := by
  have hm : (X ^ 2 - 1 : ℝ[X]).Monic := by
    have := monic_X_pow_sub_C (R := ℝ) (n := 2) 1 (by norm_num)
    simpa using this
  have hd : (X ^ 2 - 1 : ℝ[X]).natDegree = 2 := by
    have := natDegree_X_pow_sub_C (R := ℝ) (n := 2) (r := 1)
    simpa using this
  have hD : ((X ^ 2 - 1 : ℝ[X]) ^ n).natDegree = 2 * n := by rw [natDegree_pow, hd, mul_comm]
  refine ⟨hD, pow_ne_zero _ hm.ne_zero, ?_, ?_⟩
  · have := (hm.pow n).coeff_natDegree
    rwa [hD] at this
  · rw [roots_pow, Multiset.card_nsmul]
    have e : (X ^ 2 - 1 : ℝ[X]) = (X - C 1) * (X - C (-1)) := by simp; ring
    rw [e, roots_mul (by rw [← e]; exact hm.ne_zero), roots_X_sub_C, roots_X_sub_C]
    simp [mul_comm]

theorem rodrigues_roots (n k : ℕ) : 2 * n ≤ Multiset.card (derivative^[k] ((X ^ 2 - 1 : ℝ[X]) ^ n)).roots + k := by
  induction k with
  | zero => exact (rodrigues_base n).2.2.2.ge
  | succ k ih =>
    rw [Function.iterate_succ_apply']
    have := card_roots_le_derivative (derivative^[k] ((X ^ 2 - 1 : ℝ[X]) ^ n))
    omega

theorem rodrigues_coeff (n : ℕ) : (derivative^[n] ((X ^ 2 - 1 : ℝ[X]) ^ n)).coeff n ≠ 0 := by
  rw [coeff_iterate_derivative, ← two_mul, (rodrigues_base n).2.2.1]
  simp only [nsmul_eq_mul, mul_one]
  exact_mod_cast (Nat.descFactorial_pos.mpr (by omega : n ≤ 2 * n)).ne'

/-- A polynomial of degree below `n` that is orthogonal to all polynomials of degree below `n` vanishes. -/
theorem eq_zero_of_orth {n : ℕ} {r : ℝ[X]} (hr : r.degree < (n : ℕ))
    (h : ∀ q : ℝ[X], q.degree < (n : ℕ) → integ (r * q) = 0) : r = 0 := by
  by_contra hne
  have hm : r.natDegree < n := by
    rw [degree_eq_natDegree hne] at hr; exact_mod_cast hr
  have h1 := legendre_orth (reduce_degree (m := r.natDegree) (q := r) (by
    rw [degree_eq_natDegree hne]; exact_mod_cast Nat.lt_succ_self _))
  rw [mul_sub, map_sub, mul_left_comm, integ_C_mul, mul_comm (legendre r.natDegree) r,
    h (legendre r.natDegree) (by
      rw [degree_eq_natDegree (legendre_ne_zero _), legendre_natDegree]; exact_mod_cast hm), zero_sub, neg_eq_zero] at h1
  have h2 := legendre_norm r.natDegree
  rcases mul_eq_zero.mp h1 with hc | hc
  · rw [div_eq_zero_iff] at hc
    rcases hc with hc | hc
    · exact hne (leadingCoeff_eq_zero.mp hc)
    · exact (legendre_degree _).2.ne' hc
  · rw [hc] at h2; norm_num at h2

theorem rodrigues (n : ℕ) : ∃ c : ℝ, c ≠ 0 ∧ derivative^[n] ((X ^ 2 - 1 : ℝ[X]) ^ n) = C c * legendre n := by
  set R := derivative^[n] ((X ^ 2 - 1 : ℝ[X]) ^ n) with hR
  have hdeg : R.degree < (n + 1 : ℕ) := by
    have h1 := natDegree_iterate_derivative ((X ^ 2 - 1 : ℝ[X]) ^ n) n
    rw [(rodrigues_base n).1] at h1
    refine lt_of_le_of_lt degree_le_natDegree ?_
    exact_mod_cast (by omega : (derivative^[n] ((X ^ 2 - 1 : ℝ[X]) ^ n)).natDegree < n + 1)
  refine ⟨R.coeff n / (legendre n).coeff n, div_ne_zero (rodrigues_coeff n) (legendre_degree n).2.ne', ?_⟩
  have := eq_zero_of_orth (reduce_degree hdeg) (fun q hq => by
    rw [sub_mul, map_sub, mul_assoc, integ_C_mul, legendre_orth hq, mul_zero, sub_zero, hR, rodrigues_orth n n le_rfl,
      iterate_derivative_eq_zero_of_degree_lt hq, mul_zero, map_zero, mul_zero])
  exact sub_eq_zero.mp this

theorem legendre_card (n : ℕ) : (legendre n).roots.toFinset.card = n := by
  obtain ⟨c, hc, h⟩ := rodrigues n
  have h1 := rodrigues_roots n n
  rw [h, roots_C_mul _ hc] at h1
  have h2 : Multiset.card (legendre n).roots ≤ n := by
    have := card_roots' (legendre n)
    rwa [legendre_natDegree] at this
  have hnd : (legendre n).roots.Nodup := by
    rw [Multiset.nodup_iff_count_le_one]
    intro x
    rw [count_roots]
    by_contra hlt
    have := (one_lt_rootMultiplicity_iff_isRoot (legendre_ne_zero n)).mp (by omega : 1 < rootMultiplicity x (legendre n))
    exact legendre_simple this.1 this.2
  rw [Multiset.toFinset_card_of_nodup hnd]
  omega

theorem derivative_ne_zero (n : ℕ) : derivative (legendre (n + 1)) ≠ 0 := fun h => by
  have := derivative_pos 1 le_rfl n
  rw [h] at this
  simp at this

theorem derivative_card (n : ℕ) : (derivative (legendre (n + 1))).roots.toFinset.card = n := by
  have h1 := card_roots_toFinset_le_derivative (legendre (n + 1))
  rw [legendre_card] at h1
  have h2 := card_roots' (derivative (legendre (n + 1)))
  have h3 := natDegree_derivative_le (legendre (n + 1))
  rw [legendre_natDegree] at h3
  have h4 := Multiset.toFinset_card_le (derivative (legendre (n + 1))).roots
  omega

end Verif.Core
