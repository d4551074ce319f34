import Verif.Lemmas.GaussQuad

/-!
# The sum of the squares of the Gauss-Legendre nodes
-/

namespace Verif.Core

open Polynomial

/-- The leading coefficients of a product of linear factors. -/
theorem nodal_coeffs {ι : Type*} [DecidableEq ι] (x : ι → ℝ) (s : Finset ι) :
    (∀ k, s.card < k → (Lagrange.nodal s x).coeff k = 0) ∧ (Lagrange.nodal s x).coeff s.card = 1 ∧
      (∀ k, k + 1 = s.card → (Lagrange.nodal s x).coeff k = -∑ i ∈ s, x i) ∧
      (∀ k, k + 2 = s.card → 2 * (Lagrange.nodal s x).coeff k = (∑ i ∈ s, x i) ^ 2 - ∑ i ∈ s, x i ^ 2) := by
  induction s using Finset.induction_on with
  | empty =>
    refine ⟨fun k hk => ?_, by simp, fun k hk => by simp at hk, fun k hk => by simp at hk⟩
    rw [Finset.card_empty] at hk
    rw [Lagrange.nodal_empty, coeff_one, if_neg (by omega)]
  | insert a s ha ih =>
    obtain ⟨h0, h1, h2, h3⟩ := ih
    rw [Lagrange.nodal_insert_eq_nodal ha, Finset.card_insert_of_notMem ha, Finset.sum_insert ha, Finset.sum_insert ha]
    set Q := Lagrange.nodal s x
    have hs : ∀ k, ((X - C (x a)) * Q).coeff (k + 1) = Q.coeff k - x a * Q.coeff (k + 1) := fun k => by
      rw [sub_mul, coeff_sub, coeff_X_mul, coeff_C_mul]
    have hz : ((X - C (x a)) * Q).coeff 0 = -(x a * Q.coeff 0) := by
      rw [sub_mul, coeff_sub, coeff_X_mul_zero, coeff_C_mul, zero_sub]
    refine ⟨fun k hk => ?_, ?_, fun k hk => ?_, fun k hk => ?_⟩
    · obtain ⟨k, rfl⟩ : ∃ j, k = j + 1 := ⟨k - 1, by omega⟩
      rw [hs, h0 k (by omega), h0 (k + 1) (by omega)]
      ring
    · rw [hs, h1, h0 _ (by omega)]
      ring
    · have hk' : k = s.card := by omega
      subst hk'
      cases hc : s.card with
      | zero =>
        rw [Finset.card_eq_zero.mp hc, Finset.sum_empty]
        rw [hc] at h1
        rw [hz, h1]
        ring
      | succ j =>
        rw [hc] at h1
        rw [hs, h1, h2 j hc.symm]
        ring
    · have hk' : k + 1 = s.card := by omega
      cases k with
      | zero =>
        obtain ⟨i, hi⟩ := Finset.card_eq_one.mp hk'.symm
        rw [hz, h2 0 hk', hi, Finset.sum_singleton, Finset.sum_singleton]
        ring
      | succ j =>
        have h4 := h3 j (by omega)
        rw [hs, h2 (j + 1) hk', mul_sub, h4]
        ring

theorem ode_coeff (P : ℝ[X]) (k : ℕ) : (derivative ((X ^ 2 - 1) * derivative P)).coeff k =
    ((k : ℝ) + 1) * ((k : ℝ) * P.coeff k - ((k : ℝ) + 2) * P.coeff (k + 2)) := by
  rw [coeff_derivative, sub_mul, one_mul, coeff_sub, coeff_derivative]
  have h : (X ^ 2 * derivative P).coeff (k + 1) = (k : ℝ) * P.coeff k := by
    cases k with
    | zero => rw [pow_two, mul_assoc, coeff_X_mul, coeff_X_mul_zero]; simp
    | succ j => rw [coeff_X_pow_mul, coeff_derivative]; push_cast; ring
  rw [h]
  push_cast
  ring

theorem legendre_subleading (n : ℕ) : (legendre (n + 2)).coeff (n + 1) = 0 ∧
    (2 * (2 * (n : ℝ) + 3)) * (legendre (n + 2)).coeff n = -((n + 2) * (n + 1)) * (legendre (n + 2)).coeff (n + 2) := by
  have h := legendre_ode (n + 2)
  have hc : ∀ k, (((n + 2 : ℕ) : ℝ[X]) * (((n + 2 : ℕ) : ℝ[X]) + 1) * legendre (n + 2)).coeff k =
      ((n : ℝ) + 2) * ((n : ℝ) + 3) * (legendre (n + 2)).coeff k := fun k => by
    rw [show ((n + 2 : ℕ) : ℝ[X]) * (((n + 2 : ℕ) : ℝ[X]) + 1) = C (((n : ℝ) + 2) * ((n : ℝ) + 3)) by
      simp only [map_mul, map_add, map_natCast, map_ofNat]
      push_cast
      ring]
    rw [coeff_C_mul]
  have h1 := ode_coeff (legendre (n + 2)) (n + 1)
  have h2 := ode_coeff (legendre (n + 2)) n
  rw [h, hc] at h1 h2
  have h3 : (legendre (n + 2)).coeff (n + 1 + 2) = 0 := coeff_eq_zero_of_natDegree_lt (by rw [legendre_natDegree]; omega)
  rw [h3] at h1
  push_cast at h1
  constructor
  · have h4 : (2 * ((n : ℝ) + 2)) * (legendre (n + 2)).coeff (n + 1) = 0 := by linarith
    exact (mul_eq_zero.mp h4).resolve_left (by positivity)
  · linarith

/-- The squares of the roots of a Legendre polynomial. -/
theorem legendre_squares {n : ℕ} {x : Fin (n + 2) → ℝ} (hx : Function.Injective x) (h : ∀ i, (legendre (n + 2)).eval (x i) = 0) :
    ∑ i, x i ^ 2 = ((n : ℝ) + 2) * (n + 1) / (2 * n + 3) := by
  have he := eq_nodal hx (legendre_natDegree (n + 2)) h
  obtain ⟨_, h1, h2, h3⟩ := nodal_coeffs x Finset.univ
  rw [Finset.card_univ, Fintype.card_fin] at h1 h2 h3
  obtain ⟨g1, g2⟩ := legendre_subleading n
  have hlead := (legendre_degree (n + 2)).2
  set c := (legendre (n + 2)).coeff (n + 2) with hc
  have e1 : (legendre (n + 2)).coeff (n + 1) = c * (Lagrange.nodal Finset.univ x).coeff (n + 1) := by
    conv_lhs => rw [he]
    rw [coeff_C_mul]
  have e2 : (legendre (n + 2)).coeff n = c * (Lagrange.nodal Finset.univ x).coeff n := by
    conv_lhs => rw [he]
    rw [coeff_C_mul]
  have s1 : ∑ i, x i = 0 := by
    have h4 := h2 (n + 1) rfl
    have h5 : (Lagrange.nodal Finset.univ x).coeff (n + 1) = 0 :=
      (mul_eq_zero.mp (e1.symm.trans g1)).resolve_left hlead.ne'
    linarith
  have h4 := h3 n rfl
  rw [s1] at h4
  rw [e2] at g2
  have h6 : (2 * (2 * (n : ℝ) + 3)) * (Lagrange.nodal Finset.univ x).coeff n = -((n + 2) * (n + 1)) := by
    apply mul_left_cancel₀ hlead.ne'
    linarith
  rw [eq_div_iff (by positivity)]
  linear_combination (2 * (n : ℝ) + 3) * h4 - h6

end Verif.Core
