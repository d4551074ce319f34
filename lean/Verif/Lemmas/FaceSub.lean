import Verif.Lemmas.BoxQuad
import Verif.Lemmas.TensorPoly

/-!
# Integration by parts for polynomials on a box, one axis at a time
-/

namespace Verif.Core

open Verif.Spec MeasureTheory MvPolynomial

variable {d : ℕ}

/-- Set `x_k = t`. -/
noncomputable def faceSub (k : Fin d) (t : ℝ) (U : MvPolynomial (Fin d) ℝ) : MvPolynomial (Fin d) ℝ :=
  bind₁ (fun j => if j = k then C t else X j) U

theorem faceSub_mul (k : Fin d) (t : ℝ) (U V : MvPolynomial (Fin d) ℝ) :
    faceSub k t (U * V) = faceSub k t U * faceSub k t V := map_mul _ _ _

theorem faceSub_sub (k : Fin d) (t : ℝ) (U V : MvPolynomial (Fin d) ℝ) :
    faceSub k t (U - V) = faceSub k t U - faceSub k t V := map_sub _ _ _

theorem eval_faceSub (k : Fin d) (t : ℝ) (x : Fin d → ℝ) (U : MvPolynomial (Fin d) ℝ) :
    eval x (faceSub k t U) = eval (Function.update x k t) U := by
  unfold faceSub
  induction U using MvPolynomial.induction_on with
  | C a => simp
  | add p q hp hq => simp only [map_add, hp, hq]
  | mul_X p j hp =>
    simp only [map_mul, hp, bind₁_X_right, eval_X]
    congr 1
    by_cases h : j = k
    · subst h; simp
    · simp [h, Function.update_of_ne h]

theorem degreeOf_faceSub (k : Fin d) (t : ℝ) (U : MvPolynomial (Fin d) ℝ) (i : Fin d) :
    (faceSub k t U).degreeOf i ≤ U.degreeOf i := by
  unfold faceSub
  conv_lhs => rw [U.as_sum, map_sum]
  refine le_trans (degreeOf_sum_le _ _ _) (Finset.sup_le fun m hm => ?_)
  rw [bind₁_monomial]
  refine le_trans (degreeOf_mul_le _ _ _) ?_
  rw [degreeOf_C, zero_add]
  refine le_trans (degreeOf_prod_le _ _ _) ?_
  refine le_trans (Finset.sum_le_sum (g := fun j => if j = i then m i else 0) fun j _ => ?_) ?_
  · refine le_trans (degreeOf_pow_le _ _ _) ?_
    by_cases h : j = k
    · rw [if_pos h, degreeOf_C, mul_zero]; exact Nat.zero_le _
    · rw [if_neg h, degreeOf_X]
      by_cases hi : j = i
      · subst hi; simp
      · rw [if_neg (Ne.symm hi), if_neg hi, mul_zero]
  · rw [Finset.sum_ite_eq']
    split_ifs
    · exact monomial_le_degreeOf i hm
    · exact Nat.zero_le _

theorem eval_monomial_prod (x : Fin d → ℝ) (m : Fin d →₀ ℕ) (r : ℝ) : eval x (monomial m r) = r * ∏ j, x j ^ m j := by
  rw [eval_monomial, Finsupp.prod_fintype]
  intro j
  exact pow_zero _

theorem eval_faceSub_monomial (k : Fin d) (t : ℝ) (x : Fin d → ℝ) (m : Fin d →₀ ℕ) (r : ℝ) :
    eval x (faceSub k t (monomial m r)) = r * ∏ j, (if j = k then t else x j) ^ m j := by
  rw [eval_faceSub, eval_monomial_prod]
  congr 1
  refine Finset.prod_congr rfl fun j _ => ?_
  by_cases h : j = k
  · subst h; simp
  · simp [h, Function.update_of_ne h]

/-- Integral of a monomial restricted to a face. -/
theorem integral_faceSub_monomial {lo hi : Fin d → ℝ} (hle : ∀ k, lo k ≤ hi k) (k : Fin d) (t : ℝ) (m : Fin d →₀ ℕ) (r : ℝ) :
    ∫ x in Set.Icc lo hi, eval x (faceSub k t (monomial m r)) =
      r * ((t ^ m k * (hi k - lo k)) * ∏ j ∈ Finset.univ.erase k, ∫ x in (lo j)..(hi j), x ^ m j) := by
  simp only [eval_faceSub_monomial]
  rw [integral_const_mul, integral_box_prod hle (fun j x => (if j = k then t else x) ^ m j),
    ← Finset.mul_prod_erase Finset.univ _ (Finset.mem_univ k)]
  congr 2
  · simp [mul_comm]
  · refine Finset.prod_congr rfl fun j hj => ?_
    simp [(Finset.mem_erase.mp hj).1]

/-- The integral of the restriction to a face depends on the extent along the axis only by its length. -/
theorem integral_faceSub_congr {lo hi lo' hi' : Fin d → ℝ} (hle : ∀ k, lo k ≤ hi k) (hle' : ∀ k, lo' k ≤ hi' k) (k : Fin d)
    (hlo : ∀ j, j ≠ k → lo j = lo' j) (hhi : ∀ j, j ≠ k → hi j = hi' j) (hk : hi k - lo k = hi' k - lo' k) (t : ℝ)
    (U : MvPolynomial (Fin d) ℝ) :
    ∫ x in Set.Icc lo hi, eval x (faceSub k t U) = ∫ x in Set.Icc lo' hi', eval x (faceSub k t U) := by
  induction U using MvPolynomial.induction_on' with
  | monomial m r =>
    rw [integral_faceSub_monomial hle, integral_faceSub_monomial hle', hk]
    congr 2
    refine Finset.prod_congr rfl fun j hj => ?_
    have := (Finset.mem_erase.mp hj).1
    rw [hlo j this, hhi j this]
  | add p q hp hq =>
    have : faceSub k t (p + q) = faceSub k t p + faceSub k t q := map_add _ _ _
    simp only [this, map_add]
    rw [integral_add (integrableOn_eval _ _ _) (integrableOn_eval _ _ _),
      integral_add (integrableOn_eval _ _ _) (integrableOn_eval _ _ _), hp, hq]

/-- The fundamental theorem along one axis. -/
theorem integral_pderiv_box {lo hi : Fin d → ℝ} (hle : ∀ k, lo k ≤ hi k) (k : Fin d) (U : MvPolynomial (Fin d) ℝ) :
    (hi k - lo k) * ∫ x in Set.Icc lo hi, eval x (pderiv k U) =
      (∫ x in Set.Icc lo hi, eval x (faceSub k (hi k) U)) - ∫ x in Set.Icc lo hi, eval x (faceSub k (lo k) U) := by
  induction U using MvPolynomial.induction_on' with
  | monomial m r =>
    rw [integral_faceSub_monomial hle, integral_faceSub_monomial hle, pderiv_monomial]
    simp only [eval_monomial_prod]
    rw [integral_const_mul, integral_box_prod hle (fun j x => x ^ ((m - Finsupp.single k 1 : Fin d →₀ ℕ) j)),
      ← Finset.mul_prod_erase Finset.univ _ (Finset.mem_univ k)]
    have h1 : ∏ j ∈ Finset.univ.erase k, ∫ x in (lo j)..(hi j), x ^ ((m - Finsupp.single k 1 : Fin d →₀ ℕ) j) =
        ∏ j ∈ Finset.univ.erase k, ∫ x in (lo j)..(hi j), x ^ m j := by
      refine Finset.prod_congr rfl fun j hj => ?_
      rw [Finsupp.tsub_apply, Finsupp.single_eq_of_ne (Finset.mem_erase.mp hj).1, Nat.sub_zero]
    have h2 : (m k : ℝ) * ∫ x in (lo k)..(hi k), x ^ ((m - Finsupp.single k 1 : Fin d →₀ ℕ) k) = hi k ^ m k - lo k ^ m k := by
      rw [Finsupp.tsub_apply, Finsupp.single_eq_same]
      rcases Nat.eq_zero_or_pos (m k) with h0 | h0
      · rw [h0]; simp
      · obtain ⟨s, hs⟩ : ∃ s, m k = s + 1 := ⟨m k - 1, by omega⟩
        rw [hs, Nat.add_sub_cancel, integral_pow]
        push_cast
        have : (s : ℝ) + 1 ≠ 0 := by positivity
        field_simp
    rw [h1]
    linear_combination (hi k - lo k) * r * (∏ j ∈ Finset.univ.erase k, ∫ x in (lo j)..(hi j), x ^ m j) * h2
  | add p q hp hq =>
    have h1 : ∀ t, faceSub k t (p + q) = faceSub k t p + faceSub k t q := fun t => map_add _ _ _
    simp only [h1, map_add]
    rw [integral_add (integrableOn_eval _ _ _) (integrableOn_eval _ _ _),
      integral_add (integrableOn_eval _ _ _) (integrableOn_eval _ _ _),
      integral_add (integrableOn_eval _ _ _) (integrableOn_eval _ _ _), mul_add, hp, hq]
    ring

end Verif.Core
