import Verif.Props.C80
import Mathlib.Algebra.MvPolynomial.Monad
import Mathlib.Topology.Algebra.MvPolynomial
import Mathlib.Analysis.SpecialFunctions.Integrals.Basic

/-!
# Affine images of the reference cube
-/

namespace Verif.Core

open Verif.Spec MeasureTheory MvPolynomial

/-- Substitute `c x_k + s_k` for `x_k`. -/
noncomputable def affSub {d : ℕ} (c : ℝ) (s : Fin d → ℝ) (U : MvPolynomial (Fin d) ℝ) : MvPolynomial (Fin d) ℝ :=
  bind₁ (fun k => C c * X k + C (s k)) U

theorem eval_affSub {d : ℕ} (c : ℝ) (s x : Fin d → ℝ) (U : MvPolynomial (Fin d) ℝ) :
    eval x (affSub c s U) = eval (fun k => c * x k + s k) U := by
  unfold affSub
  induction U using MvPolynomial.induction_on with
  | C a => simp
  | add p q hp hq => simp only [map_add, hp, hq]
  | mul_X p k hp => simp only [map_mul, hp, bind₁_X_right, map_add, eval_C, eval_X]

theorem pderiv_affSub {d : ℕ} (c : ℝ) (s : Fin d → ℝ) (U : MvPolynomial (Fin d) ℝ) (k : Fin d) :
    pderiv k (affSub c s U) = C c * affSub c s (pderiv k U) := by
  unfold affSub
  induction U using MvPolynomial.induction_on with
  | C a => simp
  | add p q hp hq => simp only [map_add, hp, hq, mul_add]
  | mul_X p j hp =>
    rw [map_mul, bind₁_X_right, pderiv_mul, hp, pderiv_mul, map_add (bind₁ _), map_mul (bind₁ _), map_mul (bind₁ _),
      bind₁_X_right]
    by_cases h : j = k
    · subst h
      simp only [map_add, pderiv_mul, pderiv_C, pderiv_X_self, map_one]
      ring
    · have h1 : pderiv k (X j : MvPolynomial (Fin d) ℝ) = 0 := pderiv_X_of_ne h
      simp only [map_add, pderiv_mul, pderiv_C, h1, map_zero]
      ring

theorem degreeOf_affSub {d : ℕ} (c : ℝ) (s : Fin d → ℝ) (U : MvPolynomial (Fin d) ℝ) (k : Fin d) :
    (affSub c s U).degreeOf k ≤ U.degreeOf k := by
  have hlin : ∀ j, (C c * X j + C (s j) : MvPolynomial (Fin d) ℝ).degreeOf k ≤ if j = k then 1 else 0 := by
    intro j
    refine le_trans (degreeOf_add_le _ _ _) (max_le ?_ ?_)
    · refine le_trans (degreeOf_mul_le _ _ _) ?_
      rw [degreeOf_C, degreeOf_X, zero_add]
      split_ifs with h1 h2 h2
      · exact le_rfl
      · exact absurd h1.symm h2
      · exact Nat.zero_le _
      · exact le_rfl
    · rw [degreeOf_C]; exact Nat.zero_le _
  unfold affSub
  conv_lhs => rw [U.as_sum, map_sum]
  refine le_trans (degreeOf_sum_le _ _ _) (Finset.sup_le fun m hm => ?_)
  rw [bind₁_monomial]
  refine le_trans (degreeOf_mul_le _ _ _) ?_
  rw [degreeOf_C, zero_add]
  refine le_trans (degreeOf_prod_le _ _ _) ?_
  refine le_trans (Finset.sum_le_sum (g := fun j => if j = k then m k else 0) fun j _ => ?_) ?_
  · refine le_trans (degreeOf_pow_le _ _ _) ?_
    have := Nat.mul_le_mul_left (m j) (hlin j)
    split_ifs with h
    · subst h; simpa using this
    · simpa [h] using this
  · rw [Finset.sum_ite_eq']
    split_ifs
    · exact monomial_le_degreeOf k hm
    · exact Nat.zero_le _

/-- Integral of a product over a box. -/
theorem integral_box_prod {d : ℕ} {lo hi : Fin d → ℝ} (hle : ∀ k, lo k ≤ hi k) (g : Fin d → ℝ → ℝ) :
    ∫ x in Set.Icc lo hi, ∏ k, g k (x k) = ∏ k, ∫ x in (lo k)..(hi k), g k x := by
  rw [← Set.pi_univ_Icc, volume_pi, Measure.restrict_pi_pi, integral_fintype_prod_eq_prod]
  refine Finset.prod_congr rfl fun k _ => ?_
  rw [intervalIntegral.integral_of_le (hle k), integral_Icc_eq_integral_Ioc]

theorem integrableOn_eval {d : ℕ} (lo hi : Fin d → ℝ) (f : MvPolynomial (Fin d) ℝ) :
    IntegrableOn (fun x => eval x f) (Set.Icc lo hi) := by
  refine Continuous.integrableOn_Icc ?_
  exact MvPolynomial.continuous_eval f

/-- Change of variables from a cube of half width `c` to the reference cube, for polynomials. -/
theorem integral_affSub {d : ℕ} {c : ℝ} (hc : 0 < c) (s : Fin d → ℝ) (f : MvPolynomial (Fin d) ℝ) :
    c ^ d * ∫ x in Set.Icc (fun _ : Fin d => (-1 : ℝ)) (fun _ => 1), eval x (affSub c s f) =
      ∫ x in Set.Icc (fun k => s k - c) (fun k => s k + c), eval x f := by
  simp only [eval_affSub]
  simp only [eval_eq']
  have hint1 : ∀ e ∈ f.support, IntegrableOn (fun x : Fin d → ℝ => f.coeff e * ∏ k, (c * x k + s k) ^ e k)
      (Set.Icc (fun _ => (-1 : ℝ)) (fun _ => 1)) := fun e _ => Continuous.integrableOn_Icc (by fun_prop)
  have hint2 : ∀ e ∈ f.support, IntegrableOn (fun x : Fin d → ℝ => f.coeff e * ∏ k, x k ^ e k)
      (Set.Icc (fun k => s k - c) (fun k => s k + c)) := fun e _ => Continuous.integrableOn_Icc (by fun_prop)
  rw [integral_finsetSum _ hint1, integral_finsetSum _ hint2, Finset.mul_sum]
  refine Finset.sum_congr rfl fun e _ => ?_
  rw [integral_const_mul, integral_const_mul, integral_box_prod (fun k => by linarith) (fun k x => x ^ e k),
    integral_box_prod (fun _ => by norm_num) (fun k x => (c * x + s k) ^ e k), mul_left_comm]
  congr 1
  have : c ^ d = ∏ _k : Fin d, c := by simp
  rw [this, ← Finset.prod_mul_distrib]
  refine Finset.prod_congr rfl fun k _ => ?_
  have h := intervalIntegral.mul_integral_comp_mul_add (a := -1) (b := 1) (f := fun x : ℝ => x ^ e k) c (s k)
  rw [h]
  congr 1 <;> ring

/-- A tensor rule on a cube of half width `c`. -/
theorem box_rule {W l : List ℝ} {deg : ℕ} (h : QuadratureRule W l deg) {d : ℕ} (hd : 1 ≤ d) {c : ℝ} (hc : 0 < c)
    (s : Fin d → ℝ) {Wd : List ℝ} (hW : weightsNd W d = some Wd) (f : MvPolynomial (Fin d) ℝ) (hf : ∀ k, f.degreeOf k ≤ deg) :
    ∑ q ∈ Finset.range (l.length ^ d), eval (fun k => c * gridPoint d (vec l l.length) q k + s k) f * c ^ d * Wd.getD q 0 =
      ∫ x in Set.Icc (fun k => s k - c) (fun k => s k + c), eval x f := by
  obtain ⟨Wd', h1, _, _, h4⟩ := C80_tensor h d hd
  rw [hW, Option.some.injEq] at h1
  subst h1
  have h5 := h4 (affSub c s f) (fun k => le_trans (degreeOf_affSub c s f k) (hf k))
  rw [← integral_affSub hc, ← h5, Finset.mul_sum]
  refine Finset.sum_congr rfl fun q _ => ?_
  rw [eval_affSub]
  ring

end Verif.Core
