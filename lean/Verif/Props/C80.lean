import Verif.Props.C79
import Mathlib.MeasureTheory.Integral.Pi
import Mathlib.MeasureTheory.Measure.Lebesgue.Basic

/-!
# C80: tensor product quadrature on the reference cube
-/

namespace Verif.Core

open Verif.Spec MeasureTheory

theorem getD_outer (a b : List ℝ) : (outer a b).length = a.length * b.length ∧
    ∀ p q, p < a.length → q < b.length → (outer a b).getD (p * b.length + q) 0 = a.getD p 0 * b.getD q 0 := by
  unfold outer
  induction a with
  | nil => simp
  | cons x a ih =>
    rw [List.flatMap_cons]
    refine ⟨by simp [ih.1]; ring, fun p q hp hq => ?_⟩
    cases p with
    | zero =>
      rw [zero_mul, zero_add, List.getD_append _ _ _ _ (by simpa using hq)]
      rw [List.getD_eq_getElem _ _ (by simpa using hq), List.getElem_map, List.getD_eq_getElem _ _ hq]
      simp
    | succ p =>
      rw [List.getD_append_right _ _ _ _ (by rw [List.length_map, Nat.succ_mul]; omega)]
      have : (p + 1) * b.length + q - (b.map (fun y => x * y)).length = p * b.length + q := by
        rw [List.length_map, Nat.succ_mul]; omega
      rw [this, ih.2 p q (by simpa using hp) hq]
      simp

/-- Entries of the product weights. -/
theorem weightsNd_get (w : List ℝ) (d : ℕ) : ∃ W, weightsNd w (d + 1) = some W ∧ W.length = w.length ^ (d + 1) ∧
    ∀ q < w.length ^ (d + 1), W.getD q 0 = ∏ k : Fin (d + 1), w.getD (digit w.length (d + 1) k q) 0 := by
  refine ⟨_, rfl, ?_⟩
  induction d with
  | zero =>
    refine ⟨by simp, fun q hq => ?_⟩
    rw [Fin.prod_univ_one]
    simp only [pow_one, zero_add] at hq
    simp [digit, Nat.mod_eq_of_lt hq]
  | succ d ih =>
    rw [List.replicate_succ', List.foldl_append]
    simp only [List.foldl_cons, List.foldl_nil]
    obtain ⟨h1, h2⟩ := getD_outer ((List.replicate d w).foldl outer w) w
    refine ⟨by rw [h1, ih.1, pow_succ _ (d + 1)], fun q hq => ?_⟩
    have hw : 0 < w.length := by
      rcases Nat.eq_zero_or_pos w.length with h | h
      · rw [h, zero_pow (by omega)] at hq; omega
      · exact h
    have hdiv : q / w.length < w.length ^ (d + 1) := by
      rw [Nat.div_lt_iff_lt_mul hw, ← pow_succ]; exact hq
    have := h2 (q / w.length) (q % w.length) (by rw [ih.1]; exact hdiv) (Nat.mod_lt _ hw)
    rw [Nat.div_add_mod' q w.length] at this
    rw [this, ih.2 _ hdiv]
    conv_rhs => rw [Fin.prod_univ_castSucc]
    congr 1
    · refine Finset.prod_congr rfl fun k _ => ?_
      rw [Fin.val_castSucc, digit_init _ _ _ _ k.2]
    · rw [Fin.val_last, digit_last]

/-- A sum over multi indices of products is a product of sums. -/
theorem sum_digits (m d : ℕ) (hm : 0 < m) (g : Fin d → ℕ → ℝ) :
    ∑ q ∈ Finset.range (m ^ d), ∏ k : Fin d, g k (digit m d k q) = ∏ k : Fin d, ∑ j ∈ Finset.range m, g k j := by
  induction d with
  | zero => simp
  | succ d ih =>
    rw [pow_succ, sum_range_mul, Fin.prod_univ_castSucc, ← ih, Finset.sum_mul_sum]
    refine Finset.sum_congr rfl fun p _ => Finset.sum_congr rfl fun r hr => ?_
    have hr' := Finset.mem_range.mp hr
    rw [Fin.prod_univ_castSucc]
    congr 1
    · refine Finset.prod_congr rfl fun k _ => ?_
      rw [Fin.val_castSucc, digit_init _ _ _ _ k.2]
      congr 2
      rw [Nat.mul_comm, Nat.mul_add_div hm, Nat.div_eq_of_lt hr', Nat.add_zero]
    · rw [Fin.val_last, digit_last, Nat.mul_comm, Nat.mul_add_mod, Nat.mod_eq_of_lt hr']

/-- Integral of a product over the reference cube. -/
theorem integral_cube_prod {d : ℕ} (g : Fin d → ℝ → ℝ) :
    ∫ x in Set.Icc (fun _ : Fin d => (-1 : ℝ)) (fun _ => 1), ∏ k, g k (x k) = ∏ k, ∫ x in (-1 : ℝ)..1, g k x := by
  rw [← Set.pi_univ_Icc, volume_pi, Measure.restrict_pi_pi, integral_fintype_prod_eq_prod]
  refine Finset.prod_congr rfl fun k _ => ?_
  rw [intervalIntegral.integral_of_le (by norm_num), integral_Icc_eq_integral_Ioc]

/-- Product weights of a one dimensional rule with `m` points: one positive weight for every point of the tensor grid (last
axis fastest), and every polynomial whose degree in each variable is at most that of the rule is integrated exactly over
`[-1, 1] ^ d`. -/
theorem C80_tensor {W l : List ℝ} {deg : ℕ} (h : QuadratureRule W l deg) (d : ℕ) (hd : 1 ≤ d) : ∃ Wd,
    weightsNd W d = some Wd ∧ Wd.length = l.length ^ d ∧ (∀ w ∈ Wd, 0 < w) ∧
    ∀ f : MvPolynomial (Fin d) ℝ, (∀ k, f.degreeOf k ≤ deg) →
      ∑ q ∈ Finset.range (l.length ^ d), Wd.getD q 0 * MvPolynomial.eval (gridPoint d (vec l l.length) q) f =
        ∫ x in Set.Icc (fun _ : Fin d => (-1 : ℝ)) (fun _ => 1), MvPolynomial.eval x f := by
  obtain ⟨d, rfl⟩ : ∃ d', d = d' + 1 := ⟨d - 1, by omega⟩
  have hl : 0 < l.length := by
    rcases Nat.eq_zero_or_pos l.length with h0 | h0
    · have := h.sum
      rw [List.eq_nil_of_length_eq_zero (h.length.trans h0)] at this
      norm_num at this
    · exact h0
  obtain ⟨Wd, h1, h2, h3⟩ := weightsNd_get W d
  rw [h.length] at h2 h3
  refine ⟨Wd, h1, h2, ?_, fun f hf => ?_⟩
  · intro w hw
    obtain ⟨q, hq, rfl⟩ := List.getElem_of_mem hw
    rw [← List.getD_eq_getElem _ 0 hq, h3 q (by rw [← h2]; exact hq)]
    refine Finset.prod_pos fun k _ => ?_
    have hlt : digit l.length (d + 1) k q < W.length := by rw [h.length]; exact Verif.Common.digit_lt _ _ _ _ hl
    rw [List.getD_eq_getElem _ _ hlt]
    exact h.positive _ (List.getElem_mem _)
  · simp only [MvPolynomial.eval_eq']
    have hint : ∀ e ∈ f.support, IntegrableOn (fun x : Fin (d + 1) → ℝ => f.coeff e * ∏ k, x k ^ e k)
        (Set.Icc (fun _ => (-1 : ℝ)) (fun _ => 1)) := by
      intro e _
      exact Continuous.integrableOn_Icc (by fun_prop)
    rw [integral_finsetSum _ hint]
    simp only [Finset.mul_sum]
    rw [Finset.sum_comm]
    refine Finset.sum_congr rfl fun e he => ?_
    rw [integral_const_mul, integral_cube_prod (fun k x => x ^ e k)]
    have h4 : ∀ q ∈ Finset.range (l.length ^ (d + 1)),
        Wd.getD q 0 * (f.coeff e * ∏ k, gridPoint (d + 1) (vec l l.length) q k ^ e k) =
        f.coeff e * ∏ k : Fin (d + 1), (fun (k : Fin (d + 1)) (j : ℕ) => W.getD j 0 * l.getD j 0 ^ e k) k
          (digit l.length (d + 1) k q) := by
      intro q hq
      rw [h3 q (Finset.mem_range.mp hq), mul_left_comm, ← Finset.prod_mul_distrib]
      congr 1
      refine Finset.prod_congr rfl fun k _ => ?_
      have hlt : digit l.length (d + 1) k q < l.length := Verif.Common.digit_lt _ _ _ _ hl
      simp only [gridPoint, at0, hlt, dif_pos, vec]
    rw [Finset.sum_congr rfl h4, ← Finset.mul_sum,
      sum_digits _ _ hl (fun (k : Fin (d + 1)) (j : ℕ) => W.getD j 0 * l.getD j 0 ^ e k)]
    congr 1
    refine Finset.prod_congr rfl fun k _ => ?_
    have h5 := h.exact (Polynomial.X ^ e k) (by
      rw [Polynomial.natDegree_X_pow]
      exact le_trans (MvPolynomial.monomial_le_degreeOf k he) (hf k))
    simp only [Polynomial.eval_pow, Polynomial.eval_X] at h5
    rw [← h5, zip_sum h.length rfl (fun w x => w * x ^ e k), Finset.sum_range]
    rfl

/-- With `p + 1` Gauss-Lobatto-Legendre points per axis the mass and stiffness integrands of order `p - 1` are exact: every
polynomial of degree at most `2 p - 1` in each variable. -/
theorem C80_gauss_lobatto (p d : ℕ) (hp : 1 ≤ p) (hd : 1 ≤ d) : ∃ l Wd, gllNodes (p + 1) = some l ∧ l.length = p + 1 ∧
    weightsNd (gllWeights (p + 1) l) d = some Wd ∧ Wd.length = (p + 1) ^ d ∧ (∀ w ∈ Wd, 0 < w) ∧
    ∀ f : MvPolynomial (Fin d) ℝ, (∀ k, f.degreeOf k ≤ 2 * p - 1) →
      ∑ q ∈ Finset.range ((p + 1) ^ d), Wd.getD q 0 * MvPolynomial.eval (gridPoint d (vec l (p + 1)) q) f =
        ∫ x in Set.Icc (fun _ : Fin d => (-1 : ℝ)) (fun _ => 1), MvPolynomial.eval x f := by
  obtain ⟨l, h1, h2, _, h4⟩ := C78_rule p hp
  obtain ⟨Wd, h5, h6, h7, h8⟩ := C80_tensor h4 d hd
  rw [h2] at h6 h8
  exact ⟨l, Wd, h1, h2, h5, h6, h7, h8⟩

/-- The same for Gauss-Legendre points. -/
theorem C80_gauss_legendre (m d : ℕ) (hm : 1 ≤ m) (hd : 1 ≤ d) : ∃ l Wd, glNodes m = some l ∧ l.length = m ∧
    weightsNd (glWeights m l) d = some Wd ∧ Wd.length = m ^ d ∧ (∀ w ∈ Wd, 0 < w) ∧
    ∀ f : MvPolynomial (Fin d) ℝ, (∀ k, f.degreeOf k ≤ 2 * m - 1) →
      ∑ q ∈ Finset.range (m ^ d), Wd.getD q 0 * MvPolynomial.eval (gridPoint d (vec l m) q) f =
        ∫ x in Set.Icc (fun _ : Fin d => (-1 : ℝ)) (fun _ => 1), MvPolynomial.eval x f := by
  obtain ⟨l, h1, h2, _, _, h4⟩ := C79_gauss_legendre m hm
  obtain ⟨Wd, h5, h6, h7, h8⟩ := C80_tensor h4 d hd
  rw [h2] at h6 h8
  exact ⟨l, Wd, h1, h2, h5, h6, h7, h8⟩

/-- Two dimensional Simpson weights; zero dimensions raise. -/
example : weightsNd (gllWeights 3 [-1, 0, 1]) 2 =
      some [1 / 9, 4 / 9, 1 / 9, 4 / 9, 16 / 9, 4 / 9, 1 / 9, 4 / 9, 1 / 9] ∧
    weightsNd (gllWeights 3 [-1, 0, 1]) 0 = none := by
  refine ⟨?_, rfl⟩
  have : gllWeights 3 [-1, 0, 1] = [1 / 3, 4 / 3, 1 / 3] := by
    simp only [gllWeights, List.map, legendre]
    norm_num
  rw [this]
  simp [weightsNd, outer]
  norm_num

end Verif.Core
