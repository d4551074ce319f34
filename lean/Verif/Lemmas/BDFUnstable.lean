import Verif.Lemmas.BDFStable
import Mathlib.Analysis.Complex.Polynomial.Basic

/-!
# The backward differences of order 7 are unstable
-/

namespace Verif.NS

open Polynomial

/-- The characteristic polynomial of order 7. -/
noncomputable def bdf7 : ℂ[X] :=
  C (363 / 140) * X ^ 7 + C (-7) * X ^ 6 + C (21 / 2) * X ^ 5 + C (-35 / 3) * X ^ 4 + C (35 / 4) * X ^ 3 + C (-21 / 5) * X ^ 2 +
    C (7 / 6) * X + C (-1 / 7)

theorem bdf7_degree : bdf7.natDegree = 7 := by
  unfold bdf7
  compute_degree!

theorem bdf7_lead : bdf7.leadingCoeff = 363 / 140 := by
  rw [leadingCoeff, bdf7_degree]
  simp [bdf7, coeff_X, coeff_C]

/-- Polynomials with all roots in the unit disc are bounded from below. -/
theorem le_of_roots {f : ℂ[X]} (h : ∀ z ∈ f.roots, ‖z‖ ≤ 1) {z : ℂ} (hz : 1 ≤ ‖z‖) :
    ‖f.leadingCoeff‖ * (‖z‖ - 1) ^ f.natDegree ≤ ‖f.eval z‖ := by
  have hs := IsAlgClosed.splits f
  rw [hs.eval_eq_prod_roots, norm_mul]
  refine mul_le_mul_of_nonneg_left ?_ (norm_nonneg _)
  rw [hs.natDegree_eq_card_roots]
  clear hs
  revert h
  generalize f.roots = s
  intro h
  induction s using Multiset.induction_on with
  | empty => simp
  | cons a s ih =>
    rw [Multiset.map_cons, Multiset.prod_cons, norm_mul, Multiset.card_cons, pow_succ, mul_comm]
    refine mul_le_mul ?_ (ih fun z hz => h z (Multiset.mem_cons_of_mem hz)) (pow_nonneg (by linarith) _) (norm_nonneg _)
    have h1 := h a (Multiset.mem_cons_self a s)
    have h2 := norm_sub_norm_le z a
    linarith

theorem exists_root_bdf7 : ∃ z : ℂ, 1 < ‖z‖ ∧ bdf7.eval z = 0 := by
  by_contra hcon
  push Not at hcon
  have hr : ∀ z ∈ bdf7.roots, ‖z‖ ≤ 1 := by
    intro z hz
    by_contra h
    exact hcon z (not_le.mp h) (isRoot_of_mem_roots hz)
  obtain ⟨z, hz⟩ : ∃ z : ℂ, z = ⟨4800287866333 / 62500000000000, 1019328794660661 / 1000000000000000⟩ := ⟨_, rfl⟩
  have hn : (1022 / 1000 : ℝ) ≤ ‖z‖ := by
    rw [Complex.norm_def, hz]
    refine Real.le_sqrt_of_sq_le ?_
    norm_num [Complex.normSq_apply]
  have h1 := le_of_roots hr (z := z) (by linarith)
  rw [bdf7_lead, bdf7_degree] at h1
  have h2 : (22 / 1000 : ℝ) ^ 7 ≤ (‖z‖ - 1) ^ 7 := pow_le_pow_left₀ (by norm_num) (by linarith) 7
  have h3 : ‖(363 / 140 : ℂ)‖ = 363 / 140 := by simp
  rw [h3] at h1
  have h4 := Complex.norm_le_abs_re_add_abs_im (bdf7.eval z)
  have h5 : bdf7.eval z = ((((((363 / 140 * z + -7) * z + 21 / 2) * z + -35 / 3) * z + 35 / 4) * z + -21 / 5) * z + 7 / 6) * z +
      -1 / 7 := by
    simp only [bdf7, eval_add, eval_mul, eval_C, eval_pow, eval_X]
    ring
  have hre : |(bdf7.eval z).re| ≤ 1 / 10 ^ 14 := by
    rw [h5, hz, abs_le]
    constructor <;> norm_num
  have him : |(bdf7.eval z).im| ≤ 1 / 10 ^ 14 := by
    rw [h5, hz, abs_le]
    constructor <;> norm_num
  have h6 : (22 / 1000 : ℝ) ^ 7 * (363 / 140) ≤ 1 / 10 ^ 14 + 1 / 10 ^ 14 := by nlinarith
  norm_num at h6

/-- The recurrence of order 7 has solutions that grow without bound. -/
theorem bdf7_unstable {b : Fin (7 + 1) → ℝ} (hb : bdfkCoeffs 7 = some b) :
    ∃ z : ℂ, 1 < ‖z‖ ∧ ∀ n : ℕ, ∑ i : Fin (7 + 1), (b i : ℂ) * z ^ (n + i) = 0 := by
  obtain ⟨z, hz, h0⟩ := exists_root_bdf7
  refine ⟨z, hz, fun n => ?_⟩
  have hv := bdf_values_7 hb
  have e : ∑ i : Fin (7 + 1), (b i : ℂ) * z ^ (n + i) = z ^ n * bdf7.eval z := by
    simp only [hv, Fin.sum_univ_succ, bdf7]
    simp
    ring
  rw [e, h0, mul_zero]

end Verif.NS
