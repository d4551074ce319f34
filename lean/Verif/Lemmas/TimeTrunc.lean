import Verif.Props.C36_C37
import Mathlib.Analysis.Calculus.Taylor
import Mathlib.Analysis.Calculus.IteratedDeriv.Lemmas

/-! Truncation errors of the BDF and EXT coefficients on smooth functions. -/

namespace Verif.NS

open Verif.Core Polynomial

/-- Taylor polynomials backwards in time, with a uniform bound of the remainder. -/
theorem taylor_back (n : ℕ) (g : ℝ → ℝ) (hg : ContDiff ℝ (n + 1) g) (lo hi : ℝ) :
    ∃ M, 0 ≤ M ∧ ∀ x0, x0 ≤ hi → ∃ P : ℝ[X], P.degree ≤ n ∧ P.eval 0 = g x0 ∧
      (1 ≤ n → (derivative P).eval 0 = -deriv g x0) ∧
      ∀ s, 0 ≤ s → lo ≤ x0 - s → |g (x0 - s) - P.eval s| ≤ M * s ^ (n + 1) := by
  have hcont : Continuous (iteratedDeriv (n + 1) g) := hg.continuous_iteratedDeriv (n + 1) (by exact_mod_cast le_rfl)
  obtain ⟨M, hM⟩ := (isCompact_Icc (a := lo - 1) (b := hi)).exists_bound_of_continuousOn hcont.continuousOn
  refine ⟨|M| / n.factorial, by positivity, fun x0 hx0 => ?_⟩
  obtain ⟨h, hh⟩ : ∃ h : ℝ → ℝ, h = fun s => g (x0 - s) := ⟨_, rfl⟩
  have hhc : ContDiff ℝ (n + 1) h := by
    rw [hh]
    exact hg.comp (contDiff_const.sub contDiff_id)
  have hder : ∀ i t, iteratedDeriv i h t = (-1 : ℝ) ^ i * iteratedDeriv i g (x0 - t) := by
    intro i t
    rw [hh, iteratedDeriv_comp_const_sub]
    rfl
  obtain ⟨P, hP⟩ : ∃ P : ℝ[X], P = ∑ i ∈ Finset.range (n + 1), C ((i.factorial : ℝ)⁻¹ * iteratedDeriv i h 0) * X ^ i := ⟨_, rfl⟩
  have heval : ∀ s, P.eval s = ∑ i ∈ Finset.range (n + 1), (i.factorial : ℝ)⁻¹ * iteratedDeriv i h 0 * s ^ i := by
    intro s
    rw [hP, eval_finsetSum]
    exact Finset.sum_congr rfl fun i _ => by simp
  refine ⟨P, ?_, ?_, ?_, ?_⟩
  · rw [hP]
    refine (degree_sum_le _ _).trans (Finset.sup_le fun i hi => ?_)
    have := Finset.mem_range.mp hi
    exact (degree_C_mul_X_pow_le _ _).trans (by exact_mod_cast (by omega : i ≤ n))
  · rw [heval, Finset.sum_eq_single 0]
    · simp [hder]
    · intro i _ hi
      simp [hi]
    · simp
  · intro hn
    rw [hP, derivative_sum, eval_finsetSum, Finset.sum_eq_single 1]
    · simp [hder]
    · intro i _ hi
      rcases Nat.eq_zero_or_pos i with rfl | hi0
      · simp
      · simp only [derivative_mul, derivative_C, zero_mul, derivative_X_pow, zero_add, eval_mul, eval_C, eval_pow, eval_X]
        rw [zero_pow (by omega)]
        simp
    · intro h1
      simp at h1
      omega
  · intro s hs hlo
    have hb : (0 : ℝ) < x0 - lo + 1 := by linarith
    have hmem : s ∈ Set.Icc (0 : ℝ) (x0 - lo + 1) := ⟨hs, by linarith⟩
    have hu : UniqueDiffOn ℝ (Set.Icc (0 : ℝ) (x0 - lo + 1)) := uniqueDiffOn_Icc hb
    have hw : ∀ i ≤ n + 1, ∀ y ∈ Set.Icc (0 : ℝ) (x0 - lo + 1),
        iteratedDerivWithin i h (Set.Icc (0 : ℝ) (x0 - lo + 1)) y = iteratedDeriv i h y := by
      intro i hi y hy
      refine iteratedDerivWithin_eq_iteratedDeriv hu (hhc.contDiffAt.of_le ?_) hy
      exact_mod_cast hi
    have key := taylor_mean_remainder_bound (f := h) (C := |M|) (n := n) hb.le hhc.contDiffOn hmem (by
      intro y hy
      rw [hw _ le_rfl y hy, hder, norm_mul, norm_pow, norm_neg, norm_one, one_pow, one_mul]
      exact (hM _ ⟨by linarith [hy.2], by linarith [hy.1]⟩).trans (le_abs_self M))
    rw [taylor_within_apply] at key
    have e1 : ∑ k ∈ Finset.range (n + 1), ((k.factorial : ℝ)⁻¹ * (s - 0) ^ k) •
        iteratedDerivWithin k h (Set.Icc (0 : ℝ) (x0 - lo + 1)) 0 = P.eval s := by
      rw [heval]
      refine Finset.sum_congr rfl fun i hi => ?_
      have := Finset.mem_range.mp hi
      rw [hw i (by omega) 0 ⟨le_rfl, hb.le⟩, sub_zero, smul_eq_mul]
      ring
    rw [e1, sub_zero, Real.norm_eq_abs, hh] at key
    calc |g (x0 - s) - P.eval s| ≤ |M| * s ^ (n + 1) / n.factorial := key
      _ = |M| / n.factorial * s ^ (n + 1) := by ring

/-- Truncation error of the BDF coefficients. -/
theorem bdf_trunc {k : ℕ} (hk : 1 ≤ k) {b : Fin (k + 1) → ℝ} (hb : bdfkCoeffs k = some b) (g : ℝ → ℝ)
    (hg : ContDiff ℝ (k + 1) g) (lo hi : ℝ) :
    ∃ M, 0 ≤ M ∧ ∀ t dt, 0 ≤ dt → lo ≤ t → t + k * dt ≤ hi →
      |∑ i : Fin (k + 1), b i * g (t + (i : ℕ) * dt) - dt * deriv g (t + k * dt)| ≤ M * dt ^ (k + 1) := by
  obtain ⟨b', hb', hex⟩ := C37_exact (K := ℝ) k hk
  rw [hb, Option.some.injEq] at hb'
  subst hb'
  obtain ⟨M, hM, h⟩ := taylor_back k g hg lo hi
  refine ⟨∑ i : Fin (k + 1), |b i| * (M * k ^ (k + 1)), by positivity, fun t dt hdt hlo hhi => ?_⟩
  obtain ⟨P, hdeg, _, hder, hrem⟩ := h _ hhi
  have e := hex P (k * dt) (-dt) hdeg
  rw [show (k : ℝ) * dt + k * -dt = 0 by ring, hder hk] at e
  have : ∑ i : Fin (k + 1), b i * g (t + (i : ℕ) * dt) - dt * deriv g (t + k * dt) =
      ∑ i : Fin (k + 1), b i * (g (t + k * dt - (k - (i : ℕ)) * dt) - P.eval (k * dt + (i : ℕ) * -dt)) := by
    simp only [mul_sub, Finset.sum_sub_distrib]
    rw [e]
    congr 1
    · refine Finset.sum_congr rfl fun i _ => ?_
      congr 2
      ring
    · ring
  rw [this, Finset.sum_mul]
  refine (Finset.abs_sum_le_sum_abs _ _).trans (Finset.sum_le_sum fun i _ => ?_)
  have hi : ((i : ℕ) : ℝ) ≤ k := by exact_mod_cast (Nat.lt_succ_iff.mp i.2)
  have hi0 : (0 : ℝ) ≤ ((i : ℕ) : ℝ) := by positivity
  have hs : 0 ≤ (k - (i : ℕ) : ℝ) * dt := mul_nonneg (by linarith) hdt
  rw [abs_mul, mul_assoc]
  refine mul_le_mul_of_nonneg_left ?_ (abs_nonneg _)
  have h1 := hrem ((k - (i : ℕ) : ℝ) * dt) hs (by nlinarith)
  rw [show (k : ℝ) * dt + (i : ℕ) * -dt = (k - (i : ℕ) : ℝ) * dt by ring]
  refine h1.trans ?_
  rw [mul_assoc, ← mul_pow]
  refine mul_le_mul_of_nonneg_left (pow_le_pow_left₀ hs ?_ _) hM
  nlinarith

/-- Truncation error of the EXT coefficients. -/
theorem ext_trunc {k : ℕ} (hk : 1 ≤ k) {c : Fin (k + 1) → ℝ} (hc : extkCoeffs k = some c) (g : ℝ → ℝ)
    (hg : ContDiff ℝ (k + 1) g) (lo hi : ℝ) :
    ∃ M, 0 ≤ M ∧ ∀ t dt, 0 ≤ dt → lo ≤ t → t + (k + 1) * dt ≤ hi →
      |∑ i : Fin (k + 1), c i * g (t + (i : ℕ) * dt) - g (t + (k + 1) * dt)| ≤ M * dt ^ (k + 1) := by
  obtain ⟨c', hc', hex⟩ := C36_exact (K := ℝ) k hk
  rw [hc, Option.some.injEq] at hc'
  subst hc'
  obtain ⟨M, hM, h⟩ := taylor_back k g hg lo hi
  refine ⟨∑ i : Fin (k + 1), |c i| * (M * (k + 1) ^ (k + 1)), by positivity, fun t dt hdt hlo hhi => ?_⟩
  obtain ⟨P, hdeg, h0, _, hrem⟩ := h _ hhi
  have e := hex P ((k + 1) * dt) (-dt) hdeg
  rw [show ((k : ℝ) + 1) * dt + (k + 1) * -dt = 0 by ring, h0] at e
  have : ∑ i : Fin (k + 1), c i * g (t + (i : ℕ) * dt) - g (t + (k + 1) * dt) =
      ∑ i : Fin (k + 1), c i * (g (t + (k + 1) * dt - (k + 1 - (i : ℕ)) * dt) - P.eval ((k + 1) * dt + (i : ℕ) * -dt)) := by
    simp only [mul_sub, Finset.sum_sub_distrib]
    rw [e]
    congr 1
    refine Finset.sum_congr rfl fun i _ => ?_
    congr 2
    ring
  rw [this, Finset.sum_mul]
  refine (Finset.abs_sum_le_sum_abs _ _).trans (Finset.sum_le_sum fun i _ => ?_)
  have hi : ((i : ℕ) : ℝ) ≤ k := by exact_mod_cast (Nat.lt_succ_iff.mp i.2)
  have hi0 : (0 : ℝ) ≤ ((i : ℕ) : ℝ) := by positivity
  have hs : 0 ≤ (k + 1 - (i : ℕ) : ℝ) * dt := mul_nonneg (by linarith) hdt
  rw [abs_mul, mul_assoc]
  refine mul_le_mul_of_nonneg_left ?_ (abs_nonneg _)
  have h1 := hrem ((k + 1 - (i : ℕ) : ℝ) * dt) hs (by nlinarith)
  rw [show ((k : ℝ) + 1) * dt + (i : ℕ) * -dt = (k + 1 - (i : ℕ) : ℝ) * dt by ring]
  refine h1.trans ?_
  rw [mul_assoc, ← mul_pow]
  refine mul_le_mul_of_nonneg_left (pow_le_pow_left₀ hs ?_ _) hM
  nlinarith

/-- Second differences. -/
theorem second_difference (g : ℝ → ℝ) (hg : ContDiff ℝ 2 g) (lo hi : ℝ) :
    ∃ M, 0 ≤ M ∧ ∀ t dt, 0 ≤ dt → lo ≤ t → t + 2 * dt ≤ hi →
      |g (t + 2 * dt) - 2 * g (t + dt) + g t| ≤ M * dt ^ 2 := by
  obtain ⟨c, hc, hex⟩ := C36_exact (K := ℝ) 1 le_rfl
  obtain ⟨M, hM, h⟩ := ext_trunc (k := 1) le_rfl hc g (by exact_mod_cast hg) lo hi
  refine ⟨M, hM, fun t dt hdt hlo hhi => ?_⟩
  have e0 := hex 1 0 1 (by rw [degree_one]; exact_mod_cast Nat.zero_le 1)
  have e1 := hex X 0 1 (by rw [degree_X]; exact_mod_cast le_rfl)
  have h1 := h t dt hdt hlo (by push_cast; linarith)
  rw [Fin.sum_univ_two] at e0 e1 h1
  norm_num at e0 e1 h1
  have hc0 : c 0 = -1 := by linarith
  rw [hc0, e1] at h1
  refine le_trans (le_of_eq ?_) h1
  rw [← abs_neg]
  congr 1
  ring

end Verif.NS
