import Verif.Props.C47
import Mathlib.Analysis.InnerProductSpace.Basic
import Mathlib.Analysis.SpecialFunctions.Exp

/-!
# C158: solutions of a dissipative SDE along the same noise approach each other

For a dissipative drift and additive noise two exact solutions along the same path approach each other exponentially. `C158_partial`:
so do the results of `sdeint`, at a rate that does not depend on the number of steps, when the step is at most `rate / L ^ 2`.
`C158_violated`: with fewer steps they move apart, since the drift is integrated by an explicit step (sdeint.py 118-120).
-/

namespace Verif.SDE

variable {E W : Type*} [NormedAddCommGroup E] [InnerProductSpace ℝ E]

/-- A drift that brings solutions together with the given rate, with Lipschitz constant `L`. -/
structure Dissipative (f : E → ℝ → E) (rate L : ℝ) : Prop where
  inner_le : ∀ x y t, inner ℝ (x - y) (f x t - f y t) ≤ -rate * ‖x - y‖ ^ 2
  lipschitz : ∀ x y t, ‖f x t - f y t‖ ≤ L * ‖x - y‖

theorem Dissipative.step {f : E → ℝ → E} {rate L : ℝ} (h : Dissipative f rate L) {δ : ℝ} (hδ : 0 ≤ δ) (x y : E) (t : ℝ) :
    ‖(x + δ • f x t) - (y + δ • f y t)‖ ^ 2 ≤ (1 - 2 * rate * δ + L ^ 2 * δ ^ 2) * ‖x - y‖ ^ 2 := by
  have e : (x + δ • f x t) - (y + δ • f y t) = (x - y) + δ • (f x t - f y t) := by
    rw [smul_sub]
    abel
  have h1 := mul_le_mul_of_nonneg_left (h.inner_le x y t) hδ
  have h2 : ‖f x t - f y t‖ ^ 2 ≤ (L * ‖x - y‖) ^ 2 := pow_le_pow_left₀ (norm_nonneg _) (h.lipschitz x y t) 2
  have h3 := mul_le_mul_of_nonneg_left h2 (sq_nonneg δ)
  rw [e, norm_add_sq_real, inner_smul_right, norm_smul, mul_pow, Real.norm_eq_abs, sq_abs]
  nlinarith

/-- Every bound of the factor of one step gives a bound for all output times. -/
theorem C158_step {f : E → ℝ → E} {rate L : ℝ} (hf : Dissipative f rate L) (g : ℝ → W → E) (y0 z0 : E) (t0 h : ℝ) (hh : 0 < h)
    (m n : ℕ) (hn : 0 < n) (hm : 0 < m) (dw : List W) (hl : dw.length = m * n)
    {c : ℝ} (hc : 0 ≤ c) (hq : 1 - 2 * rate * (h / n) + L ^ 2 * (h / n) ^ 2 ≤ c) :
    ∃ ys zs : ℕ → E,
      sdeint (fun y t w => (f y t, g t w)) y0 ((List.range (m + 1)).map (fun i : ℕ => t0 + i * h)) dw = .ok ((List.range m).map ys) ∧
      sdeint (fun y t w => (f y t, g t w)) z0 ((List.range (m + 1)).map (fun i : ℕ => t0 + i * h)) dw = .ok ((List.range m).map zs) ∧
      ∀ j < m, ‖ys j - zs j‖ ^ 2 ≤ c ^ ((j + 1) * n) * ‖y0 - z0‖ ^ 2 := by
  obtain ⟨X, hX0, hX, hXr⟩ := C47_uniform (fun y t w => (f y t, g t w)) y0 t0 h hh m n hn hm dw hl
  obtain ⟨Z, hZ0, hZ, hZr⟩ := C47_uniform (fun y t w => (f y t, g t w)) z0 t0 h hh m n hn hm dw hl
  have hδ : 0 ≤ h / n := by positivity
  have key : ∀ k ≤ m * n, ‖X k - Z k‖ ^ 2 ≤ c ^ k * ‖y0 - z0‖ ^ 2 := by
    intro k
    induction k with
    | zero => intro _; rw [hX0, hZ0, pow_zero, one_mul]
    | succ k ih =>
      intro hk
      have h1 := hX k (by omega)
      have h2 := hZ k (by omega)
      simp only at h1 h2
      rw [h1, h2, add_sub_add_right_eq_sub, pow_succ' c, mul_assoc]
      exact (hf.step hδ _ _ _).trans ((mul_le_mul_of_nonneg_right hq (sq_nonneg _)).trans
        (mul_le_mul_of_nonneg_left (ih (by omega)) hc))
  refine ⟨fun j => X ((j + 1) * n), fun j => Z ((j + 1) * n), hXr, hZr, fun j hj => key _ (Nat.mul_le_mul_right n hj)⟩

/-- Missing: the step must be at most `rate / L ^ 2` (`C158_violated`). Two results of `sdeint` with the same noise approach each
other exponentially in time, at a rate that does not depend on the number of steps. -/
theorem C158_partial {f : E → ℝ → E} {rate L : ℝ} (hf : Dissipative f rate L) (g : ℝ → W → E) (y0 z0 : E)
    (t0 h : ℝ) (hh : 0 < h) (m n : ℕ) (hn : 0 < n) (hm : 0 < m) (dw : List W) (hl : dw.length = m * n)
    (hstep : L ^ 2 * (h / n) ≤ rate) :
    ∃ ys zs : ℕ → E,
      sdeint (fun y t w => (f y t, g t w)) y0 ((List.range (m + 1)).map (fun i : ℕ => t0 + i * h)) dw = .ok ((List.range m).map ys) ∧
      sdeint (fun y t w => (f y t, g t w)) z0 ((List.range (m + 1)).map (fun i : ℕ => t0 + i * h)) dw = .ok ((List.range m).map zs) ∧
      ∀ j < m, ‖ys j - zs j‖ ^ 2 ≤ Real.exp (-rate * ((j + 1) * h)) * ‖y0 - z0‖ ^ 2 := by
  have hnR : (0 : ℝ) < n := by exact_mod_cast hn
  have hδ : 0 < h / n := by positivity
  have e1 : 1 - 2 * rate * (h / n) + L ^ 2 * (h / n) ^ 2 ≤ Real.exp (-rate * (h / n)) := by
    have := Real.add_one_le_exp (-rate * (h / n))
    nlinarith [mul_le_mul_of_nonneg_right hstep hδ.le]
  obtain ⟨ys, zs, h1, h2, h3⟩ := C158_step hf g y0 z0 t0 h hh m n hn hm dw hl (Real.exp_pos _).le e1
  refine ⟨ys, zs, h1, h2, fun j hj => (h3 j hj).trans (le_of_eq ?_)⟩
  rw [← Real.exp_nat_mul]
  congr 2
  push_cast
  field_simp

/-- For a drift that is minus the gradient of a convex function (`inner ... ≤ -(1 / L) * ...` is the theorem of Baillon and Haddad)
steps up to `2 / L` suffice for solutions not to move apart. By `C158_violated` this is sharp. -/
theorem C158_sharp {f : E → ℝ → E} {L : ℝ} (hL : 0 < L)
    (hf : ∀ x y t, inner ℝ (x - y) (f x t - f y t) ≤ -(1 / L) * ‖f x t - f y t‖ ^ 2) (g : ℝ → W → E) (y0 z0 : E)
    (t0 h : ℝ) (hh : 0 < h) (m n : ℕ) (hn : 0 < n) (hm : 0 < m) (dw : List W) (hl : dw.length = m * n) (hstep : h / n ≤ 2 / L) :
    ∃ ys zs : ℕ → E,
      sdeint (fun y t w => (f y t, g t w)) y0 ((List.range (m + 1)).map (fun i : ℕ => t0 + i * h)) dw = .ok ((List.range m).map ys) ∧
      sdeint (fun y t w => (f y t, g t w)) z0 ((List.range (m + 1)).map (fun i : ℕ => t0 + i * h)) dw = .ok ((List.range m).map zs) ∧
      ∀ j < m, ‖ys j - zs j‖ ≤ ‖y0 - z0‖ ∧ (0 < j → ‖ys j - zs j‖ ≤ ‖ys (j - 1) - zs (j - 1)‖) := by
  obtain ⟨X, hX0, hX, hXr⟩ := C47_uniform (fun y t w => (f y t, g t w)) y0 t0 h hh m n hn hm dw hl
  obtain ⟨Z, hZ0, hZ, hZr⟩ := C47_uniform (fun y t w => (f y t, g t w)) z0 t0 h hh m n hn hm dw hl
  have hδ : 0 ≤ h / n := by positivity
  have step : ∀ k < m * n, ‖X (k + 1) - Z (k + 1)‖ ≤ ‖X k - Z k‖ := by
    intro k hk
    have h1 := hX k hk
    have h2 := hZ k hk
    simp only at h1 h2
    rw [h1, h2, add_sub_add_right_eq_sub]
    set t := t0 + k * (h / n)
    have e : X k + (h / n) • f (X k) t - (Z k + (h / n) • f (Z k) t) = (X k - Z k) + (h / n) • (f (X k) t - f (Z k) t) := by
      rw [smul_sub]
      abel
    refine le_of_sq_le_sq ?_ (norm_nonneg _)
    rw [e, norm_add_sq_real, inner_smul_right, norm_smul, mul_pow, Real.norm_eq_abs, sq_abs]
    have h3 := mul_le_mul_of_nonneg_left (hf (X k) (Z k) t) hδ
    have h4 : (h / n) ^ 2 ≤ h / n * (2 / L) := by
      rw [sq]
      exact mul_le_mul_of_nonneg_left hstep hδ
    have h5 := mul_le_mul_of_nonneg_right h4 (sq_nonneg ‖f (X k) t - f (Z k) t‖)
    have h6 : h / n * (2 / L) = 2 * (h / n * (1 / L)) := by ring
    rw [h6] at h5
    nlinarith
  have mono : ∀ i k, i + k ≤ m * n → ‖X (i + k) - Z (i + k)‖ ≤ ‖X i - Z i‖ := by
    intro i k
    induction k with
    | zero => intro _; exact le_rfl
    | succ k ih => exact fun hk => (step (i + k) (by omega)).trans (ih (by omega))
  refine ⟨fun j => X ((j + 1) * n), fun j => Z ((j + 1) * n), hXr, hZr, fun j hj => ⟨?_, fun h0 => ?_⟩⟩
  · have := mono 0 ((j + 1) * n) (by rw [zero_add]; exact Nat.mul_le_mul_right n hj)
    rwa [zero_add, hX0, hZ0] at this
  · have e : (j + 1) * n = (j - 1 + 1) * n + n := by
      rw [Nat.sub_add_cancel h0]
      ring
    have hle : (j + 1) * n ≤ m * n := Nat.mul_le_mul_right n hj
    have := mono ((j - 1 + 1) * n) n (by omega)
    rwa [← e] at this

/-- The drift of `C158_violated` meets the hypothesis of `C158_sharp` with `L = rate`. -/
example (rate x y : ℝ) (hr : 0 < rate) :
    inner ℝ (x - y) (-rate * x - -rate * y) ≤ -(1 / rate) * ‖-rate * x - -rate * y‖ ^ 2 := by
  rw [show -rate * x - -rate * y = (-rate) • (x - y) by rw [smul_eq_mul]; ring, inner_smul_right, real_inner_self_eq_norm_sq,
    norm_smul, norm_neg, Real.norm_of_nonneg hr.le, mul_pow]
  field_simp
  exact le_rfl

/-- With few steps two solutions of a dissipative SDE move apart: every noise, every pair of initial states. -/
theorem C158_violated (n : ℕ) (hn : 0 < n) (rate : ℝ) (hr : 2 * n < rate) (dw : List ℝ) (hl : dw.length = n) (y0 z0 : ℝ)
    (hne : y0 ≠ z0) : Dissipative (E := ℝ) (fun y _ => -rate * y) rate rate ∧
      ∃ y1 z1 : ℝ, sdeint (fun (y : ℝ) (_ : ℝ) (w : ℝ) => (-rate * y, w)) y0 [0, 1] dw = .ok [y1] ∧
        sdeint (fun (y : ℝ) (_ : ℝ) (w : ℝ) => (-rate * y, w)) z0 [0, 1] dw = .ok [z1] ∧ |y0 - z0| < |y1 - z1| := by
  have hnR : (0 : ℝ) < n := by exact_mod_cast hn
  have hr0 : 0 < rate := by linarith
  refine ⟨⟨fun x y _ => ?_, fun x y _ => ?_⟩, ?_⟩
  · rw [show -rate * x - -rate * y = (-rate) • (x - y) by rw [smul_eq_mul]; ring, inner_smul_right, real_inner_self_eq_norm_sq]
  · rw [show -rate * x - -rate * y = (-rate) * (x - y) by ring, norm_mul, norm_neg, Real.norm_of_nonneg hr0.le]
  obtain ⟨X, hX0, hX, hXr⟩ := C47_uniform (fun (y : ℝ) (_ : ℝ) (w : ℝ) => (-rate * y, w)) y0 0 1 one_pos 1 n hn one_pos dw (by omega)
  obtain ⟨Z, hZ0, hZ, hZr⟩ := C47_uniform (fun (y : ℝ) (_ : ℝ) (w : ℝ) => (-rate * y, w)) z0 0 1 one_pos 1 n hn one_pos dw (by omega)
  have key : ∀ k ≤ 1 * n, X k - Z k = (1 - rate / n) ^ k * (y0 - z0) := by
    intro k
    induction k with
    | zero => intro _; rw [hX0, hZ0, pow_zero, one_mul]
    | succ k ih =>
      intro hk
      have h1 := hX k (by omega)
      have h2 := hZ k (by omega)
      simp only [smul_eq_mul] at h1 h2
      rw [h1, h2, pow_succ', mul_assoc, ← ih (by omega)]
      ring
  have el : (List.range (1 + 1)).map (fun i : ℕ => (0 : ℝ) + i * 1) = [0, 1] := by simp [List.range_succ]
  rw [el] at hXr hZr
  refine ⟨X n, Z n, by simpa using hXr, by simpa using hZr, ?_⟩
  rw [key n (by omega), abs_mul, abs_pow]
  have h1 : 1 < |1 - rate / n| := by
    rw [lt_abs]
    right
    have : 2 < rate / n := by rw [lt_div_iff₀ hnR]; exact hr
    linarith
  exact lt_mul_of_one_lt_left (abs_pos.mpr (sub_ne_zero.mpr hne)) (one_lt_pow₀ h1 hn.ne')

/-- A drift that pulls back to `cos t`, noise of changing size, two outputs and four steps each. -/
example (dw : List ℝ) (hl : dw.length = 2 * 4) : ∃ ys zs : ℕ → ℝ,
    sdeint (fun (y t w : ℝ) => (-y + Real.cos t, (1 + t) * w)) 5 ((List.range 3).map (fun i : ℕ => (0 : ℝ) + i * 1)) dw =
      .ok ((List.range 2).map ys) ∧
    sdeint (fun (y t w : ℝ) => (-y + Real.cos t, (1 + t) * w)) (-3) ((List.range 3).map (fun i : ℕ => (0 : ℝ) + i * 1)) dw =
      .ok ((List.range 2).map zs) ∧
    ∀ j < 2, ‖ys j - zs j‖ ^ 2 ≤ Real.exp (-1 * ((j + 1) * 1)) * ‖(5 : ℝ) - -3‖ ^ 2 := by
  have hd : Dissipative (E := ℝ) (fun y t => -y + Real.cos t) 1 1 := by
    refine ⟨fun x y _ => ?_, fun x y _ => ?_⟩
    · rw [show -x + Real.cos _ - (-y + Real.cos _) = (-1 : ℝ) • (x - y) by rw [smul_eq_mul]; ring, inner_smul_right,
        real_inner_self_eq_norm_sq]
    · rw [show -x + Real.cos _ - (-y + Real.cos _) = -(x - y) by ring, norm_neg, one_mul]
  exact C158_partial hd (fun t w => (1 + t) * w) 5 (-3) 0 1 one_pos 2 4 (by norm_num) (by norm_num) dw hl (by norm_num)

end Verif.SDE
