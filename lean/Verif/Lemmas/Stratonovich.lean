import Mathlib.Analysis.Calculus.MeanValue
import Mathlib.Analysis.Calculus.Deriv.Inv
import Mathlib.Analysis.Calculus.Deriv.Pow
import Mathlib.Analysis.SpecialFunctions.Log.Deriv
import Mathlib.Analysis.SpecialFunctions.Pow.Real
import Mathlib.Algebra.Order.BigOperators.Group.Finset
import Mathlib.Tactic.Positivity
import Mathlib.Tactic.Linarith
import Mathlib.Tactic.Ring
import Mathlib.Tactic.FieldSimp

/-! Taylor estimates for one Euler-Heun step in the coordinate in which the diffusion is constant. -/

namespace Verif.SDE

/-- First order Taylor estimate for a function with Lipschitz derivative. -/
theorem taylor_one {q r : ℝ → ℝ} {M : ℝ} (hq : ∀ x, HasDerivAt q (r x) x) (hr : ∀ x y, |r x - r y| ≤ M * |x - y|)
    (x s : ℝ) : |q (x + s) - q x - s * r x| ≤ M * s ^ 2 := by
  have hd : ∀ v ∈ Set.uIcc 0 s,
      HasDerivWithinAt (fun v => q (x + v) - v * r x) (r (x + v) - r x) (Set.uIcc 0 s) v := by
    intro v _
    have h1 : HasDerivAt (fun v => q (x + v)) (r (x + v)) v := (hq (x + v)).comp_const_add x v
    have h2 : HasDerivAt (fun v => v * r x) (1 * r x) v := (hasDerivAt_id v).mul_const (r x)
    rw [one_mul] at h2
    exact (h1.sub h2).hasDerivWithinAt
  have hM : 0 ≤ M := by
    have := (abs_nonneg _).trans (hr 1 0)
    simpa using this
  have hb : ∀ v ∈ Set.uIcc 0 s, ‖r (x + v) - r x‖ ≤ M * |s| := by
    intro v hv
    have h1 := hr (x + v) x
    rw [add_sub_cancel_left] at h1
    refine h1.trans (mul_le_mul_of_nonneg_left ?_ hM)
    have := Set.abs_sub_left_of_mem_uIcc hv
    simpa using this
  have := (convex_uIcc 0 s).norm_image_sub_le_of_norm_hasDerivWithin_le hd hb Set.left_mem_uIcc Set.right_mem_uIcc
  simp only [Real.norm_eq_abs, add_zero, zero_mul, sub_zero] at this
  calc _ = |q (x + s) - s * r x - q x| := by congr 1; ring
    _ ≤ M * |s| * |s| := this
    _ = M * s ^ 2 := by rw [mul_assoc, abs_mul_abs_self]; ring

/-- Second order Taylor estimate. -/
theorem taylor_two {φ q r : ℝ → ℝ} {M : ℝ} (hφ : ∀ x, HasDerivAt φ (q x) x) (hq : ∀ x, HasDerivAt q (r x) x)
    (hr : ∀ x y, |r x - r y| ≤ M * |x - y|) (x s : ℝ) :
    |φ (x + s) - φ x - s * q x - s ^ 2 / 2 * r x| ≤ M * |s| ^ 3 := by
  have hd : ∀ v ∈ Set.uIcc 0 s,
      HasDerivWithinAt (fun v => φ (x + v) - v * q x - v ^ 2 / 2 * r x) (q (x + v) - q x - v * r x) (Set.uIcc 0 s) v := by
    intro v _
    have h1 : HasDerivAt (fun v => φ (x + v)) (q (x + v)) v := (hφ (x + v)).comp_const_add x v
    have h2 : HasDerivAt (fun v => v * q x) (1 * q x) v := (hasDerivAt_id v).mul_const (q x)
    have h3 : HasDerivAt (fun v : ℝ => v ^ 2 / 2 * r x) (((2 : ℕ) : ℝ) * v ^ (2 - 1) / 2 * r x) v :=
      ((hasDerivAt_pow 2 v).div_const 2).mul_const (r x)
    have h4 := (h1.sub h2).sub h3
    have e : q (x + v) - q x - v * r x = q (x + v) - 1 * q x - ((2 : ℕ) : ℝ) * v ^ (2 - 1) / 2 * r x := by
      push_cast
      ring
    rw [e]
    exact h4.hasDerivWithinAt
  have hM : 0 ≤ M := by
    have := (abs_nonneg _).trans (hr 1 0)
    simpa using this
  have hb : ∀ v ∈ Set.uIcc 0 s, ‖q (x + v) - q x - v * r x‖ ≤ M * s ^ 2 := by
    intro v hv
    refine (taylor_one hq hr x v).trans (mul_le_mul_of_nonneg_left ?_ hM)
    have := Set.abs_sub_left_of_mem_uIcc hv
    exact sq_le_sq.mpr (by simpa using this)
  have := (convex_uIcc 0 s).norm_image_sub_le_of_norm_hasDerivWithin_le hd hb Set.left_mem_uIcc Set.right_mem_uIcc
  simp only [Real.norm_eq_abs, add_zero, zero_mul, sub_zero, ne_eq, OfNat.ofNat_ne_zero, not_false_eq_true, zero_pow,
    zero_div] at this
  calc _ = |φ (x + s) - s * q x - s ^ 2 / 2 * r x - φ x| := by congr 1; ring
    _ ≤ M * s ^ 2 * |s| := this
    _ = M * |s| ^ 3 := by rw [← sq_abs s]; ring

theorem cube_le {h d : ℝ} (h0 : 0 ≤ h) (h1 : h ≤ 1) (d0 : 0 ≤ d) (d1 : d ≤ 1) :
    (h + d) ^ 3 ≤ 6 * (h ^ 2 + h * d + d ^ 3) := by
  have p : 0 ≤ h * d := mul_nonneg h0 d0
  have c1 : h ^ 3 ≤ h ^ 2 := pow_le_pow_of_le_one h0 h1 (by norm_num)
  have c2 : h * (h * d) ≤ 1 * (h * d) := mul_le_mul_of_nonneg_right h1 p
  have c3 : h * d * d ≤ h * d * 1 := mul_le_mul_of_nonneg_left d1 p
  have a1 : 0 ≤ h ^ 2 := sq_nonneg h
  have a2 : 0 ≤ d ^ 3 := pow_nonneg d0 3
  have e : (h + d) ^ 3 = h ^ 3 + 3 * (h * (h * d)) + 3 * (h * d * d) + d ^ 3 := by ring
  rw [e]
  linarith

theorem prod_le {h d : ℝ} (h0 : 0 ≤ h) (d0 : 0 ≤ d) (d1 : d ≤ 1) :
    (h + d ^ 2) * (h + d) ≤ 2 * (h ^ 2 + h * d + d ^ 3) := by
  have p : 0 ≤ h * d := mul_nonneg h0 d0
  have c3 : h * d * d ≤ h * d * 1 := mul_le_mul_of_nonneg_left d1 p
  have a1 : 0 ≤ h ^ 2 := sq_nonneg h
  have a2 : 0 ≤ d ^ 3 := pow_nonneg d0 3
  have e : (h + d ^ 2) * (h + d) = h ^ 2 + h * d + h * d * d + d ^ 3 := by ring
  rw [e]
  linarith

/-- A diffusion coefficient with bounds: between `1 / K` and `K`, with derivative and Lipschitz constant of the
derivative at most `K`. -/
structure DiffusionBounds (K : ℝ) (g g' : ℝ → ℝ) : Prop where
  lower : ∀ x, 1 / K ≤ g x
  upper : ∀ x, g x ≤ K
  deriv : ∀ x, HasDerivAt g (g' x) x
  deriv_le : ∀ x, |g' x| ≤ K
  lipschitz : ∀ x y, |g' x - g' y| ≤ K * |x - y|

namespace DiffusionBounds

variable {K : ℝ} {g g' : ℝ → ℝ}

theorem pos (hK : 1 ≤ K) (B : DiffusionBounds K g g') (x : ℝ) : 0 < g x :=
  lt_of_lt_of_le (by positivity) (B.lower x)

theorem inv_le (hK : 1 ≤ K) (B : DiffusionBounds K g g') (x : ℝ) : 1 / g x ≤ K := by
  rw [div_le_iff₀ (B.pos hK x)]
  have := B.lower x
  rw [div_le_iff₀ (by linarith)] at this
  linarith

theorem g_lipschitz (B : DiffusionBounds K g g') (x y : ℝ) : |g x - g y| ≤ K * |x - y| := by
  have := convex_univ.norm_image_sub_le_of_norm_hasDerivWithin_le (f := g) (f' := g') (C := K) (s := Set.univ)
    (fun v _ => (B.deriv v).hasDerivWithinAt) (fun v _ => B.deriv_le v) (Set.mem_univ y) (Set.mem_univ x)
  simpa using this

/-- `(1 / g)'` is Lipschitz. -/
theorem inv_deriv_lipschitz (hK : 1 ≤ K) (B : DiffusionBounds K g g') (x y : ℝ) :
    |-(g' x) / g x ^ 2 - -(g' y) / g y ^ 2| ≤ 3 * K ^ 7 * |x - y| := by
  have hx := B.pos hK x
  have hy := B.pos hK y
  have ix := B.inv_le hK x
  have iy := B.inv_le hK y
  have e : -(g' x) / g x ^ 2 - -(g' y) / g y ^ 2 =
      -((g' x - g' y) * (1 / g x) ^ 2) + g' y * ((g x - g y) * (1 / g x) * (1 / g y)) * (1 / g x + 1 / g y) := by
    field_simp
    ring
  have px : 0 < 1 / g x := by positivity
  have py : 0 < 1 / g y := by positivity
  have h1 : |(g' x - g' y) * (1 / g x) ^ 2| ≤ K * |x - y| * K ^ 2 := by
    rw [abs_mul, abs_of_nonneg (by positivity : 0 ≤ (1 / g x) ^ 2)]
    exact mul_le_mul (B.lipschitz x y) (pow_le_pow_left₀ px.le ix 2) (by positivity) (by positivity)
  have h2 : |g' y * ((g x - g y) * (1 / g x) * (1 / g y)) * (1 / g x + 1 / g y)| ≤
      K * (K * |x - y| * K * K) * (K + K) := by
    rw [abs_mul, abs_mul, abs_mul, abs_mul, abs_of_pos px, abs_of_pos py, abs_of_pos (add_pos px py)]
    gcongr
    · exact B.deriv_le y
    · exact B.g_lipschitz x y
  rw [e]
  refine (abs_add_le _ _).trans ?_
  rw [abs_neg]
  have hk : K ^ 3 ≤ K ^ 7 := pow_le_pow_right₀ hK (by norm_num)
  have hk5 : K ^ 5 ≤ K ^ 7 := pow_le_pow_right₀ hK (by norm_num)
  have hxy := abs_nonneg (x - y)
  calc _ ≤ K * |x - y| * K ^ 2 + K * (K * |x - y| * K * K) * (K + K) := add_le_add h1 h2
    _ = (K ^ 3 + 2 * K ^ 5) * |x - y| := by ring
    _ ≤ 3 * K ^ 7 * |x - y| := mul_le_mul_of_nonneg_right (by linarith) hxy

set_option maxHeartbeats 1000000 in
/-- One Euler-Heun step in the coordinate `φ` with `φ' = 1 / g`: the increment of the noise is added exactly up to third
order, without a second order term. -/
theorem step (hK : 1 ≤ K) (B : DiffusionBounds K g g') {φ : ℝ → ℝ} (hφ : ∀ x, HasDerivAt φ (1 / g x) x)
    (y a d h : ℝ) (h0 : 0 ≤ h) (h1 : h ≤ 1) (ha : |a| ≤ K * h) (hd : |d| ≤ 1) :
    |φ (y + a + 1 / 2 * (g y * d + g (y + g y * d) * d)) - φ y - d - a / g y| ≤
      500 * K ^ 16 * (h ^ 2 + h * |d| + |d| ^ 3) := by
  have hg := B.pos hK y
  have hgK := B.upper y
  have ig := B.inv_le hK y
  have ig0 : 0 < 1 / g y := by positivity
  have hd0 := abs_nonneg d
  -- the remainder of the second evaluation of the diffusion
  set ρ := g (y + g y * d) - g y - g y * d * g' y with hρdef
  have hρ : |ρ| ≤ K ^ 3 * |d| ^ 2 := by
    have := taylor_one B.deriv B.lipschitz y (g y * d)
    refine this.trans ?_
    rw [mul_pow, ← sq_abs d]
    have : g y ^ 2 ≤ K ^ 2 := pow_le_pow_left₀ hg.le hgK 2
    calc _ = K * g y ^ 2 * |d| ^ 2 := by ring
      _ ≤ K * K ^ 2 * |d| ^ 2 := by gcongr
      _ = _ := by ring
  set ρ2 := 1 / 2 * d * ρ with hρ2def
  have hρ2 : |ρ2| ≤ K ^ 3 * |d| ^ 3 := by
    rw [hρ2def, abs_mul, abs_mul, abs_of_pos (by norm_num : (0 : ℝ) < 1 / 2)]
    have := mul_le_mul_of_nonneg_left hρ hd0
    have hp : 0 ≤ K ^ 3 * |d| ^ 3 := by positivity
    nlinarith
  set δ := a + 1 / 2 * (g y * d + g (y + g y * d) * d) with hδdef
  have hδ : δ = a + g y * d + 1 / 2 * (g y * g' y * d ^ 2) + ρ2 := by
    rw [hδdef, hρ2def, hρdef]; ring
  have hK3 : (1 : ℝ) ≤ K ^ 3 := one_le_pow₀ hK
  -- sizes
  have hdiff : |δ - g y * d| ≤ 2 * K ^ 3 * (h + |d| ^ 2) := by
    have e : δ - g y * d = a + 1 / 2 * (g y * g' y * d ^ 2) + ρ2 := by rw [hδ]; ring
    rw [e]
    have s1 : |1 / 2 * (g y * g' y * d ^ 2)| ≤ 1 / 2 * (K * K * |d| ^ 2) := by
      rw [abs_mul, abs_mul, abs_mul, abs_of_pos (by norm_num : (0 : ℝ) < 1 / 2), abs_of_pos hg, abs_pow]
      gcongr
      exact B.deriv_le y
    have s2 : K ^ 3 * |d| ^ 3 ≤ K ^ 3 * |d| ^ 2 :=
      mul_le_mul_of_nonneg_left (pow_le_pow_of_le_one hd0 hd (by norm_num)) (by positivity)
    have s3 : K * h ≤ K ^ 3 * h := mul_le_mul_of_nonneg_right (by nlinarith [sq_nonneg (K - 1)]) h0
    have s4 : K * K * |d| ^ 2 ≤ K ^ 3 * |d| ^ 2 := mul_le_mul_of_nonneg_right (by nlinarith) (by positivity)
    have := (abs_add_le (a + 1 / 2 * (g y * g' y * d ^ 2)) ρ2).trans (add_le_add_left (abs_add_le _ _) _)
    have hp : 0 ≤ K ^ 3 * h := by positivity
    have hq : 0 ≤ K ^ 3 * |d| ^ 2 := by positivity
    linarith
  have hd2 : |d| ^ 2 ≤ |d| := by nlinarith
  have hsize : |δ| ≤ 3 * K ^ 3 * (h + |d|) := by
    have e : |δ| ≤ |δ - g y * d| + |g y * d| := by
      have := abs_add_le (δ - g y * d) (g y * d)
      rwa [sub_add_cancel] at this
    have s1 : |g y * d| ≤ K ^ 3 * |d| := by
      rw [abs_mul, abs_of_pos hg]
      exact mul_le_mul_of_nonneg_right (by nlinarith [sq_nonneg (K - 1)]) hd0
    have s2 : 2 * K ^ 3 * (h + |d| ^ 2) ≤ 2 * K ^ 3 * (h + |d|) := by gcongr
    have hp : 0 ≤ K ^ 3 * h := by positivity
    nlinarith
  have hsum : |δ + g y * d| ≤ 4 * K ^ 3 * (h + |d|) := by
    have s1 : |g y * d| ≤ K ^ 3 * |d| := by
      rw [abs_mul, abs_of_pos hg]
      exact mul_le_mul_of_nonneg_right (by nlinarith [sq_nonneg (K - 1)]) hd0
    have := abs_add_le δ (g y * d)
    have hp : 0 ≤ K ^ 3 * h := by positivity
    nlinarith
  -- second order expansion of `φ`
  have hq : ∀ x, HasDerivAt (fun x => 1 / g x) (-(g' x) / g x ^ 2) x := by
    intro x
    have := (B.deriv x).fun_inv (B.pos hK x).ne'
    simpa only [one_div] using this
  have ht := taylor_two hφ hq (B.inv_deriv_lipschitz hK) y δ
  have hδ3 : |δ| ^ 3 ≤ 27 * K ^ 9 * (h + |d|) ^ 3 := by
    calc _ ≤ (3 * K ^ 3 * (h + |d|)) ^ 3 := pow_le_pow_left₀ (abs_nonneg _) hsize 3
      _ = _ := by ring
  set S := h ^ 2 + h * |d| + |d| ^ 3 with hS
  have hhd : 0 ≤ h * |d| := by positivity
  have hcube : (h + |d|) ^ 3 ≤ 6 * S := cube_le h0 h1 hd0 hd
  have hprod : (h + |d| ^ 2) * (h + |d|) ≤ 2 * S := prod_le h0 hd0 hd
  have hS0 : 0 ≤ S := by rw [hS]; positivity
  have hd3 : |d| ^ 3 ≤ S := by
    have : 0 ≤ h ^ 2 := sq_nonneg h
    linarith
  have ht' : |φ (y + δ) - φ y - δ * (1 / g y) - δ ^ 2 / 2 * (-(g' y) / g y ^ 2)| ≤ 486 * K ^ 16 * S := by
    refine ht.trans ?_
    calc 3 * K ^ 7 * |δ| ^ 3 ≤ 3 * K ^ 7 * (27 * K ^ 9 * (h + |d|) ^ 3) :=
          mul_le_mul_of_nonneg_left hδ3 (by positivity)
      _ ≤ 3 * K ^ 7 * (27 * K ^ 9 * (6 * S)) := by gcongr
      _ = _ := by ring
  have hrest : δ * (1 / g y) + δ ^ 2 / 2 * (-(g' y) / g y ^ 2) - d - a / g y =
      ρ2 * (1 / g y) - 1 / 2 * (g' y * (1 / g y) ^ 2 * ((δ - g y * d) * (δ + g y * d))) := by
    have e : δ * (1 / g y) = a / g y + d + 1 / 2 * (g' y * d ^ 2) + ρ2 * (1 / g y) := by
      rw [hδ]; field_simp
    rw [e]
    field_simp
    ring
  have r1 : |ρ2 * (1 / g y)| ≤ K ^ 4 * S := by
    rw [abs_mul, abs_of_pos ig0]
    calc _ ≤ K ^ 3 * |d| ^ 3 * K := mul_le_mul hρ2 ig ig0.le (by positivity)
      _ = K ^ 4 * |d| ^ 3 := by ring
      _ ≤ K ^ 4 * S := mul_le_mul_of_nonneg_left hd3 (by positivity)
  have r2 : |1 / 2 * (g' y * (1 / g y) ^ 2 * ((δ - g y * d) * (δ + g y * d)))| ≤ 8 * K ^ 9 * S := by
    rw [abs_mul, abs_mul, abs_mul, abs_mul, abs_of_pos (by norm_num : (0 : ℝ) < 1 / 2), abs_pow, abs_of_pos ig0]
    calc _ ≤ 1 / 2 * (K * K ^ 2 * (2 * K ^ 3 * (h + |d| ^ 2) * (4 * K ^ 3 * (h + |d|)))) := by
          gcongr
          exact B.deriv_le y
      _ = 4 * K ^ 9 * ((h + |d| ^ 2) * (h + |d|)) := by ring
      _ ≤ 4 * K ^ 9 * (2 * S) := mul_le_mul_of_nonneg_left hprod (by positivity)
      _ = _ := by ring
  have hy : y + a + 1 / 2 * (g y * d + g (y + g y * d) * d) = y + δ := by rw [hδdef]; ring
  rw [hy]
  have hsplit : φ (y + δ) - φ y - d - a / g y =
      (φ (y + δ) - φ y - δ * (1 / g y) - δ ^ 2 / 2 * (-(g' y) / g y ^ 2)) +
      (ρ2 * (1 / g y) - 1 / 2 * (g' y * (1 / g y) ^ 2 * ((δ - g y * d) * (δ + g y * d)))) := by
    rw [← hrest]; ring
  rw [hsplit]
  have k4 : K ^ 4 * S ≤ K ^ 16 * S := mul_le_mul_of_nonneg_right (pow_le_pow_right₀ hK (by norm_num)) hS0
  have k9 : K ^ 9 * S ≤ K ^ 16 * S := mul_le_mul_of_nonneg_right (pow_le_pow_right₀ hK (by norm_num)) hS0
  have hp : 0 ≤ K ^ 16 * S := by positivity
  have := abs_add_le (φ (y + δ) - φ y - δ * (1 / g y) - δ ^ 2 / 2 * (-(g' y) / g y ^ 2))
    (ρ2 * (1 / g y) - 1 / 2 * (g' y * (1 / g y) ^ 2 * ((δ - g y * d) * (δ + g y * d))))
  have := abs_sub (ρ2 * (1 / g y)) (1 / 2 * (g' y * (1 / g y) ^ 2 * ((δ - g y * d) * (δ + g y * d))))
  linarith

theorem expand (hK : 1 ≤ K) (B : DiffusionBounds K g g') {φ : ℝ → ℝ} (hφ : ∀ x, HasDerivAt φ (1 / g x) x)
    (x y : ℝ) : |x - y| ≤ K * |φ x - φ y| := by
  have key : ∀ a b : ℝ, a < b → b - a ≤ K * |φ b - φ a| := by
    intro a b hab
    obtain ⟨c, _, hc⟩ := exists_hasDerivAt_eq_slope φ (fun x => 1 / g x) hab
      (fun v _ => (hφ v).continuousAt.continuousWithinAt) (fun v _ => hφ v)
    have hba : 0 < b - a := sub_pos.mpr hab
    have hg := B.pos hK c
    have h1 : φ b - φ a = (b - a) / g c := by
      rw [eq_div_iff hba.ne'] at hc
      rw [← hc]; ring
    rw [h1, abs_of_pos (div_pos hba hg), mul_div_assoc', le_div_iff₀ hg]
    have := B.upper c
    nlinarith
  rcases lt_trichotomy x y with h | h | h
  · have := key x y h
    rw [abs_sub_comm x y, abs_of_pos (sub_pos.mpr h), abs_sub_comm (φ x)]
    exact this
  · rw [h]; simp
  · have := key y x h
    rw [abs_of_pos (sub_pos.mpr h)]
    exact this

theorem quot_lipschitz (hK : 1 ≤ K) (B : DiffusionBounds K g g') {a b x y e : ℝ} (hb : |b| ≤ K)
    (hab : |a - b| ≤ K * e) (hxy : |x - y| ≤ e) : |a / g x - b / g y| ≤ 2 * K ^ 4 * e := by
  have hx := B.pos hK x
  have hy := B.pos hK y
  have ix := B.inv_le hK x
  have iy := B.inv_le hK y
  have px : 0 < 1 / g x := by positivity
  have py : 0 < 1 / g y := by positivity
  have he : 0 ≤ e := (abs_nonneg _).trans hxy
  have e1 : a / g x - b / g y = (a - b) * (1 / g x) + b * ((g y - g x) * (1 / g x) * (1 / g y)) := by
    field_simp
    ring
  rw [e1]
  have h1 : |(a - b) * (1 / g x)| ≤ K * e * K := by
    rw [abs_mul, abs_of_pos px]
    exact mul_le_mul hab ix px.le (by positivity)
  have h2 : |b * ((g y - g x) * (1 / g x) * (1 / g y))| ≤ K * (K * e * K * K) := by
    rw [abs_mul, abs_mul, abs_mul, abs_of_pos px, abs_of_pos py]
    have := (B.g_lipschitz y x).trans (mul_le_mul_of_nonneg_left ((abs_sub_comm y x).trans_le hxy)
      (by linarith : 0 ≤ K))
    gcongr
  have hk : K * K ≤ K ^ 4 := by
    calc K * K = K ^ 2 := by ring
      _ ≤ K ^ 4 := pow_le_pow_right₀ hK (by norm_num)
  have := mul_le_mul_of_nonneg_right hk he
  calc _ ≤ |(a - b) * (1 / g x)| + |b * ((g y - g x) * (1 / g x) * (1 / g y))| := abs_add_le _ _
    _ ≤ K * e * K + K * (K * e * K * K) := add_le_add h1 h2
    _ = K * K * e + K ^ 4 * e := by ring
    _ ≤ _ := by linarith

end DiffusionBounds

/-- The discrete Gronwall inequality. -/
theorem gronwall_steps {c h l : ℝ} (hc : 0 ≤ c) (hh : 0 ≤ h) (hl : 0 ≤ l) (E : ℕ → ℝ) (n : ℕ) (h0 : E 0 ≤ 0)
    (hE : ∀ k < n, E (k + 1) ≤ (1 + c * h) * E k + l) :
    ∀ k ≤ n, E k ≤ Real.exp (c * (k * h)) * (k * l) := by
  intro k
  induction k with
  | zero => intro _; simpa using h0
  | succ k ih =>
    intro hk
    have h1 := hE k (by omega)
    have h2 := ih (by omega)
    have hch : 0 ≤ c * h := mul_nonneg hc hh
    have h3 : 1 + c * h ≤ Real.exp (c * h) := by
      have := Real.add_one_le_exp (c * h)
      linarith
    have hexp : Real.exp (c * ((k + 1 : ℕ) * h)) = Real.exp (c * h) * Real.exp (c * (k * h)) := by
      rw [← Real.exp_add]
      congr 1
      push_cast
      ring
    have h4 : (1 : ℝ) ≤ Real.exp (c * ((k + 1 : ℕ) * h)) := Real.one_le_exp (by positivity)
    have h5 : 0 ≤ Real.exp (c * (k * h)) * (k * l) := by positivity
    calc E (k + 1) ≤ (1 + c * h) * E k + l := h1
      _ ≤ (1 + c * h) * (Real.exp (c * (k * h)) * (k * l)) + l := by gcongr
      _ ≤ Real.exp (c * h) * (Real.exp (c * (k * h)) * (k * l)) + l := by
          have := mul_le_mul_of_nonneg_right h3 h5
          linarith
      _ = Real.exp (c * ((k + 1 : ℕ) * h)) * (k * l) + l := by rw [hexp]; ring
      _ ≤ Real.exp (c * ((k + 1 : ℕ) * h)) * (k * l) + Real.exp (c * ((k + 1 : ℕ) * h)) * l := by
          have := mul_le_mul_of_nonneg_right h4 hl
          linarith
      _ = _ := by push_cast; ring

end Verif.SDE
