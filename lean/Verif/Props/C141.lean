import Verif.Model.IntFloat
import Verif.Lemmas.ExchangeFloat
import Verif.Props.C19_C21
import Mathlib.Algebra.Order.Floor.Semifield

/-! C141: sizes and numbers of steps that are computed in floating point.

The number of points per axis of `create` (C141_create), the grid size of the spectrum (C141_sqrt) and the number of patches
(C141_patches) come out right. The numbers of steps can be one too small when the epochs are a decimal fraction
(C141_violated); C141_steps_partial says when they are not, and C141_default that they are right for the configuration in the
repository. -/

namespace Verif.Core

/-- Rounding does not cross an integer from above. -/
theorem flBin_ge_int {p : ℕ} {x : ℚ} (hx0 : 0 < x) (hx : x < 2 ^ p) {k : ℤ} (hk : k ≤ x) : (k : ℚ) ≤ flBin p x := by
  have hu := ulp_pos p x
  have hlog : Int.log 2 |x| < p := by
    have h := Int.zpow_log_le_self (b := 2) (r := |x|) (by norm_num) (abs_pos.mpr hx0.ne')
    rw [abs_of_pos hx0] at h ⊢
    push_cast at h
    have : (2 : ℚ) ^ Int.log 2 x < 2 ^ (p : ℤ) := by rw [zpow_natCast]; exact lt_of_le_of_lt h hx
    exact (zpow_lt_zpow_iff_right₀ (by norm_num)).mp this
  obtain ⟨r, hr⟩ : ∃ r : ℕ, Int.log 2 |x| - p + 1 = -(r : ℤ) := ⟨(-(Int.log 2 |x| - p + 1)).toNat, by omega⟩
  have hulp : ulp p x * 2 ^ r = 1 := by
    unfold ulp
    rw [hr, zpow_neg, zpow_natCast, inv_mul_cancel₀ (by positivity)]
  have hkm : (k : ℚ) = ((k * 2 ^ r : ℤ) : ℚ) * ulp p x := by
    push_cast
    rw [mul_assoc, mul_comm _ (ulp p x), hulp, mul_one]
  have hfl : (k * 2 ^ r : ℤ) ≤ roundEven (x / ulp p x) := by
    have h1 : ((k * 2 ^ r : ℤ) : ℚ) ≤ x / ulp p x := by rw [le_div_iff₀ hu, ← hkm]; exact hk
    have h2 : (k * 2 ^ r : ℤ) ≤ ⌊x / ulp p x⌋ := Int.le_floor.mpr h1
    have h3 : ⌊x / ulp p x⌋ ≤ roundEven (x / ulp p x) := by
      unfold roundEven
      split_ifs
      · exact le_rfl
      · omega
      · rw [round_eq]
        exact Int.floor_le_floor (by linarith)
    exact h2.trans h3
  unfold flBin
  rw [hkm]
  exact mul_le_mul_of_nonneg_right (by exact_mod_cast hfl) hu.le

/-- `int` of a rounded quotient of integers is the integer quotient as long as the dividend fits into the mantissa. -/
theorem floor_flBin_div {p a b : ℕ} (hb : 0 < b) (ha : a < 2 ^ p) : ⌊flBin p ((a : ℚ) / b)⌋₊ = a / b := by
  have hb' : (0 : ℚ) < b := by exact_mod_cast hb
  have hb1 : (1 : ℚ) ≤ b := by exact_mod_cast hb
  rcases Nat.eq_zero_or_pos a with rfl | ha0
  · have := flBin_rel p 0
    simp at this
    simp [this]
  have ha' : (0 : ℚ) < a := by exact_mod_cast ha0
  have hx0 : (0 : ℚ) < a / b := by positivity
  have haq : (a : ℚ) < 2 ^ p := by exact_mod_cast ha
  have hx : (a : ℚ) / b < 2 ^ p := lt_of_le_of_lt (div_le_self ha'.le hb1) haq
  have hk : ((a / b : ℕ) : ℚ) ≤ a / b := Nat.cast_div_le
  have h1 := flBin_ge_int hx0 hx (k := ((a / b : ℕ) : ℤ)) (by exact_mod_cast hk)
  have h1' : ((a / b : ℕ) : ℚ) ≤ flBin p ((a : ℚ) / b) := by exact_mod_cast h1
  rw [Nat.floor_eq_iff ((Nat.cast_nonneg _).trans h1')]
  refine ⟨h1', ?_⟩
  have h2 := (abs_le.mp (flBin_rel p ((a : ℚ) / b))).2
  rw [abs_of_pos hx0] at h2
  have h3 : a + 1 ≤ (a / b + 1) * b := by
    have := Nat.div_add_mod a b
    have := Nat.mod_lt a hb
    nlinarith
  have h3' : (a : ℚ) + 1 ≤ ((a / b : ℕ) + 1) * b := by exact_mod_cast h3
  have h4 : (1 / 2 : ℚ) ^ p * a < 1 := by
    rw [div_pow, one_pow, div_mul_eq_mul_div, one_mul, div_lt_one (by positivity)]; exact haq
  have h5 : flBin p ((a : ℚ) / b) ≤ (a + (1 / 2) ^ p * a) / b := by
    have : ((a : ℚ) + (1 / 2) ^ p * a) / b = a / b + (1 / 2) ^ p * (a / b) := by ring
    rw [this]; linarith
  refine lt_of_le_of_lt h5 ?_
  rw [div_lt_iff₀ hb']
  linarith

/-- `pyRound` of a number close to an integer. -/
theorem pyRound_near {x : ℝ} {m : ℕ} (h : |x - m| < 1 / 2) : pyRound x = m := by
  rw [abs_lt] at h
  have hf := Int.floor_le x
  have hf2 := Int.lt_floor_add_one x
  have hfr := Int.self_sub_floor x
  have hc : ⌊x⌋ = (m : ℤ) ∨ ⌊x⌋ = (m : ℤ) - 1 := by
    have h1 : ⌊x⌋ < (m : ℤ) + 1 := by rw [Int.floor_lt]; push_cast; linarith
    have h2 : (m : ℤ) - 1 ≤ ⌊x⌋ := by rw [Int.le_floor]; push_cast; linarith
    omega
  unfold pyRound
  rcases hc with hc | hc
  · rw [if_pos]
    · exact hc
    · rw [← hfr, hc]; push_cast; linarith
  · have : (1 : ℝ) / 2 < Int.fract x := by rw [← hfr, hc]; push_cast; linarith
    rw [if_neg (by linarith), if_pos this, hc]; ring

/-- A number close to `m E`, where `E` is close to one. -/
theorem root_close {ε m E v : ℝ} (hε : 0 ≤ ε) (hm : 1 ≤ m) (hsmall : 9 * ε * m ^ 2 < 1)
    (hlo : 1 - 3 * ε * (m - 1) ≤ E) (hhi : E * (1 - 3 * ε * (m - 1)) ≤ 1) (h1 : -(ε * (m * E)) ≤ v - m * E)
    (h2 : v - m * E ≤ ε * (m * E)) : |v - m| < 1 / 2 := by
  have hm0 : 0 < m := by linarith
  obtain ⟨δ, hδ⟩ : ∃ δ, δ = ε * m := ⟨_, rfl⟩
  have hδ0 : 0 ≤ δ := by rw [hδ]; exact mul_nonneg hε hm0.le
  have hδ9 : 9 * (δ * m) < 1 := by rw [hδ]; linarith [(by ring : 9 * (ε * m * m) = 9 * ε * m ^ 2)]
  have hδm : δ ≤ δ * m := le_mul_of_one_le_right hδ0 hm
  have hεδ : ε ≤ δ := by rw [hδ]; exact le_mul_of_one_le_right hε hm
  have e1 : 1 - 3 * ε * (m - 1) = 1 - 3 * (δ - ε) := by rw [hδ]; ring
  rw [e1] at hlo hhi
  obtain ⟨η, hη⟩ : ∃ η, η = δ - ε := ⟨_, rfl⟩
  have hη0 : 0 ≤ η := by linarith
  have hη9 : 9 * η < 1 := by linarith
  rw [← hη] at hlo hhi
  have hE0 : 0 < E := by linarith
  have hE : E ≤ 1 + 9 / 2 * η := by
    have h3 : (1 + 9 / 2 * η) * (1 - 3 * η) ≥ 1 := by nlinarith
    exact le_of_mul_le_mul_right (hhi.trans h3) (by linarith)
  have hεE1 : E * (1 + ε) ≤ 1 + 9 / 2 * δ := by
    have h3 : E * ε ≤ 3 / 2 * ε := mul_le_mul_of_nonneg_right (by linarith) hε
    linarith
  have hεE2 : 1 - 3 * δ ≤ E * (1 - ε) := by
    have h3 : E * ε ≤ 3 / 2 * ε := mul_le_mul_of_nonneg_right (by linarith) hε
    linarith
  have a1 := mul_le_mul_of_nonneg_left hεE1 hm0.le
  have a2 := mul_le_mul_of_nonneg_left hεE2 hm0.le
  rw [abs_lt]
  constructor <;> nlinarith

/-- `Premesh.create` and `Mesh.create` find the number of points per axis although logarithm, division and exponential are
rounded, for up to about `1 / (3 √ε)` points per axis; sizes that are no powers are rejected whatever is computed. -/
theorem C141_create {flog fexp fl : ℝ → ℝ} {ε : ℝ} (hε : 0 ≤ ε) (hlog : ∀ x, |flog x - Real.log x| ≤ ε * |Real.log x|)
    (hexp : ∀ x, |fexp x - Real.exp x| ≤ ε * Real.exp x) (hfl : ∀ x, |fl x - x| ≤ ε * |x|) (n ndim : ℕ) (hd : 1 ≤ ndim)
    (order : Option ℤ) :
    (∀ m : ℕ, 1 ≤ m → n = m ^ ndim → 9 * ε * m ^ 2 < 1 →
      premeshCreateFl flog fexp fl n ndim order none = .ok (m, order.getD ((m : ℤ) - 1))) ∧
    ((∀ m : ℕ, n ≠ m ^ ndim) → premeshCreateFl flog fexp fl n ndim order none = .error "ValueError") := by
  constructor
  · intro m hm hn hsmall
    have hm' : (1 : ℝ) ≤ m := by exact_mod_cast hm
    have hm0 : (0 : ℝ) < m := by linarith
    have hd' : (0 : ℝ) < ndim := by exact_mod_cast hd
    have hl0 : 0 ≤ Real.log m := Real.log_nonneg hm'
    have hlm : Real.log m ≤ m - 1 := Real.log_le_sub_one_of_pos hm0
    have hε1 : 9 * ε * m < 1 := by nlinarith [mul_nonneg hε hm0.le]
    have hε2 : 9 * ε < 1 := by nlinarith
    have hL : Real.log (n : ℝ) = ndim * Real.log m := by rw [hn, Nat.cast_pow, Real.log_pow]
    have h1 : |flog n / ndim - Real.log m| ≤ ε * Real.log m := by
      have h := hlog n
      rw [hL, abs_of_nonneg (mul_nonneg hd'.le hl0)] at h
      have e : flog n / ndim - Real.log m = (flog n - ndim * Real.log m) / ndim := by field_simp
      rw [e, abs_div, abs_of_pos hd', div_le_iff₀ hd']
      linarith
    obtain ⟨y, hy⟩ : ∃ y, y = fl (flog n / ndim) := ⟨_, rfl⟩
    have h2 : |y - Real.log m| ≤ 3 * ε * Real.log m := by
      have h := hfl (flog n / ndim)
      rw [← hy] at h
      have ha : |flog n / ndim| ≤ (1 + ε) * Real.log m := by
        have := abs_add_le (flog n / ndim - Real.log m) (Real.log m)
        rw [sub_add_cancel, abs_of_nonneg hl0] at this
        linarith
      have := abs_add_le (y - flog n / ndim) (flog n / ndim - Real.log m)
      rw [sub_add_sub_cancel] at this
      have hεL : 0 ≤ ε * Real.log m := mul_nonneg hε hl0
      nlinarith [mul_le_mul_of_nonneg_left ha hε]
    obtain ⟨z, hz⟩ : ∃ z, z = y - Real.log m := ⟨_, rfl⟩
    rw [← hz] at h2
    have h2' : |z| ≤ 3 * ε * (m - 1) := h2.trans (mul_le_mul_of_nonneg_left hlm (by linarith))
    rw [abs_le] at h2'
    have hey : Real.exp y = m * Real.exp z := by
      rw [hz, Real.exp_sub, Real.exp_log hm0]; field_simp
    -- the exponential of the small error
    have hzlo : 1 - 3 * ε * (m - 1) ≤ Real.exp z := by
      have := Real.add_one_le_exp z
      linarith
    have hw : 0 < 1 - 3 * ε * (m - 1) := by nlinarith
    have hzhi : Real.exp z * (1 - 3 * ε * (m - 1)) ≤ 1 := by
      have h3 := Real.add_one_le_exp (-z)
      have h4 : 1 - 3 * ε * (m - 1) ≤ Real.exp (-z) := by linarith
      calc Real.exp z * (1 - 3 * ε * (m - 1)) ≤ Real.exp z * Real.exp (-z) :=
            mul_le_mul_of_nonneg_left h4 (Real.exp_pos z).le
        _ = 1 := by rw [← Real.exp_add, add_neg_cancel, Real.exp_zero]
    have h5 := hexp y
    rw [hey] at h5
    obtain ⟨E, hE⟩ : ∃ E, E = Real.exp z := ⟨_, rfl⟩
    rw [← hE] at h5 hzlo hzhi
    have hE0 : 0 < E := by linarith
    rw [abs_le] at h5
    obtain ⟨v, hv⟩ : ∃ v, v = fexp y := ⟨_, rfl⟩
    rw [← hv] at h5
    have hclose : |v - m| < 1 / 2 := root_close hε hm' hsmall hzlo hzhi h5.1 h5.2
    have hpts : (pyRound (fexp (fl (flog n / ndim)))).toNat = m := by
      rw [← hy, ← hv, pyRound_near hclose]; simp
    unfold premeshCreateFl
    simp only [hpts]
    rw [if_neg (by simpa using hn)]
    cases order <;> rfl
  · intro h
    unfold premeshCreateFl
    simp only
    rw [if_pos (h _)]

/-- In `float64` with functions accurate to the last bit: a million points per axis are still found. -/
example : 9 * ((1 / 2 : ℝ) ^ 52) * ((10 ^ 6 : ℕ) : ℝ) ^ 2 < 1 := by norm_num

end Verif.Core

namespace Verif.Niles

open Verif.Core

/-- The grid size of the spectrum is the integer square root of the number of nodes, if the square root is rounded with
relative error `ε` and not below an integer that the exact root reaches. -/
theorem C141_sqrt {fl : ℝ → ℝ} {ε : ℝ} (hε : 0 ≤ ε) (hfl : ∀ x, |fl x - x| ≤ ε * |x|) (numNodes : ℕ)
    (hint : ∀ k : ℕ, (k : ℝ) ≤ Real.sqrt numNodes → (k : ℝ) ≤ fl (Real.sqrt numNodes)) (hsmall : 3 * ε * numNodes < 1) :
    gridSizeFl fl numNodes = Nat.sqrt numNodes := by
  unfold gridSizeFl
  have hs0 := Real.sqrt_nonneg (numNodes : ℝ)
  have hk : ((Nat.sqrt numNodes : ℕ) : ℝ) ≤ Real.sqrt numNodes := Real.nat_sqrt_le_real_sqrt
  have h1 := hint _ hk
  rw [Nat.floor_eq_iff ((Nat.cast_nonneg _).trans h1)]
  refine ⟨h1, ?_⟩
  rcases Nat.eq_zero_or_pos numNodes with rfl | hN
  · have := hfl 0
    simp at this
    simp [this]
  have hN1 : (1 : ℝ) ≤ numNodes := by exact_mod_cast hN
  have hε3 : ε < 1 / 3 := by nlinarith
  have h2 := (abs_le.mp (hfl (Real.sqrt numNodes))).2
  rw [abs_of_nonneg hs0] at h2
  have h3 : fl (Real.sqrt numNodes) ≤ (1 + ε) * Real.sqrt numNodes := by linarith
  refine lt_of_le_of_lt h3 ?_
  apply lt_of_pow_lt_pow_left₀ 2 (by positivity)
  rw [mul_pow, Real.sq_sqrt (by positivity)]
  have h4 : numNodes + 1 ≤ (Nat.sqrt numNodes + 1) ^ 2 := by
    have := Nat.lt_succ_sqrt numNodes
    rw [pow_two]; exact this
  have h4' : (numNodes : ℝ) + 1 ≤ ((Nat.sqrt numNodes : ℕ) + 1) ^ 2 := by exact_mod_cast h4
  nlinarith

/-- A square root that always comes out too large by one in 2^53, and the 25^2 nodes of the configuration. -/
example : (∀ x : ℝ, |x * (1 + (1 / 2) ^ 53) - x| ≤ (1 / 2) ^ 53 * |x|) ∧
    (∀ k : ℕ, (k : ℝ) ≤ Real.sqrt ((25 ^ 2 : ℕ) : ℝ) → (k : ℝ) ≤ Real.sqrt ((25 ^ 2 : ℕ) : ℝ) * (1 + (1 / 2) ^ 53)) ∧
    3 * (1 / 2 : ℝ) ^ 53 * ((25 ^ 2 : ℕ) : ℝ) < 1 := by
  refine ⟨fun x => ?_, fun k hk => ?_, by norm_num⟩
  · have : x * (1 + (1 / 2) ^ 53) - x = (1 / 2) ^ 53 * x := by ring
    rw [this, abs_mul, abs_of_pos (by positivity)]
  · exact hk.trans (le_mul_of_one_le_right (Real.sqrt_nonneg _) (by norm_num))

/-- The number of patches of `make_multiscale_perm` is the integer quotient, divisible or not, for sizes below `2^p`. -/
theorem C141_patches {p size : ℕ} (patchSizes : List ℕ) (h0 : 0 < patchSizes.prod) (hsize : size < 2 ^ p) :
    patchCountFl (flBin p) size patchSizes = size / patchSizes.prod := floor_flBin_div h0 hsize

/-- The default arguments, and a size that is not divisible. -/
example : patchCountFl (flBin 53) 12 [2, 3] = 2 ∧ patchCountFl (flBin 53) 17 [2, 3] = 2 :=
  ⟨C141_patches _ (by decide) (by norm_num), C141_patches _ (by decide) (by norm_num)⟩

/-- Numbers of steps: for `a / b` epochs the result is the integral part of `steps a / b` or one less, and it is not less if
`a / b` is not rounded down or `b` does not divide `steps a`. Missing from the full claim: the remaining case
(`C141_violated`). -/
theorem C141_steps_partial {p s a b : ℕ} (hb : 0 < b) (hsmall : 3 * (s * a) < 2 ^ p) :
    (stepsFl (flBin p) s ((a : ℚ) / b) = s * a / b ∨ stepsFl (flBin p) s ((a : ℚ) / b) + 1 = s * a / b) ∧
    ((a : ℚ) / b ≤ flBin p ((a : ℚ) / b) → stepsFl (flBin p) s ((a : ℚ) / b) = s * a / b) ∧
    (¬ b ∣ s * a → stepsFl (flBin p) s ((a : ℚ) / b) = s * a / b) := by
  have hb' : (0 : ℚ) < b := by exact_mod_cast hb
  obtain ⟨ε, hεd⟩ : ∃ ε : ℚ, ε = (1 / 2) ^ p := ⟨_, rfl⟩
  have hε : 0 < ε := by rw [hεd]; positivity
  have hε1 : ε ≤ 1 := by rw [hεd]; exact pow_le_one₀ (by norm_num) (by norm_num)
  have hrel : ∀ x : ℚ, |flBin p x - x| ≤ ε * |x| := fun x => by rw [hεd]; exact flBin_rel p x
  obtain ⟨k, hk⟩ : ∃ k, k = s * a / b := ⟨_, rfl⟩
  rw [← hk]
  rcases Nat.eq_zero_or_pos (s * a) with h0 | hpos
  · have hf0 : flBin p 0 = 0 := by have := flBin_rel p 0; simpa using this
    have hk0 : k = 0 := by rw [hk, h0]; simp
    have : stepsFl (flBin p) s ((a : ℚ) / b) = 0 := by
      unfold stepsFl
      rcases Nat.mul_eq_zero.mp h0 with h | h
      · simp [h, hf0]
      · simp [h, hf0]
    simp [this, hk0]
  have hs0 : (0 : ℚ) < s := by exact_mod_cast Nat.pos_of_mul_pos_right hpos
  have ha0 : (0 : ℚ) < a := by exact_mod_cast Nat.pos_of_mul_pos_left hpos
  obtain ⟨e', he'⟩ : ∃ e', e' = flBin p ((a : ℚ) / b) := ⟨_, rfl⟩
  have hx0 : (0 : ℚ) < (a : ℚ) / b := by positivity
  have h1 := hrel ((a : ℚ) / b)
  rw [← he', abs_of_pos hx0, abs_le] at h1
  have hsa : 3 * ((s : ℚ) * a) * ε < 1 := by
    rw [hεd, div_pow, one_pow, mul_one_div, div_lt_one (by positivity)]
    exact_mod_cast hsmall
  have hε3 : 3 * ε < 1 := by
    have : (1 : ℚ) ≤ s * a := by exact_mod_cast hpos
    nlinarith
  obtain ⟨q, hq⟩ : ∃ q : ℚ, q = s * a / b := ⟨_, rfl⟩
  have hqb : q * b = s * a := by rw [hq]; field_simp
  have hq0 : 0 < q := by rw [hq]; positivity
  have hsq : s * ((a : ℚ) / b) = q := by rw [hq]; ring
  have hp1 : q - ε * q ≤ s * e' := by
    have := mul_le_mul_of_nonneg_left (by linarith [h1.1] : (a : ℚ) / b - ε * (a / b) ≤ e') hs0.le
    rw [mul_sub, hsq] at this
    have e2 : (s : ℚ) * (ε * (a / b)) = ε * q := by rw [← hsq]; ring
    linarith
  have hp2 : s * e' ≤ q + ε * q := by
    have := mul_le_mul_of_nonneg_left (by linarith [h1.2] : e' ≤ (a : ℚ) / b + ε * (a / b)) hs0.le
    rw [mul_add, hsq] at this
    have e2 : (s : ℚ) * (ε * (a / b)) = ε * q := by rw [← hsq]; ring
    linarith
  have hse0 : 0 < s * e' := by nlinarith
  have h2 := hrel (s * e')
  rw [abs_of_pos hse0, abs_le] at h2
  obtain ⟨v, hv⟩ : ∃ v, v = flBin p (s * e') := ⟨_, rfl⟩
  rw [← hv] at h2
  have hfl : stepsFl (flBin p) s ((a : ℚ) / b) = ⌊v⌋.toNat := by
    unfold stepsFl
    rw [← he', hv]; norm_num
  -- integers around
  have hkle : (k : ℚ) ≤ q := by
    rw [hq, hk]
    have := @Nat.cast_div_le ℚ _ _ _ (s * a) b
    push_cast at this
    exact this
  have hklt : (s : ℚ) * a + 1 ≤ (k + 1) * b := by
    have h3 : s * a + 1 ≤ (s * a / b + 1) * b := by
      have := Nat.div_add_mod (s * a) b
      have := Nat.mod_lt (s * a) hb
      nlinarith
    rw [hk]; exact_mod_cast h3
  have hεqb : 3 * (ε * q) * b < 1 := by
    have : 3 * (ε * q) * b = 3 * (q * b) * ε := by ring
    rw [this, hqb]; exact hsa
  have hb1 : (1 : ℚ) ≤ b := by exact_mod_cast hb
  have hεq : 0 < ε * q := by positivity
  have hεq1 : 3 * (ε * q) < 1 := by nlinarith
  have hup : v < k + 1 := by
    have h5 : v ≤ q + 3 * (ε * q) := by nlinarith [h2.2]
    refine lt_of_le_of_lt h5 ?_
    have : (q + 3 * (ε * q)) * b < (k + 1) * b := by linarith [hqb]
    exact lt_of_mul_lt_mul_right this hb'.le
  have hvlo : q - 3 * (ε * q) ≤ v := by nlinarith [h2.1]
  have hlo : (k : ℚ) - 1 ≤ v := by linarith
  have hfloor : ∀ j : ℕ, (j : ℚ) ≤ v → v < j + 1 → stepsFl (flBin p) s ((a : ℚ) / b) = j := fun j h3 h4 => by
    rw [hfl]
    have : ⌊v⌋ = (j : ℤ) := by rw [Int.floor_eq_iff]; exact ⟨by exact_mod_cast h3, by exact_mod_cast h4⟩
    rw [this]; simp
  have hlt2 : s * e' < 2 ^ p := by
    have h6 : q ≤ s * a := by rw [← hqb]; nlinarith
    have h7 : 3 * ((s : ℚ) * a) < 2 ^ p := by exact_mod_cast hsmall
    nlinarith
  have hreach : (k : ℚ) ≤ s * e' → (k : ℚ) ≤ v := fun h => by
    have := flBin_ge_int hse0 hlt2 (k := (k : ℤ)) (by exact_mod_cast h)
    rw [hv]; exact_mod_cast this
  refine ⟨?_, fun h => ?_, fun h => ?_⟩
  · by_cases h : (k : ℚ) ≤ v
    · exact Or.inl (hfloor k h hup)
    · right
      have hk1 : 1 ≤ k := by
        by_contra hc
        have hkz : k = 0 := by omega
        apply h
        apply hreach
        rw [hkz]
        exact_mod_cast hse0.le
      have := hfloor (k - 1) (by push_cast [hk1]; exact hlo) (by push_cast [hk1]; linarith)
      omega
  · apply hfloor k (hreach ?_) hup
    rw [← he'] at h
    calc (k : ℚ) ≤ q := hkle
      _ = s * (a / b) := hsq.symm
      _ ≤ s * e' := mul_le_mul_of_nonneg_left h hs0.le
  · apply hfloor k ?_ hup
    have h8 : k * b + 1 ≤ s * a := by
      have h9 := Nat.div_add_mod (s * a) b
      have h10 : (s * a) % b ≠ 0 := fun hc => h (Nat.dvd_of_mod_eq_zero hc)
      rw [← hk] at h9
      nlinarith [Nat.pos_of_ne_zero h10]
    have h8' : (k : ℚ) * b + 1 ≤ s * a := by exact_mod_cast h8
    refine le_trans ?_ hvlo
    have : (k : ℚ) * b ≤ (q - 3 * (ε * q)) * b := by linarith [hqb]
    exact le_of_mul_le_mul_right this hb'

/-- A tenth is rounded up in `float64`, so every tenth of an epoch is counted right. -/
example : ((1 : ℕ) : ℚ) / (10 : ℕ) ≤ flBin 53 (((1 : ℕ) : ℚ) / (10 : ℕ)) := by decide +kernel

/-- The epochs of the configuration in the repository (15, 1 and 0.1): the computed numbers of steps are the exact ones, for
every batch size, window and number of steps given. -/
theorem C141_default (c : TrainConfig) (h1 : c.numEpochs = 15) (h2 : c.checkpointEpochs = 1)
    (h3 : c.evalEveryEpochs = 1 / 10) (h4 : 0 ≤ c.stepsPerEpoch) (h5 : c.stepsPerEpoch < 10 ^ 12) :
    c.loopFl (flBin 53) = c.loop := by
  obtain ⟨s, hs⟩ : ∃ s : ℕ, c.stepsPerEpoch = s := ⟨c.stepsPerEpoch.toNat, by omega⟩
  have hs' : s < 10 ^ 12 := by omega
  have key : ∀ a b : ℕ, 0 < b → a ≤ 15 → ((a : ℚ) / b ≤ flBin 53 ((a : ℚ) / b)) →
      stepsFl (flBin 53) s ((a : ℚ) / b) = ⌊(s : ℚ) * (a / b)⌋.toNat := by
    intro a b hb ha h
    have := (C141_steps_partial (p := 53) (s := s) hb (by
      have : s * a ≤ 10 ^ 12 * 15 := Nat.mul_le_mul hs'.le ha
      omega)).2.1 h
    rw [this]
    have e : (s : ℚ) * (a / b) = ((s * a : ℕ) : ℚ) / (b : ℕ) := by push_cast; ring
    rw [e]
    rw [Int.floor_toNat, Nat.floor_div_eq_div]
  have k1 := key 15 1 (by norm_num) le_rfl (by decide +kernel)
  have k2 := key 1 1 (by norm_num) (by norm_num) (by decide +kernel)
  have k3 := key 1 10 (by norm_num) (by norm_num) (by decide +kernel)
  simp only [Nat.cast_ofNat, Nat.cast_one, div_one] at k1 k2 k3
  unfold TrainConfig.loopFl TrainConfig.loop
  rw [h1, h2, h3, hs, Int.cast_natCast, k1, k2, k3]

/-- The configuration of the repository (batches of 128, windows of 8 steps). -/
example : let c : TrainConfig := ⟨128, 8, 1, false, -1, 15, 1, 1 / 10, 10⟩
    0 ≤ c.stepsPerEpoch ∧ c.stepsPerEpoch < 10 ^ 12 ∧ c.loop.evalEverySteps = 119 := by decide +kernel

/-- 0.29 epochs of 100 steps are 29 steps, but 28 are taken; in `float64`, for a configuration with the data set of the
repository. -/
theorem C141_violated : let c : TrainConfig := ⟨1529, 8, 1, false, -1, 29 / 100, 1, 1 / 10, 10⟩
    c.stepsPerEpoch = 100 ∧ c.loop.numSteps = 29 ∧ (c.loopFl (flBin 53)).numSteps = 28 := by decide +kernel

end Verif.Niles
