import Verif.Lemmas.TimeSteppingFloat
import Verif.Props.C140

/-! C142: the coefficients of the time discretisation in floating point.

`extk_coeffs` and `bdfk_coeffs` (navier_stokes/navier_stokes.py 49-70) go through computed nodes, a barycentric quotient and a
differentiation matrix. Each coefficient is close to the exact one (C36, C37); the pressure extrapolation of the solver
(`extk_coeffs(k=1)`, line 423) is exact. What fails is the exact consistency: the coefficients of the difference quotient do
not add up to zero (`C142_violated`). -/

namespace Verif.NS

open Verif.Core Polynomial

variable {fl : ℚ → ℚ} {ε : ℚ}

theorem nc_basis_degree {k : ℕ} (hk : 1 ≤ k) (j : Fin (k + 1)) :
    (Lagrange.basis Finset.univ (ncNode (k + 1) : Fin (k + 1) → ℚ) j).degree < (k + 1 : ℕ) := by
  rw [Lagrange.degree_basis (ncNode_injective hk).injOn (Finset.mem_univ j)]
  simp only [Finset.card_univ, Fintype.card_fin]
  exact_mod_cast (by omega : k + 1 - 1 < k + 1)

theorem sum_nc_basis {k : ℕ} (hk : 1 ≤ k) (c : Fin (k + 1) → ℚ) (j : Fin (k + 1)) :
    ∑ i, c i * (Lagrange.basis Finset.univ (ncNode (k + 1) : Fin (k + 1) → ℚ) j).eval (ncNode (k + 1) i) = c j := by
  rw [Finset.sum_eq_single j]
  · rw [Lagrange.eval_basis_self (ncNode_injective hk).injOn (Finset.mem_univ j), mul_one]
  · intro i _ hi
    rw [Lagrange.eval_basis_of_ne (Ne.symm hi) (Finset.mem_univ i), mul_zero]
  · simp

theorem ext_basis {k : ℕ} (hk : 1 ≤ k) (j : Fin (k + 1)) :
    (Lagrange.basis Finset.univ (ncNode (k + 1) : Fin (k + 1) → ℚ) j).eval (1 + 2 / (k : ℚ)) =
      (-1) ^ (k - (j : ℕ)) * ((k + 1).choose j : ℚ) := by
  obtain ⟨c, hc, h⟩ := extk_exists (K := ℚ) k hk
  rw [← h _ (nc_basis_degree hk j), sum_nc_basis hk, C36_closed_form k c hc j]

theorem bdf_basis {k : ℕ} (hk : 1 ≤ k) {c : Fin (k + 1) → ℚ} (hc : bdfkCoeffs k = some c) (j : Fin (k + 1)) :
    (derivative (Lagrange.basis Finset.univ (ncNode (k + 1) : Fin (k + 1) → ℚ) j)).eval 1 * (2 / (k : ℚ)) = c j := by
  obtain ⟨c', hc', h⟩ := bdfk_exists (K := ℚ) k hk
  rw [hc, Option.some.injEq] at hc'
  subst hc'
  rw [← h _ (nc_basis_degree hk j), sum_nc_basis hk]

theorem ext_lebesgue {k : ℕ} (hk : 1 ≤ k) :
    ∑ j, |(Lagrange.basis Finset.univ (ncNode (k + 1) : Fin (k + 1) → ℚ) j).eval (1 + 2 / (k : ℚ))| = 2 ^ (k + 1) - 1 := by
  have h1 : ∀ j : Fin (k + 1), |(Lagrange.basis Finset.univ (ncNode (k + 1) : Fin (k + 1) → ℚ) j).eval (1 + 2 / (k : ℚ))| =
      (fun m : ℕ => (((k + 1).choose m : ℕ) : ℚ)) j := fun j => by
    rw [ext_basis hk, abs_mul, abs_pow, abs_neg, abs_one, one_pow, one_mul, abs_of_nonneg (by positivity)]
  rw [Finset.sum_congr rfl fun j _ => h1 j, Fin.sum_univ_eq_sum_range (fun m : ℕ => (((k + 1).choose m : ℕ) : ℚ)) (k + 1)]
  have h2 := Nat.sum_range_choose (k + 1)
  rw [Finset.sum_range_succ, Nat.choose_self] at h2
  have h3 : ((∑ m ∈ Finset.range (k + 1), (k + 1).choose m : ℕ) : ℚ) + 1 = 2 ^ (k + 1) := by exact_mod_cast h2
  push_cast at h3
  linarith

/-- Extrapolation: every computed coefficient is a number with a small relative error. -/
theorem C142_ext {k : ℕ} (hk : 1 ≤ k) (hε : 0 ≤ ε) (hfl : ∀ x, |fl x - x| ≤ ε * |x|)
    (hsmall : 2 * (((1 + ε) ^ (13 * k + 4) - 1) * (2 ^ (k + 1) - 1)) ≤ 1) (i : Fin (k + 1)) :
    ∃ v, extkCoeffsFl fl k i = .fin v ∧
      |v - (-1) ^ (k - (i : ℕ)) * ((k + 1).choose i : ℚ)| ≤
        ((1 + ε) ^ (12 * k + 4) * (1 + 2 * (((1 + ε) ^ (13 * k + 4) - 1) * (2 ^ (k + 1) - 1))) - 1) *
          ((k + 1).choose i : ℚ) := by
  have hk' : (1 : ℚ) ≤ k := by exact_mod_cast hk
  have hk0 : (k : ℚ) ≠ 0 := by linarith
  have h2k : (4 : ℚ) ≤ 2 ^ (k + 1) := by
    calc (4 : ℚ) = 2 ^ (1 + 1) := by norm_num
      _ ≤ 2 ^ (k + 1) := pow_le_pow_right₀ (by norm_num) (by omega)
  have hp1 : (1 : ℚ) ≤ (1 + ε) ^ (13 * k + 4) := one_le_pow₀ (by linarith)
  have hp : (1 + ε) ^ (13 * k + 4) - 1 ≤ 1 / 6 := by nlinarith
  have hmono : ∀ m, m ≤ 13 * k + 4 → (1 + ε) ^ m - 1 ≤ 1 / 6 := fun m hm => by
    have : (1 + ε) ^ m ≤ (1 + ε) ^ (13 * k + 4) := pow_le_pow_right₀ (by linarith) hm
    linarith
  have hε8 : ε ≤ 1 / 8 := by
    have h1 := hmono 2 (by omega)
    nlinarith
  have h2k' : (2 : ℚ) / k ≤ 2 := by rw [div_le_iff₀ (by linarith)]; linarith
  have h2k0 : (0 : ℚ) < 2 / k := by positivity
  obtain ⟨x', hx'⟩ : ∃ x', x' = fl (1 + fl (2 / (k : ℚ))) := ⟨_, rfl⟩
  have hxerr : |x' - (1 + 2 / (k : ℚ))| ≤ 6 * ε := by
    have h1 := hfl (2 / (k : ℚ))
    rw [abs_of_pos h2k0] at h1
    obtain ⟨b, hb⟩ : ∃ b, b = fl (2 / (k : ℚ)) := ⟨_, rfl⟩
    rw [← hb] at h1 hx'
    have h1' : |b - 2 / k| ≤ 2 * ε := by nlinarith
    have h2 := hfl (1 + b)
    have h3 : |1 + b| ≤ 3 + 2 * ε := by
      rw [abs_le] at h1' ⊢
      constructor <;> linarith
    have e : x' - (1 + 2 / (k : ℚ)) = (fl (1 + b) - (1 + b)) + (b - 2 / k) := by rw [hx']; ring
    rw [e]
    have h4 := abs_add_le (fl (1 + b) - (1 + b)) (b - 2 / k)
    have h5 := mul_le_mul_of_nonneg_left h3 hε
    nlinarith
  have hgap : ∀ j : Fin (k + 1), 2 / (k : ℚ) ≤ |(1 + 2 / (k : ℚ)) - ncNode (k + 1) j| := by
    intro j
    rw [ncNode_eq]
    have hj : ((j : ℕ) : ℚ) ≤ k := by exact_mod_cast Nat.lt_succ_iff.mp j.2
    have : ((j : ℕ) : ℚ) * (2 / k) ≤ 2 := by
      calc ((j : ℕ) : ℚ) * (2 / k) ≤ k * (2 / k) := mul_le_mul_of_nonneg_right hj h2k0.le
        _ = 2 := by field_simp
    refine le_trans ?_ (le_abs_self _)
    linarith
  have hx : ∀ j : Fin (k + 1), (1 + 2 / (k : ℚ)) ≠ ncNode (k + 1) j := fun j hj => by
    have := hgap j
    rw [← hj, sub_self, abs_zero] at this
    linarith
  have e1 : k + 1 + (2 * (6 * k + 1) + 1) = 13 * k + 4 := by ring
  have e2 : 2 * (6 * k + 1) + 2 = 12 * k + 4 := by ring
  have := evaluateFl_diff (r := 6 * k + 1) hε hfl (ncWeight (k + 1)) (ncNode (k + 1)) (linspaceFl fl k)
    (C32_newton_cotes_weights (k + 1)) (ncNode_injective hk) (1 + 2 / (k : ℚ)) x' hx
    (by have := hmono (6 * k + 1) (by omega); linarith)
    (fun j => diff_rel hε hfl hk hxerr (linspaceFl_error hε hε8 hfl hk j) (hgap j))
    (by rw [ext_lebesgue hk, e1]; exact hsmall) i
  rw [ext_lebesgue hk, e1, e2, ext_basis hk] at this
  obtain ⟨v, hv, herr⟩ := this
  refine ⟨v, by rw [extkCoeffsFl, ← hx']; exact hv, ?_⟩
  rw [abs_mul, abs_pow, abs_neg, abs_one, one_pow, one_mul, abs_of_nonneg (by positivity : (0 : ℚ) ≤ ((k + 1).choose i : ℚ))] at herr
  exact herr

/-- In `float64` the hypotheses hold for order three, and the bound is below `10^-11`. -/
example : 2 * (((1 + (1 / 2 : ℚ) ^ 53) ^ (13 * 3 + 4) - 1) * (2 ^ (3 + 1) - 1)) ≤ 1 ∧
    (1 + (1 / 2 : ℚ) ^ 53) ^ (12 * 3 + 4) * (1 + 2 * (((1 + (1 / 2 : ℚ) ^ 53) ^ (13 * 3 + 4) - 1) * (2 ^ (3 + 1) - 1))) - 1 ≤
      1 / 10 ^ 11 := by
  constructor <;> norm_num

theorem linspaceFl_last (k : ℕ) : linspaceFl fl k (Fin.last k) = 1 := by simp [linspaceFl]

/-- Computed differences of two nodes. -/
theorem linspaceFl_diff {k : ℕ} (hk : 1 ≤ k) (hε : 0 ≤ ε) (hε8 : ε ≤ 1 / 8) (hfl : ∀ x, |fl x - x| ≤ ε * |x|)
    {i j : Fin (k + 1)} (h : i ≠ j) :
    |fl (linspaceFl fl k i - linspaceFl fl k j) - (ncNode (k + 1) i - ncNode (k + 1) j)| ≤
      ((1 + ε) ^ (6 * k + 1) - 1) * |(ncNode (k + 1) i : ℚ) - ncNode (k + 1) j| :=
  diff_rel hε hfl hk (linspaceFl_error hε hε8 hfl hk i) (linspaceFl_error hε hε8 hfl hk j) (ncNode_gap hk h)

theorem linspaceFl_injective {k : ℕ} (hk : 1 ≤ k) (hε : 0 ≤ ε) (hε8 : ε ≤ 1 / 8) (hfl : ∀ x, |fl x - x| ≤ ε * |x|)
    (hr : (1 + ε) ^ (6 * k + 1) - 1 ≤ 1 / 2) : Function.Injective (linspaceFl fl k) := by
  intro i j hij
  by_contra hne
  have h := linspaceFl_diff hk hε hε8 hfl hne
  have hfl0 : fl 0 = 0 := by
    have := hfl 0
    simpa using this
  exact rel_ne (by linarith) (sub_ne_zero.mpr fun hc => hne (ncNode_injective hk hc)) h (by rw [hij, sub_self, hfl0])

/-- The computed row of the interpolation matrix at the last node is the exact one. -/
theorem bdf_row {k : ℕ} (hk : 1 ≤ k) (hε : 0 ≤ ε) (hε8 : ε ≤ 1 / 8) (hfl : ∀ x, |fl x - x| ≤ ε * |x|)
    (hr : (1 + ε) ^ (6 * k + 1) - 1 ≤ 1 / 2) (l : Fin (k + 1)) :
    evaluateFl fl (ncWeight (k + 1)) (linspaceFl fl k) 1 l = .fin (if l = Fin.last k then 1 else 0) := by
  have hfl0 : fl 0 = 0 := by
    have := hfl 0
    simpa using this
  have h := evaluateFl_node hfl0 (fun x hx => rel_ne (by linarith) hx (hfl x)) (ncWeight (k + 1)) (linspaceFl fl k)
    ((C32_newton_cotes_weights (K := ℚ) (k + 1)).ne_zero (ncNode_injective hk)) (linspaceFl_injective hk hε hε8 hfl hr)
    (Fin.last k) l
  rwa [linspaceFl_last] at h

/-- The algorithm with sums from the left is one of the possible results. -/
theorem bdfkCoeffsSeq_ok {k : ℕ} (hk : 1 ≤ k) (hε : 0 ≤ ε) (hε8 : ε ≤ 1 / 8) (hfl : ∀ x, |fl x - x| ≤ ε * |x|)
    (hr : (1 + ε) ^ (6 * k + 1) - 1 ≤ 1 / 2) : BdfkCoeffsFl fl k (bdfkCoeffsSeq fl k) := by
  refine ⟨_, _, fun i => ⟨fun j hij => if_neg hij, _, roundedSum_left (by simp), if_pos rfl⟩, fun l => ?_,
    fun j => ⟨_, roundedSum_left (by simp), rfl⟩⟩
  rw [bdf_row hk hε hε8 hfl hr l]
  rfl

/-- Rounding a number whose error is measured against `R`. -/
theorem near_fl (hε : 0 ≤ ε) (hfl : ∀ x, |fl x - x| ≤ ε * |x|) {a x v R : ℚ} (hx : |x| ≤ R) (h : |v - x| ≤ a * R) :
    |fl v - x| ≤ ((1 + ε) * (1 + a) - 1) * R := by
  have hv : |v| ≤ (1 + a) * R := by
    have := abs_add_le (v - x) x
    rw [sub_add_cancel] at this
    linarith
  have := abs_add_le (fl v - v) (v - x)
  rw [sub_add_sub_cancel] at this
  nlinarith [hfl v, mul_le_mul_of_nonneg_left hv hε]

theorem near_mul {a b x y v w R : ℚ} (ha : 0 ≤ a) (hR : |x| ≤ R) (h1 : |v - x| ≤ a * R) (h2 : |w - y| ≤ b * |y|) :
    |v * w - x * y| ≤ ((1 + a) * (1 + b) - 1) * (R * |y|) := by
  have hv : |v| ≤ (1 + a) * R := by
    have := abs_add_le (v - x) x
    rw [sub_add_cancel] at this
    linarith
  have hR0 : 0 ≤ R := (abs_nonneg x).trans hR
  have e : v * w - x * y = v * (w - y) + (v - x) * y := by ring
  rw [e]
  have := abs_add_le (v * (w - y)) ((v - x) * y)
  rw [abs_mul, abs_mul] at this
  have t1 : |v| * |w - y| ≤ ((1 + a) * R) * (b * |y|) :=
    mul_le_mul hv h2 (abs_nonneg _) (mul_nonneg (by linarith) hR0)
  have t2 := mul_le_mul_of_nonneg_right h1 (abs_nonneg y)
  nlinarith

/-- Backward differentiation: the computed coefficients are close to the exact ones, in the relative sense for those of the
past, and relative to the sum of these for the leading one; whatever the order of the sums. -/
theorem C142_bdf {k : ℕ} (hk : 1 ≤ k) (hε : 0 ≤ ε) (hε8 : ε ≤ 1 / 8) (hfl : ∀ x, |fl x - x| ≤ ε * |x|)
    (hid : ∀ x, fl (fl x) = fl x) (hr : (1 + ε) ^ (6 * k + 1) - 1 ≤ 1 / 2) (c c' : Fin (k + 1) → ℚ)
    (hc : bdfkCoeffs k = some c) (hc' : BdfkCoeffsFl fl k c') :
    (∀ j, j ≠ Fin.last k → |c' j - c j| ≤ ((1 + ε) ^ (12 * k + 7) - 1) * |c j|) ∧
    |c' (Fin.last k) - c (Fin.last k)| ≤
      ((1 + ε) ^ (13 * k + 8) - 1) * ∑ j ∈ Finset.univ.erase (Fin.last k), |c j| := by
  have hk' : (1 : ℚ) ≤ k := by exact_mod_cast hk
  have h2k0 : (0 : ℚ) < 2 / k := by positivity
  have hfl0 : fl 0 = 0 := by
    have := hfl 0
    simpa using this
  obtain ⟨L, hL⟩ : ∃ L, L = Fin.last k := ⟨_, rfl⟩
  rw [← hL]
  obtain ⟨D, M, hD, hM, hcj⟩ := hc'
  have hM1 : ∀ l, M l = if l = L then 1 else 0 := fun l => by
    have := (hM l).symm.trans (bdf_row hk hε hε8 hfl hr l)
    rw [hL]
    simpa using this
  -- each coefficient is one entry of the last row
  have hcD : ∀ j, c' j = fl (fl (D L j) * fl (2 / (k : ℚ))) := by
    intro j
    obtain ⟨s, hs, hcs⟩ := hcj j
    have hmem : ∀ x ∈ ((((List.finRange (k + 1)).map (fun l => fl (M l * D l j)) : List ℚ)) : Multiset ℚ),
        x = 0 ∨ x = fl (D L j) := by
      intro x hx
      rw [Multiset.mem_coe, List.mem_map] at hx
      obtain ⟨l, -, rfl⟩ := hx
      rw [hM1]
      by_cases hl : l = L
      · subst hl; right; rw [if_pos rfl, one_mul]
      · left; rw [if_neg hl, zero_mul, hfl0]
    have hcard : (((((List.finRange (k + 1)).map (fun l => fl (M l * D l j)) : List ℚ)) : Multiset ℚ).filter (· ≠ 0)).card ≤ 1 := by
      rw [Multiset.filter_coe, Multiset.coe_card, List.filter_map, List.length_map]
      have hsub : ∀ l ∈ (List.finRange (k + 1)).filter ((fun x => decide (x ≠ 0)) ∘ fun l => fl (M l * D l j)), l = L := by
        intro l hl
        by_contra hne
        rw [List.mem_filter] at hl
        have h2 := hl.2
        simp [hM1, hne, hfl0] at h2
      have hnd : ((List.finRange (k + 1)).filter ((fun x => decide (x ≠ 0)) ∘ fun l => fl (M l * D l j))).Nodup :=
        (List.nodup_finRange _).filter _
      rw [← List.toFinset_card_of_nodup hnd]
      exact (Finset.card_le_card (t := {L}) fun l hl => by
        rw [Finset.mem_singleton]; exact hsub l (List.mem_toFinset.mp hl)).trans (Finset.card_singleton L).le
    have h1 := (hs.single hfl0 (hid _) hmem hcard).1
    rw [hcs, h1]
    congr 2
    rw [Multiset.sum_coe, ← Fin.sum_univ_def, Finset.sum_eq_single L]
    · rw [hM1, if_pos rfl, one_mul]
    · intro l _ hl; rw [hM1, if_neg hl, zero_mul, hfl0]
    · simp
  -- the exact coefficients
  have hw : TrueWeights (ncWeight (k + 1) : Fin (k + 1) → ℚ) (ncNode (k + 1)) := C32_newton_cotes_weights (k + 1)
  have hnode : (ncNode (k + 1) L : ℚ) = 1 := by rw [hL]; exact ncNode_last k hk
  have hcE : ∀ j, c j = diffMatrix1d (ncWeight (k + 1)) (ncNode (k + 1)) L j * (2 / (k : ℚ)) := by
    intro j
    rw [← bdf_basis hk hc j]
    congr 1
    rw [← hnode, ← C33_exact _ _ hw (ncNode_injective hk) _ (nc_basis_degree hk j) L]
    simp only [Matrix.mulVec, dotProduct]
    exact sum_nc_basis hk _ j
  have hp1 : ∀ m, (1 : ℚ) ≤ (1 + ε) ^ m := fun m => one_le_pow₀ (by linarith)
  have hoff : ∀ j, |diffOffFl fl (ncWeight (k + 1)) (linspaceFl fl k) L j - diffOff (ncWeight (k + 1)) (ncNode (k + 1)) L j| ≤
      ((1 + ε) ^ (12 * k + 4) - 1) * |(diffOff (ncWeight (k + 1)) (ncNode (k + 1)) L j : ℚ)| := by
    intro j
    unfold diffOffFl diffOff
    by_cases hij : L = j
    · simp [hij]
    · rw [if_pos hij, if_pos hij]
      have hd : (ncNode (k + 1) L : ℚ) - ncNode (k + 1) j ≠ 0 := sub_ne_zero.mpr fun h => hij (ncNode_injective hk h)
      have h1 := rel_inv hr hd (linspaceFl_diff hk hε hε8 hfl hij)
      have h2 := rel_fl hε hfl (rel_mul hε (hfl (ncWeight (k + 1) j / ncWeight (k + 1) L)) h1)
      rw [← div_eq_mul_inv, ← div_eq_mul_inv] at h2
      refine rel_mono ?_ h2
      have e : (1 + ε) ^ (12 * k + 4) = (1 + ε) * ((1 + ε) * ((1 + ε) ^ (6 * k + 1)) ^ 2) := by ring
      rw [e]
      have a1 : 1 + 2 * ((1 + ε) ^ (6 * k + 1) - 1) ≤ ((1 + ε) ^ (6 * k + 1)) ^ 2 := two_le_sq
      have a2 := mul_le_mul_of_nonneg_left a1 (by positivity : 0 ≤ (1 + ε) * (1 + ε))
      linarith
  obtain ⟨hDoff, s, hs, hDs⟩ := hD L
  have hval : ∀ j, L ≠ j → diffMatrix1d (ncWeight (k + 1)) (ncNode (k + 1)) L j = (diffOff (ncWeight (k + 1)) (ncNode (k + 1)) L j : ℚ) :=
    fun j hij => by simp [diffMatrix1d, hij]
  have hh := hfl (2 / (k : ℚ))
  refine ⟨fun j hj => ?_, ?_⟩
  · rw [hcD, hcE, hDoff j (Ne.symm hj), hval j (Ne.symm hj)]
    have h1 := rel_fl hε hfl (hoff j)
    have hn : 0 ≤ (1 + ε) * (1 + ((1 + ε) ^ (12 * k + 4) - 1)) - 1 := by nlinarith [hp1 (12 * k + 4)]
    refine rel_mono (le_of_eq ?_) (rel_fl hε hfl (rel_mul hn h1 hh))
    ring
  · have hdiag : diffMatrix1d (ncWeight (k + 1)) (ncNode (k + 1)) L L = - ∑ l, (diffOff (ncWeight (k + 1)) (ncNode (k + 1)) L l : ℚ) := by
      simp [diffMatrix1d]
    obtain ⟨R, hR⟩ : ∃ R, R = ∑ l, |(diffOff (ncWeight (k + 1)) (ncNode (k + 1)) L l : ℚ)| := ⟨_, rfl⟩
    have herr : |D L L - diffMatrix1d (ncWeight (k + 1)) (ncNode (k + 1)) L L| ≤ ((1 + ε) ^ (13 * k + 5) - 1) * R := by
      rw [hdiag, hDs, neg_sub_neg, abs_sub_comm, hR]
      have h2 := sum_error hε hfl (diffOff (ncWeight (k + 1)) (ncNode (k + 1)) L)
        (diffOffFl fl (ncWeight (k + 1)) (linspaceFl fl k) L) hoff hs (by simp)
        (by simp [Fin.sum_univ_def]) (by simp [Fin.sum_univ_def, Function.comp_def]) rfl
      have e : k + 1 + (12 * k + 4) = 13 * k + 5 := by ring
      rwa [e] at h2
    have hxR : |diffMatrix1d (ncWeight (k + 1)) (ncNode (k + 1)) L L| ≤ R := by
      rw [hdiag, abs_neg, hR]
      exact Finset.abs_sum_le_sum_abs _ _
    have hsum : ∑ j ∈ Finset.univ.erase L, |c j| = R * |2 / (k : ℚ)| := by
      rw [hR, ← Finset.add_sum_erase _ _ (Finset.mem_univ L)]
      have : (diffOff (ncWeight (k + 1)) (ncNode (k + 1)) L L : ℚ) = 0 := by simp [diffOff]
      rw [this, abs_zero, zero_add, Finset.sum_mul]
      refine Finset.sum_congr rfl fun j hj => ?_
      rw [hcE, abs_mul, hval j (Finset.ne_of_mem_erase hj).symm]
    rw [hsum, hcD, hcE]
    have h1 := near_fl hε hfl hxR herr
    have hn : 0 ≤ (1 + ε) * (1 + ((1 + ε) ^ (13 * k + 5) - 1)) - 1 := by nlinarith [hp1 (13 * k + 5)]
    have h2 := near_mul hn hxR h1 hh
    have h3 : |diffMatrix1d (ncWeight (k + 1)) (ncNode (k + 1)) L L * (2 / (k : ℚ))| ≤ R * |2 / (k : ℚ)| := by
      rw [abs_mul]
      exact mul_le_mul_of_nonneg_right hxR (abs_nonneg _)
    refine (near_fl hε hfl h3 h2).trans (le_of_eq ?_)
    ring

/-- In `float64` the hypotheses hold for order three. -/
example : ∃ c c' : Fin (3 + 1) → ℚ, bdfkCoeffs 3 = some c ∧ BdfkCoeffsFl (flBin 53) 3 c' := by
  obtain ⟨c, hc, -⟩ := bdfk_exists (K := ℚ) 3 (by norm_num)
  exact ⟨c, _, hc, bdfkCoeffsSeq_ok (by norm_num) (by positivity : (0 : ℚ) ≤ (1 / 2) ^ 53) (by norm_num) (flBin_rel 53) (by norm_num)⟩

example : (1 + (1 / 2 : ℚ) ^ 53) ^ (6 * 3 + 1) - 1 ≤ 1 / 2 ∧ (1 + (1 / 2 : ℚ) ^ 53) ^ (13 * 3 + 8) - 1 ≤ 1 / 10 ^ 14 := by
  constructor <;> norm_num

/-- What is left of a constant: the computed coefficients add up to zero but for the roundings. A steady flow drifts by no
more than this in a step. -/
theorem C142_steady {k : ℕ} (hk : 1 ≤ k) (hε : 0 ≤ ε) (hε8 : ε ≤ 1 / 8) (hfl : ∀ x, |fl x - x| ≤ ε * |x|)
    (hid : ∀ x, fl (fl x) = fl x) (hr : (1 + ε) ^ (6 * k + 1) - 1 ≤ 1 / 2) (c c' : Fin (k + 1) → ℚ)
    (hc : bdfkCoeffs k = some c) (hc' : BdfkCoeffsFl fl k c') :
    |∑ j, c' j| ≤ 2 * ((1 + ε) ^ (13 * k + 8) - 1) * ∑ j ∈ Finset.univ.erase (Fin.last k), |c j| := by
  obtain ⟨h1, h2⟩ := C142_bdf hk hε hε8 hfl hid hr c c' hc hc'
  have h0 := C37_sum_zero k c hc
  have e : ∑ j, c' j = ∑ j, (c' j - c j) := by rw [Finset.sum_sub_distrib, h0, sub_zero]
  rw [e, ← Finset.add_sum_erase _ _ (Finset.mem_univ (Fin.last k))]
  have h3 : |∑ j ∈ Finset.univ.erase (Fin.last k), (c' j - c j)| ≤
      ((1 + ε) ^ (13 * k + 8) - 1) * ∑ j ∈ Finset.univ.erase (Fin.last k), |c j| := by
    rw [Finset.mul_sum]
    refine (Finset.abs_sum_le_sum_abs _ _).trans (Finset.sum_le_sum fun j hj => ?_)
    refine rel_mono ?_ (h1 j (Finset.ne_of_mem_erase hj))
    have : (1 + ε) ^ (12 * k + 7) ≤ (1 + ε) ^ (13 * k + 8) := pow_le_pow_right₀ (by linarith) (by omega)
    linarith
  have h4 := abs_add_le (c' (Fin.last k) - c (Fin.last k)) (∑ j ∈ Finset.univ.erase (Fin.last k), (c' j - c j))
  linarith

/-- The coefficients of order two over the rationals, to see that the right side of `C142_steady` is not zero. -/
example : (bdfkCoeffs 2 : Option (Fin 3 → ℚ)) = some ![1 / 2, -2, 3 / 2] := by
  have h : ∃ c, (bdfkCoeffs 2 : Option (Fin 3 → ℚ)) = some c ∧ c 0 = 1 / 2 ∧ c 1 = -2 ∧ c 2 = 3 / 2 := by decide +kernel
  obtain ⟨c, hc, h0, h1, h2⟩ := h
  rw [hc]
  congr 1
  funext i
  fin_cases i <;> assumption

/-- Powers of two are not rounded. -/
theorem flBin_two_pow {p : ℕ} (hp : 1 ≤ p) (q : ℤ) : flBin p ((2 : ℚ) ^ q) = 2 ^ q := by
  have h := flBin_fix hp 1 q (by rw [abs_one]; exact_mod_cast Nat.one_le_two_pow)
  simpa using h

theorem flBin_neg_two_pow {p : ℕ} (hp : 1 ≤ p) (q : ℤ) : flBin p (-(2 : ℚ) ^ q) = -2 ^ q := by
  have h := flBin_fix hp (-1) q (by rw [abs_neg, abs_one]; exact_mod_cast Nat.one_le_two_pow)
  simpa using h

/-- The extrapolation of the pressure in the solver (`extk_coeffs(k=1)`, navier_stokes.py 423) is exact in every precision of
at least two digits. -/
theorem C142_first_order {p : ℕ} (hp : 2 ≤ p) :
    extkCoeffsFl (flBin p) 1 0 = .fin (-1) ∧ extkCoeffsFl (flBin p) 1 1 = .fin 2 := by
  have hp1 : 1 ≤ p := by omega
  have f0 : flBin p 0 = 0 := by simpa using flBin_int hp1 (k := 0) (by rw [abs_zero]; positivity)
  have f1 : flBin p 1 = 1 := by simpa using flBin_two_pow hp1 0
  have fm1 : flBin p (-1) = -1 := by simpa using flBin_neg_two_pow hp1 0
  have f2 : flBin p 2 = 2 := by simpa using flBin_two_pow hp1 1
  have f4 : flBin p 4 = 4 := by
    have := flBin_two_pow hp1 2
    norm_num at this; exact this
  have fh : flBin p (1 / 2) = 1 / 2 := by
    have := flBin_two_pow hp1 (-1)
    norm_num at this ⊢; exact this
  have fq : flBin p (1 / 4) = 1 / 4 := by
    have := flBin_two_pow hp1 (-2)
    norm_num at this ⊢; exact this
  have fmh : flBin p (-(1 / 2)) = -(1 / 2) := by
    have := flBin_neg_two_pow hp1 (-1)
    norm_num at this ⊢; exact this
  have fmq : flBin p (-(1 / 4)) = -(1 / 4) := by
    have := flBin_neg_two_pow hp1 (-2)
    norm_num at this ⊢; exact this
  have f3 : flBin p 3 = 3 := by
    have : (4 : ℤ) ≤ 2 ^ p := by
      calc (4 : ℤ) = 2 ^ 2 := by norm_num
        _ ≤ 2 ^ p := pow_le_pow_right₀ (by norm_num) hp
    have := flBin_int hp1 (k := 3) (by rw [abs_of_pos (by norm_num)]; omega)
    exact_mod_cast this
  have n0 : linspaceFl (flBin p) 1 0 = -1 := by
    simp [linspaceFl, f0, fm1]
  have n1 : linspaceFl (flBin p) 1 1 = 1 := by simp [linspaceFl]
  have x3 : flBin p (1 + flBin p (2 / ((1 : ℕ) : ℚ))) = 3 := by
    rw [Nat.cast_one, div_one, f2]; norm_num [f3]
  have w0 : (ncWeight 2 0 : ℚ) = 1 := by decide +kernel
  have w1 : (ncWeight 2 1 : ℚ) = -1 := by decide +kernel
  have t0 : baryTermFl (flBin p) (ncWeight 2) (linspaceFl (flBin p) 1) 3 0 = .fin (1 / 4) := by
    have e : (3 : ℚ) - -1 = 4 := by norm_num
    rw [baryTermFl, n0, w0, e, f4, Ext.div, if_neg (by norm_num), Ext.round, fq]
  have t1 : baryTermFl (flBin p) (ncWeight 2) (linspaceFl (flBin p) 1) 3 1 = .fin (-(1 / 2)) := by
    have e : (3 : ℚ) - 1 = 2 := by norm_num
    have e' : (-1 : ℚ) / 2 = -(1 / 2) := by norm_num
    rw [baryTermFl, n1, w1, e, f2, Ext.div, if_neg (by norm_num), Ext.round, e', fmh]
  have hl : List.finRange 2 = [0, 1] := by decide
  have hsum : Ext.sumFl (flBin p) ((List.finRange 2).map (baryTermFl (flBin p) (ncWeight 2) (linspaceFl (flBin p) 1) 3)) =
      .fin (-(1 / 4)) := by
    have e : (1 / 4 : ℚ) + -(1 / 2) = -(1 / 4) := by norm_num
    rw [hl]
    simp only [List.map_cons, List.map_nil, t0, t1, Ext.sumFl, List.foldl_cons, List.foldl_nil, Ext.add, Ext.round, zero_add, fq, e, fmq]
  unfold extkCoeffsFl
  rw [x3]
  constructor
  · have e : (1 / 4 : ℚ) / -(1 / 4) = -1 := by norm_num
    rw [evaluateFl, n0, if_neg (by norm_num), hsum, t0, Ext.div, if_neg (by norm_num), Ext.round, e, fm1]
  · have e : (-(1 / 2) : ℚ) / -(1 / 4) = 2 := by norm_num
    rw [evaluateFl, n1, if_neg (by norm_num), hsum, t1, Ext.div, if_neg (by norm_num), Ext.round, e, f2]

/-- The exact coefficients are the same. -/
example : ∃ c : Fin 2 → ℚ, extkCoeffs 1 = some c ∧ c 0 = -1 ∧ c 1 = 2 := by decide +kernel

/-- The computed coefficients are not consistent: those of the third order difference do not add up to zero, and those of the
second order extrapolation are not the exact integers. -/
theorem C142_violated : (∑ j, bdfkCoeffsSeq (flBin 53) 3 j ≠ 0) ∧ extkCoeffsFl (flBin 53) 2 2 ≠ .fin 3 := by
  decide +kernel

end Verif.NS
