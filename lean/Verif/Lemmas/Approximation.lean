import Mathlib.Analysis.Calculus.TaylorIntegral
import Mathlib.Analysis.Calculus.ContDiff.FTaylorSeries
import Mathlib.Analysis.Normed.Module.Multilinear.Basic
import Verif.Lemmas.TensorPoly
import Verif.Lemmas.CubeGlobal

/-!
# Approximation of smooth functions by polynomials on small cubes
-/

namespace Verif.Core

open MvPolynomial Verif.Common MeasureTheory

variable {d : ℕ}

/-- A multilinear map on the diagonal is a polynomial. -/
theorem multilinear_poly {k : ℕ} (m : ContinuousMultilinearMap ℝ (fun _ : Fin k => Fin d → ℝ) ℝ) (x0 : Fin d → ℝ) :
    ∃ T : MvPolynomial (Fin d) ℝ, (∀ j, T.degreeOf j ≤ k) ∧ ∀ x, eval x T = m (fun _ => x - x0) := by
  classical
  refine ⟨∑ r : Fin k → Fin d, C (m fun i => Pi.single (r i) 1) * ∏ i, (X (r i) - C (x0 (r i))), fun j => ?_, fun x => ?_⟩
  · refine (degreeOf_sum_le _ _ _).trans (Finset.sup_le fun r _ => ?_)
    refine (degreeOf_C_mul_le _ _ _).trans ((degreeOf_prod_le _ _ _).trans ?_)
    calc ∑ i : Fin k, degreeOf j (X (r i) - C (x0 (r i)) : MvPolynomial (Fin d) ℝ) ≤ ∑ _i : Fin k, 1 := by
          refine Finset.sum_le_sum fun i _ => (degreeOf_sub_le _ _ _).trans (max_le ?_ ?_)
          · rw [degreeOf_X]; split <;> omega
          · rw [degreeOf_C]; omega
      _ = k := by simp
  · have h1 : (fun _ : Fin k => x - x0) = fun _ : Fin k => ∑ j : Fin d, (x j - x0 j) • (Pi.single j 1 : Fin d → ℝ) := by
      funext _
      ext l
      simp [Finset.sum_apply, Pi.single_apply]
    have h2 := m.toMultilinearMap.map_sum (fun (_ : Fin k) (j : Fin d) => (x j - x0 j) • (Pi.single j 1 : Fin d → ℝ))
    rw [h1]
    refine Eq.trans ?_ h2.symm
    rw [map_sum]
    refine Finset.sum_congr rfl fun r _ => ?_
    have h3 := m.toMultilinearMap.map_smul_univ (fun i => x (r i) - x0 (r i)) (fun i => (Pi.single (r i) 1 : Fin d → ℝ))
    rw [h3, map_mul, eval_C, map_prod, smul_eq_mul, mul_comm]
    simp

/-- Taylor polynomials on a cube. -/
theorem taylor_poly {m : ℕ} {g : (Fin d → ℝ) → ℝ} (hg : ContDiff ℝ (m + 1) g) (lo hi : Fin d → ℝ) :
    ∃ M : ℝ, 0 ≤ M ∧ ∀ x0 ∈ Set.Icc lo hi, ∃ T : MvPolynomial (Fin d) ℝ, (∀ j, T.degreeOf j ≤ m) ∧
      ∀ x ∈ Set.Icc lo hi, |g x - eval x T| ≤ M * ‖x - x0‖ ^ (m + 1) := by
  have hcont : Continuous fun x => iteratedFDeriv ℝ (m + 1) g x :=
    hg.continuous_iteratedFDeriv (by norm_cast)
  obtain ⟨M, hM⟩ := (isCompact_Icc (a := lo) (b := hi)).exists_bound_of_continuousOn hcont.continuousOn
  refine ⟨max M 0, le_max_right _ _, fun x0 hx0 => ?_⟩
  choose T hT1 hT2 using fun k : ℕ => multilinear_poly (iteratedFDeriv ℝ k g x0) x0
  refine ⟨∑ k ∈ Finset.range (m + 1), C ((k.factorial : ℝ)⁻¹) * T k, fun j => ?_, fun x hx => ?_⟩
  · refine (degreeOf_sum_le _ _ _).trans (Finset.sup_le fun k hk => ?_)
    rw [Finset.mem_range] at hk
    exact (degreeOf_C_mul_le _ _ _).trans ((hT1 k j).trans (by omega))
  · have hpt : ∀ t ∈ Set.Icc (0 : ℝ) 1, x0 + t • (x - x0) ∈ Set.Icc lo hi := by
      intro t ht
      have := (convex_Icc lo hi).add_smul_sub_mem hx0 hx ht
      exact this
    have h1 := map_add_eq_sum_add_integral_iteratedFDeriv (f := g) (x := x0) (y := x - x0) (n := m)
      (fun t _ => hg.contDiffAt)
    have h2 : eval x (∑ k ∈ Finset.range (m + 1), C ((k.factorial : ℝ)⁻¹) * T k) =
        ∑ k ∈ Finset.range (m + 1), (k.factorial : ℝ)⁻¹ • (iteratedFDeriv ℝ k g x0 (fun _ => x - x0)) := by
      rw [map_sum]
      refine Finset.sum_congr rfl fun k _ => ?_
      rw [map_mul, eval_C, hT2, smul_eq_mul]
    rw [add_sub_cancel] at h1
    rw [h1, h2, add_sub_cancel_left]
    have h3 : ‖∫ t in (0 : ℝ)..1, (1 - t) ^ m • iteratedFDeriv ℝ (m + 1) g (x0 + t • (x - x0)) (fun _ => x - x0)‖ ≤
        (max M 0 * ‖x - x0‖ ^ (m + 1)) * |1 - 0| := by
      refine intervalIntegral.norm_integral_le_of_norm_le_const fun t ht => ?_
      rw [Set.uIoc_of_le zero_le_one] at ht
      have ht' : t ∈ Set.Icc (0 : ℝ) 1 := ⟨ht.1.le, ht.2⟩
      have h4 := (iteratedFDeriv ℝ (m + 1) g (x0 + t • (x - x0))).le_opNorm (fun _ => x - x0)
      rw [Finset.prod_const, Finset.card_univ, Fintype.card_fin] at h4
      have h5 : ‖(1 - t) ^ m‖ ≤ 1 := by
        rw [norm_pow, Real.norm_eq_abs, abs_of_nonneg (by linarith [ht.2])]
        exact pow_le_one₀ (by linarith [ht.2]) (by linarith [ht.1])
      rw [norm_smul]
      calc _ ≤ 1 * (‖iteratedFDeriv ℝ (m + 1) g (x0 + t • (x - x0))‖ * ‖x - x0‖ ^ (m + 1)) :=
            mul_le_mul h5 h4 (norm_nonneg _) zero_le_one
        _ ≤ max M 0 * ‖x - x0‖ ^ (m + 1) := by
            rw [one_mul]
            exact mul_le_mul_of_nonneg_right ((hM _ (hpt t ht')).trans (le_max_left _ _)) (by positivity)
    rw [sub_zero, abs_one, mul_one, Real.norm_eq_abs] at h3
    rw [smul_eq_mul, abs_mul]
    have h6 : |((m.factorial : ℝ))⁻¹| ≤ 1 := by
      rw [abs_of_nonneg (by positivity)]
      exact inv_le_one_of_one_le₀ (by exact_mod_cast m.factorial_pos)
    calc _ ≤ 1 * (max M 0 * ‖x - x0‖ ^ (m + 1)) := mul_le_mul h6 h3 (abs_nonneg _) zero_le_one
      _ = _ := one_mul _

/-- An inequality of Markov type: the derivative of a polynomial of bounded degree on a small interval. -/
theorem markov (N : ℕ) : ∃ K : ℝ, 0 ≤ K ∧ ∀ (Q : Polynomial ℝ), Q.natDegree ≤ N → ∀ (s c ε : ℝ), 0 < c →
    (∀ x ∈ Set.Icc (s - c) (s + c), |Q.eval x| ≤ ε) →
    ∀ x ∈ Set.Icc (s - c) (s + c), |Q.derivative.eval x| ≤ K * ε / c := by
  classical
  let z : Fin (N + 1) → ℝ := fun i => (i : ℝ) / (N + 1)
  have hN : (0 : ℝ) < (N : ℝ) + 1 := by positivity
  have hz : Function.Injective z := by
    intro i j hij
    have : (i : ℝ) = j := by
      have h1 : (i : ℝ) / (N + 1) = (j : ℝ) / (N + 1) := hij
      field_simp at h1
      exact h1
    exact Fin.ext (by exact_mod_cast this)
  have hz01 : ∀ i, z i ∈ Set.Icc (-1 : ℝ) 1 := by
    intro i
    have h0 : 0 ≤ z i := by positivity
    have h1 : z i ≤ 1 := by
      change (i : ℝ) / (N + 1) ≤ 1
      rw [div_le_one hN]
      have : (i : ℕ) ≤ N := by omega
      have : ((i : ℕ) : ℝ) ≤ N := by exact_mod_cast this
      linarith
    exact ⟨by linarith, h1⟩
  have hb : ∀ i, ∃ B, ∀ y ∈ Set.Icc (-1 : ℝ) 1, ‖(Lagrange.basis Finset.univ z i).derivative.eval y‖ ≤ B := fun i =>
    (isCompact_Icc).exists_bound_of_continuousOn (Polynomial.continuous _).continuousOn
  choose B hB using hb
  have hB0 : ∀ i, 0 ≤ B i := fun i => (norm_nonneg _).trans (hB i 0 (by constructor <;> norm_num))
  refine ⟨∑ i, B i, Finset.sum_nonneg fun i _ => hB0 i, fun Q hQ s c ε hc hε x hx => ?_⟩
  set R := Q.comp (Polynomial.C c * Polynomial.X + Polynomial.C s) with hR
  have hRdeg : R.degree < (N + 1 : ℕ) := by
    refine lt_of_le_of_lt Polynomial.degree_le_natDegree ?_
    have h1 : R.natDegree ≤ N := by
      refine Polynomial.natDegree_comp_le.trans ?_
      have h2 : (Polynomial.C c * Polynomial.X + Polynomial.C s).natDegree ≤ 1 := Polynomial.natDegree_linear_le
      calc Q.natDegree * _ ≤ N * 1 := Nat.mul_le_mul hQ h2
        _ = N := by ring
    exact_mod_cast Nat.lt_succ_of_le h1
  have hint := Lagrange.eq_interpolate (s := Finset.univ) (v := z) hz.injOn (f := R) (by
    rw [Finset.card_univ, Fintype.card_fin]; exact hRdeg)
  set y := (x - s) / c with hy
  have hy1 : y ∈ Set.Icc (-1 : ℝ) 1 := by
    rw [hy]
    constructor
    · rw [le_div_iff₀ hc]; linarith [hx.1]
    · rw [div_le_iff₀ hc]; linarith [hx.2]
  have hxy : c * y + s = x := by rw [hy]; field_simp; ring
  have hder : R.derivative.eval y = c * Q.derivative.eval x := by
    rw [hR, Polynomial.derivative_comp]
    simp only [Polynomial.eval_mul, Polynomial.eval_comp, Polynomial.derivative_add, Polynomial.derivative_C_mul,
      Polynomial.derivative_X, Polynomial.derivative_C, Polynomial.eval_add, Polynomial.eval_C, Polynomial.eval_X,
      mul_one, add_zero]
    rw [hxy]
  have hval : ∀ i, |R.eval (z i)| ≤ ε := by
    intro i
    rw [hR, Polynomial.eval_comp]
    simp only [Polynomial.eval_add, Polynomial.eval_mul, Polynomial.eval_C, Polynomial.eval_X]
    apply hε
    have := hz01 i
    constructor <;> nlinarith [this.1, this.2]
  have hsum : R.derivative.eval y = ∑ i, R.eval (z i) * (Lagrange.basis Finset.univ z i).derivative.eval y := by
    conv_lhs => rw [hint]
    rw [Lagrange.interpolate_apply, Polynomial.derivative_sum, Polynomial.eval_finsetSum]
    refine Finset.sum_congr rfl fun i _ => ?_
    rw [Polynomial.derivative_C_mul, Polynomial.eval_mul, Polynomial.eval_C]
  have hbound : |c * Q.derivative.eval x| ≤ (∑ i, B i) * ε := by
    rw [← hder, hsum, Finset.sum_mul]
    refine (Finset.abs_sum_le_sum_abs _ _).trans (Finset.sum_le_sum fun i _ => ?_)
    rw [abs_mul, mul_comm]
    exact mul_le_mul (hB i y hy1) (hval i) (abs_nonneg _) (hB0 i)
  rw [le_div_iff₀ hc]
  rw [abs_mul, abs_of_pos hc] at hbound
  linarith

/-- Stability of interpolation at tensor product points. -/
theorem tensor_stable {q : ℕ} (hq : 0 < q) (ξ : Fin q → ℝ) (hξ : Function.Injective ξ) (d : ℕ) :
    ∃ Λ : ℝ, 0 ≤ Λ ∧ ∀ (P : MvPolynomial (Fin d) ℝ), (∀ k, P.degreeOf k < q) → ∀ (s : Fin d → ℝ) (c ε : ℝ), 0 < c →
      (∀ i < q ^ d, |eval (fun k => c * gridPoint d ξ i k + s k) P| ≤ ε) →
      ∀ x, (∀ k, |x k - s k| ≤ c) → |eval x P| ≤ Λ * ε := by
  have hb : ∀ i, ∃ B, ∀ y ∈ Set.Icc (fun _ : Fin d => (-1 : ℝ)) (fun _ => 1), ‖eval y (tensorBasis hq d ξ i)‖ ≤ B := fun i =>
    (isCompact_Icc).exists_bound_of_continuousOn (MvPolynomial.continuous_eval _).continuousOn
  choose B hB using hb
  have hB0 : ∀ i, 0 ≤ B i := fun i => (norm_nonneg _).trans (hB i 0 ⟨fun _ => by simp, fun _ => by simp⟩)
  refine ⟨∑ i ∈ Finset.range (q ^ d), B i, Finset.sum_nonneg fun i _ => hB0 i, fun P hP s c ε hc hε x hx => ?_⟩
  have hzero : affSub c s P - ∑ j ∈ Finset.range (q ^ d), C (eval (gridPoint d ξ j) (affSub c s P)) * tensorBasis hq d ξ j = 0 := by
    refine eq_zero_of_grid ξ hξ _ (fun k => ?_) (fun i hi => ?_)
    · refine lt_of_le_of_lt (degreeOf_sub_le _ _ _) (max_lt ((degreeOf_affSub c s P k).trans_lt (hP k)) ?_)
      refine lt_of_le_of_lt (degreeOf_sum_le _ _ _) ?_
      rw [Finset.sup_lt_iff hq]
      intro j _
      refine lt_of_le_of_lt (degreeOf_C_mul_le _ _ _) ?_
      have := tensorBasis_degree hq ξ hξ j k
      omega
    · rw [map_sub, map_sum, Finset.sum_eq_single i]
      · rw [map_mul, eval_C, tensorBasis_eval hq ξ hξ i i hi hi, if_pos rfl, mul_one, sub_self]
      · intro j hj hji
        rw [map_mul, tensorBasis_eval hq ξ hξ i j hi (Finset.mem_range.mp hj), if_neg (Ne.symm hji), mul_zero]
      · intro h; exact absurd (Finset.mem_range.mpr hi) h
  set y : Fin d → ℝ := fun k => (x k - s k) / c with hy
  have hy1 : y ∈ Set.Icc (fun _ : Fin d => (-1 : ℝ)) (fun _ => 1) := by
    constructor <;> intro k
    · change -1 ≤ (x k - s k) / c
      rw [le_div_iff₀ hc]; linarith [(abs_le.mp (hx k)).1]
    · change (x k - s k) / c ≤ 1
      rw [div_le_iff₀ hc]; linarith [(abs_le.mp (hx k)).2]
  have hxy : (fun k => c * y k + s k) = x := by
    funext k; rw [hy]; field_simp; ring
  have h1 : eval y (affSub c s P) = eval x P := by rw [eval_affSub, hxy]
  have h2 := congrArg (eval y) (sub_eq_zero.mp hzero)
  rw [h1, map_sum] at h2
  rw [h2, Finset.sum_mul]
  refine (Finset.abs_sum_le_sum_abs _ _).trans (Finset.sum_le_sum fun i hi => ?_)
  rw [map_mul, eval_C, eval_affSub, abs_mul, mul_comm]
  exact mul_le_mul (hB i y hy1) (hε i (Finset.mem_range.mp hi)) (abs_nonneg _) (hB0 i)

/-- Distance from the centre of a cube. -/
theorem norm_sub_centre {s x : Fin d → ℝ} {c : ℝ} (hc : 0 ≤ c) (hx : ∀ k, |x k - s k| ≤ c) : ‖x - s‖ ≤ c := by
  rw [pi_norm_le_iff_of_nonneg hc]
  intro k
  simpa using hx k

/-- Interpolation of a smooth function on a small cube. -/
theorem interp_value {q m : ℕ} (hm : m < q) (ξ : Fin q → ℝ) (hξ : Function.Injective ξ) (hξ1 : ∀ i, |ξ i| ≤ 1)
    {g : (Fin d → ℝ) → ℝ} (hg : ContDiff ℝ (m + 1) g) (lo hi : Fin d → ℝ) :
    ∃ A : ℝ, 0 ≤ A ∧ ∀ (s : Fin d → ℝ) (c : ℝ), 0 < c → (∀ x, (∀ k, |x k - s k| ≤ c) → x ∈ Set.Icc lo hi) →
      ∀ P : MvPolynomial (Fin d) ℝ, (∀ k, P.degreeOf k < q) →
        (∀ i < q ^ d, eval (fun k => c * gridPoint d ξ i k + s k) P = g (fun k => c * gridPoint d ξ i k + s k)) →
        ∀ x, (∀ k, |x k - s k| ≤ c) → |g x - eval x P| ≤ A * c ^ (m + 1) := by
  have hq : 0 < q := by omega
  obtain ⟨Λ, hΛ0, hΛ⟩ := tensor_stable hq ξ hξ d
  obtain ⟨M, hM0, hM⟩ := taylor_poly hg lo hi
  refine ⟨M + Λ * M, by positivity, fun s c hc hsub P hP hnod x hx => ?_⟩
  have hs : ∀ k, |s k - s k| ≤ c := fun k => by rw [sub_self, abs_zero]; exact hc.le
  obtain ⟨T, hT1, hT2⟩ := hM s (hsub s hs)
  have hball : ∀ y, (∀ k, |y k - s k| ≤ c) → |g y - eval y T| ≤ M * c ^ (m + 1) := fun y hy =>
    (hT2 y (hsub y hy)).trans (mul_le_mul_of_nonneg_left
      (pow_le_pow_left₀ (norm_nonneg _) (norm_sub_centre hc.le hy) _) hM0)
  have h1 := hΛ (P - T) (fun k => lt_of_le_of_lt (degreeOf_sub_le _ _ _) (max_lt (hP k) ((hT1 k).trans_lt hm))) s c
    (M * c ^ (m + 1)) hc (fun i hi => by
      rw [map_sub, hnod i hi]
      apply hball
      intro k
      rw [add_sub_cancel_right, abs_mul, abs_of_pos hc]
      calc c * |gridPoint d ξ i k| ≤ c * 1 := by
            refine mul_le_mul_of_nonneg_left ?_ hc.le
            unfold gridPoint at0
            split
            · exact hξ1 _
            · simp
        _ = c := mul_one c) x hx
  rw [map_sub] at h1
  have h2 := hball x hx
  calc |g x - eval x P| = |(g x - eval x T) - (eval x P - eval x T)| := by congr 1; ring
    _ ≤ |g x - eval x T| + |eval x P - eval x T| := abs_sub _ _
    _ ≤ M * c ^ (m + 1) + Λ * (M * c ^ (m + 1)) := add_le_add h2 h1
    _ = _ := by ring

/-- The restriction of a polynomial to a line along an axis. -/
noncomputable def lineRestrict (x : Fin d → ℝ) (k : Fin d) (P : MvPolynomial (Fin d) ℝ) : Polynomial ℝ :=
  MvPolynomial.aeval (fun j => if j = k then Polynomial.X else Polynomial.C (x j)) P

theorem eval_lineRestrict (x : Fin d → ℝ) (k : Fin d) (P : MvPolynomial (Fin d) ℝ) (y : ℝ) :
    (lineRestrict x k P).eval y = eval (Function.update x k y) P := by
  unfold lineRestrict
  induction P using MvPolynomial.induction_on with
  | C r => simp
  | add P Q hP hQ => rw [map_add, Polynomial.eval_add, hP, hQ, map_add]
  | mul_X P j hP =>
    rw [map_mul, Polynomial.eval_mul, hP, map_mul, aeval_X, eval_X]
    by_cases hj : j = k
    · subst hj; simp
    · simp [hj]

theorem natDegree_lineRestrict (x : Fin d → ℝ) (k : Fin d) (P : MvPolynomial (Fin d) ℝ) :
    (lineRestrict x k P).natDegree ≤ P.degreeOf k := by
  classical
  unfold lineRestrict
  rw [MvPolynomial.aeval_def, MvPolynomial.eval₂_eq]
  refine Polynomial.natDegree_sum_le_of_forall_le _ _ fun m hm => ?_
  refine (Polynomial.natDegree_C_mul_le _ _).trans ?_
  refine (Polynomial.natDegree_prod_le _ _).trans ?_
  have h1 : ∀ j ∈ m.support, ((if j = k then Polynomial.X else Polynomial.C (x j) : Polynomial ℝ) ^ m j).natDegree ≤
      if j = k then m k else 0 := by
    intro j _
    refine Polynomial.natDegree_pow_le.trans ?_
    by_cases hj : j = k
    · subst hj; simp
    · simp [hj]
  refine (Finset.sum_le_sum h1).trans ?_
  refine le_trans ?_ (monomial_le_degreeOf k hm)
  rw [Finset.sum_ite_eq']
  split <;> omega

theorem derivative_lineRestrict (x : Fin d → ℝ) (k : Fin d) (P : MvPolynomial (Fin d) ℝ) :
    (lineRestrict x k P).derivative = lineRestrict x k (pderiv k P) := by
  unfold lineRestrict
  induction P using MvPolynomial.induction_on with
  | C r => simp
  | add P Q hP hQ => simp only [map_add, hP, hQ]
  | mul_X P j hP =>
    rw [map_mul, Polynomial.derivative_mul, hP, pderiv_mul, map_add, map_mul, map_mul, aeval_X]
    by_cases hj : j = k
    · subst hj; simp
    · simp [hj, pderiv_X_of_ne hj]

/-- A polynomial has a primitive of degree one more. -/
theorem exists_primitive (S : Polynomial ℝ) : ∃ R : Polynomial ℝ, R.derivative = S ∧ R.natDegree ≤ S.natDegree + 1 := by
  refine ⟨∑ i ∈ Finset.range (S.natDegree + 1), Polynomial.C (S.coeff i / (i + 1)) * Polynomial.X ^ (i + 1), ?_, ?_⟩
  · rw [Polynomial.derivative_sum]
    conv_rhs => rw [S.as_sum_range_C_mul_X_pow]
    refine Finset.sum_congr rfl fun i _ => ?_
    rw [Polynomial.derivative_C_mul_X_pow]
    have : (i : ℝ) + 1 ≠ 0 := by positivity
    simp only [Nat.cast_add, Nat.cast_one, add_tsub_cancel_right]
    rw [div_mul_cancel₀ _ this]
  · refine Polynomial.natDegree_sum_le_of_forall_le _ _ fun i hi => ?_
    rw [Finset.mem_range] at hi
    exact (Polynomial.natDegree_C_mul_X_pow_le _ _).trans (by omega)

/-- The derivative along an axis. -/
theorem hasDerivAt_update {g : (Fin d → ℝ) → ℝ} (hg : Differentiable ℝ g) (x : Fin d → ℝ) (k : Fin d) (y : ℝ) :
    HasDerivAt (fun y => g (Function.update x k y)) (partialDeriv k g (Function.update x k y)) y := by
  have h1 : HasDerivAt (fun y => Function.update x k y) (Pi.single k (1 : ℝ) : Fin d → ℝ) y := by
    rw [hasDerivAt_pi]
    intro j
    by_cases hj : j = k
    · subst hj
      simp only [Function.update_self, Pi.single_eq_same]
      exact hasDerivAt_id y
    · simp only [Function.update_of_ne hj, Pi.single_eq_of_ne hj]
      exact hasDerivAt_const y _
  have h2 := (hg (Function.update x k y)).hasFDerivAt.comp_hasDerivAt y h1
  unfold partialDeriv
  rw [(hg (Function.update x k y)).lineDeriv_eq_fderiv]
  exact h2

theorem contDiff_partialDeriv {m : ℕ} {g : (Fin d → ℝ) → ℝ} (hg : ContDiff ℝ (m + 1) g) (k : Fin d) :
    ContDiff ℝ m (partialDeriv k g) := by
  have hd : Differentiable ℝ g := hg.differentiable (by norm_cast)
  have h1 : partialDeriv k g = fun x => fderiv ℝ g x (Pi.single k 1) := by
    funext x
    unfold partialDeriv
    rw [(hd x).lineDeriv_eq_fderiv]
  rw [h1]
  exact (hg.fderiv_right (m := m) (by norm_cast)).clm_apply contDiff_const

/-- The gradient of the interpolant of a smooth function on a small cube. -/
theorem interp_grad {p q : ℕ} (hp : 1 ≤ p) (hq : q = p + 1) (ξ : Fin q → ℝ) (hξ : Function.Injective ξ) (hξ1 : ∀ i, |ξ i| ≤ 1)
    {g : (Fin d → ℝ) → ℝ} (hg : ContDiff ℝ (p + 1) g) (lo hi : Fin d → ℝ) (k : Fin d) :
    ∃ A : ℝ, 0 ≤ A ∧ ∀ (s : Fin d → ℝ) (c : ℝ), 0 < c → (∀ x, (∀ k, |x k - s k| ≤ c) → x ∈ Set.Icc lo hi) →
      ∀ P : MvPolynomial (Fin d) ℝ, (∀ k, P.degreeOf k < q) →
        (∀ i < q ^ d, eval (fun k => c * gridPoint d ξ i k + s k) P = g (fun k => c * gridPoint d ξ i k + s k)) →
        ∀ x, (∀ k, |x k - s k| ≤ c) → |partialDeriv k g x - eval x (pderiv k P)| ≤ A * c ^ p := by
  subst hq
  obtain ⟨A1, hA1, hval⟩ := interp_value (Nat.lt_succ_self p) ξ hξ hξ1 hg lo hi
  obtain ⟨p', rfl⟩ : ∃ p', p = p' + 1 := ⟨p - 1, by omega⟩
  have hg' : ContDiff ℝ (p' + 1) (partialDeriv k g) := by
    have := contDiff_partialDeriv (m := p' + 1) (by exact_mod_cast hg) k
    exact_mod_cast this
  obtain ⟨M, hM0, hM⟩ := taylor_poly hg' lo hi
  obtain ⟨K, hK0, hK⟩ := markov (p' + 1 + 1)
  have hd : Differentiable ℝ g := hg.differentiable (by norm_cast)
  refine ⟨M + K * (A1 + 2 * M), by positivity, fun s c hc hsub P hP hnod x hx => ?_⟩
  have hs : ∀ k, |s k - s k| ≤ c := fun k => by rw [sub_self, abs_zero]; exact hc.le
  obtain ⟨T, hT1, hT2⟩ := hM s (hsub s hs)
  have hball : ∀ y, (∀ k, |y k - s k| ≤ c) → |partialDeriv k g y - eval y T| ≤ M * c ^ (p' + 1) := fun y hy =>
    (hT2 y (hsub y hy)).trans (mul_le_mul_of_nonneg_left
      (pow_le_pow_left₀ (norm_nonneg _) (norm_sub_centre hc.le hy) _) hM0)
  have hv := hval s c hc hsub P hP hnod
  obtain ⟨R, hR1, hR2⟩ := exists_primitive (lineRestrict x k T)
  have hupd : ∀ y ∈ Set.Icc (s k - c) (s k + c), ∀ j, |Function.update x k y j - s j| ≤ c := by
    intro y hy j
    by_cases hj : j = k
    · subst hj
      rw [Function.update_self, abs_le]
      constructor <;> linarith [hy.1, hy.2]
    · rw [Function.update_of_ne hj]; exact hx j
  have hxk : x k ∈ Set.Icc (s k - c) (s k + c) := by
    have := abs_le.mp (hx k)
    constructor <;> linarith
  -- the primitive follows the function along the line
  have hmv : ∀ y ∈ Set.Icc (s k - c) (s k + c),
      |(g (Function.update x k y) - R.eval y) - (g x - R.eval (x k))| ≤ M * c ^ (p' + 1) * (2 * c) := by
    intro y hy
    have h1 := (convex_Icc (s k - c) (s k + c)).norm_image_sub_le_of_norm_hasDerivWithin_le
      (f := fun y => g (Function.update x k y) - R.eval y)
      (f' := fun y => partialDeriv k g (Function.update x k y) - eval (Function.update x k y) T)
      (C := M * c ^ (p' + 1)) (fun y _ => by
        have := (hasDerivAt_update hd x k y).sub (R.hasDerivAt y)
        rw [hR1, eval_lineRestrict] at this
        exact this.hasDerivWithinAt) (fun y hy => hball _ (hupd y hy)) hxk hy
    rw [Real.norm_eq_abs, Real.norm_eq_abs, Function.update_eq_self] at h1
    refine h1.trans (mul_le_mul_of_nonneg_left ?_ (by positivity))
    rw [abs_le]
    constructor <;> linarith [hy.1, hy.2, hxk.1, hxk.2]
  have hdeg : (lineRestrict x k P - R + Polynomial.C (R.eval (x k) - g x)).natDegree ≤ p' + 1 + 1 := by
    refine (Polynomial.natDegree_add_le _ _).trans (max_le ((Polynomial.natDegree_sub_le _ _).trans (max_le ?_ ?_)) ?_)
    · have := natDegree_lineRestrict x k P
      have := hP k
      omega
    · have := natDegree_lineRestrict x k T
      have := hT1 k
      omega
    · rw [Polynomial.natDegree_C]; omega
  have hmar := hK _ hdeg (s k) c ((A1 + 2 * M) * c ^ (p' + 1 + 1)) hc (fun y hy => by
    rw [Polynomial.eval_add, Polynomial.eval_sub, Polynomial.eval_C, eval_lineRestrict]
    have e : eval (Function.update x k y) P - R.eval y + (R.eval (x k) - g x) =
        ((g (Function.update x k y) - R.eval y) - (g x - R.eval (x k))) -
          (g (Function.update x k y) - eval (Function.update x k y) P) := by ring
    rw [e]
    refine (abs_sub _ _).trans ((add_le_add (hmv y hy) (hv _ (hupd y hy))).trans (le_of_eq ?_))
    ring) (x k) hxk
  rw [Polynomial.derivative_add, Polynomial.derivative_sub, Polynomial.derivative_C, add_zero, hR1,
    derivative_lineRestrict, Polynomial.eval_sub, eval_lineRestrict, eval_lineRestrict, Function.update_eq_self] at hmar
  have hb := hball x hx
  have e : partialDeriv k g x - eval x (pderiv k P) =
      (partialDeriv k g x - eval x T) - (eval x (pderiv k P) - eval x T) := by ring
  rw [e]
  refine (abs_sub _ _).trans ((add_le_add hb hmar).trans (le_of_eq ?_))
  rw [pow_succ c (p' + 1)]
  field_simp

end Verif.Core
