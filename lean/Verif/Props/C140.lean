import Verif.Lemmas.InterpFloat

/-! C140: the interpolation and differentiation matrices in floating point.

The comment in `evaluate` (core/interpolation.py 218-221) says that close to a node numerator and denominator are inaccurate
but the errors cancel. That is so: every entry has a small *relative* error which depends on the number of nodes and on the
Lebesgue function `∑ |L_j(x)|` only, not on the distance to a node (`C140_interp_partial`). What exact arithmetic gives in
addition, that the rows add up to one, is lost (`C140_violated`). -/

namespace Verif.Core

open Polynomial

variable {fl : ℚ → ℚ} {ε : ℚ}

theorem lebesgue_ge_one {n : ℕ} {nodes : Fin n → ℚ} (hnodes : Function.Injective nodes) (i : Fin n) (x : ℚ) :
    1 ≤ ∑ j, |(Lagrange.basis Finset.univ nodes j).eval x| := by
  have h := congrArg (eval x) (Lagrange.sum_basis (s := Finset.univ) (v := nodes) hnodes.injOn ⟨i, Finset.mem_univ i⟩)
  rw [eval_finsetSum, eval_one] at h
  calc (1 : ℚ) = |∑ j, (Lagrange.basis Finset.univ nodes j).eval x| := by rw [h, abs_one]
    _ ≤ _ := Finset.abs_sum_le_sum_abs _ _

/-- Every entry of the interpolation matrix is a number, exact at the nodes, and elsewhere close to the Lagrange basis in the
relative sense. The weights may carry `m` roundings. Missing from the full claim: rows that add up to one
(`C140_violated`). -/
theorem C140_interp_partial {n m : ℕ} (hε : 0 ≤ ε) (hfl : ∀ x, |fl x - x| ≤ ε * |x|) (w w' nodes : Fin n → ℚ)
    (hw : TrueWeights w nodes) (hnodes : Function.Injective nodes)
    (hw' : ∀ j, |w' j - w j| ≤ ((1 + ε) ^ m - 1) * |w j|) (x : ℚ)
    (hsmall : 2 * (((1 + ε) ^ (n + m + 3) - 1) * ∑ j, |(Lagrange.basis Finset.univ nodes j).eval x|) ≤ 1) (i : Fin n) :
    ∃ v, evaluateFl fl w' nodes x i = .fin v ∧
      (∀ k, x = nodes k → v = if i = k then 1 else 0) ∧
      |v - (Lagrange.basis Finset.univ nodes i).eval x| ≤
        ((1 + ε) ^ (m + 4) * (1 + 2 * (((1 + ε) ^ (n + m + 3) - 1) *
          ∑ j, |(Lagrange.basis Finset.univ nodes j).eval x|)) - 1) * |(Lagrange.basis Finset.univ nodes i).eval x| := by
  have hL := lebesgue_ge_one hnodes i x
  have hθ0 : (1 : ℚ) ≤ (1 + ε) ^ (n + m + 3) := one_le_pow₀ (by linarith)
  have hθ : (1 + ε) ^ (n + m + 3) - 1 ≤ 1 / 2 := by nlinarith
  have hm4 : (1 : ℚ) ≤ (1 + ε) ^ (m + 4) := one_le_pow₀ (by linarith)
  have hε2 : ε ≤ 1 / 2 := by
    have : (1 + ε) ^ 1 ≤ (1 + ε) ^ (n + m + 3) := pow_le_pow_right₀ (by linarith) (by omega)
    linarith
  have hμ : (1 + ε) ^ m - 1 ≤ 1 / 2 := by
    have : (1 + ε) ^ m ≤ (1 + ε) ^ (n + m + 3) := pow_le_pow_right₀ (by linarith) (by omega)
    linarith
  have hw0 := hw.ne_zero hnodes
  have hw'0 : ∀ j, w' j ≠ 0 := fun j => rel_ne (by linarith) (hw0 j) (hw' j)
  have hfl0 : fl 0 = 0 := by
    have := hfl 0
    simpa using this
  have hflne : ∀ x, x ≠ 0 → fl x ≠ 0 := fun x hx => rel_ne (by linarith) hx (hfl x)
  by_cases hx : ∃ k, x = nodes k
  · obtain ⟨k, rfl⟩ := hx
    refine ⟨_, evaluateFl_node hfl0 hflne w' nodes hw'0 hnodes k i, fun k' hk' => ?_, ?_⟩
    · rw [hnodes hk']
    · have : (Lagrange.basis Finset.univ nodes i).eval (nodes k) = if i = k then 1 else 0 := by
        by_cases h : i = k
        · subst h
          rw [if_pos rfl, Lagrange.eval_basis_self hnodes.injOn (Finset.mem_univ i)]
        · rw [if_neg h, Lagrange.eval_basis_of_ne h (Finset.mem_univ k)]
      rw [this, sub_self, abs_zero]
      refine mul_nonneg ?_ (abs_nonneg _)
      have h1 : 0 ≤ ((1 + ε) ^ (n + m + 3) - 1) * ∑ j, |(Lagrange.basis Finset.univ nodes j).eval (nodes k)| :=
        mul_nonneg (by linarith) (by linarith)
      nlinarith
  · have hx' : ∀ k, x ≠ nodes k := fun k hk => hx ⟨k, hk⟩
    choose t ht hterr using fun j => baryTermFl_error hε hε2 hfl w w' nodes hw' x j (hx' j)
    obtain ⟨hD, hb⟩ := bary_basis w nodes hw hnodes x hx' i
    set D := ∑ j, w j / (x - nodes j) with hDdef
    have hlam : (∑ j, |(Lagrange.basis Finset.univ nodes j).eval x|) * |D| = ∑ j, |w j / (x - nodes j)| := by
      rw [Finset.sum_mul]
      refine Finset.sum_congr rfl fun j _ => ?_
      rw [(bary_basis w nodes hw hnodes x hx' j).2, ← hDdef, ← abs_mul, div_mul_cancel₀ _ hD]
    obtain ⟨S, hS⟩ : ∃ S, S = ((List.finRange n).map t).foldl (fun s x => fl (s + x)) 0 := ⟨_, rfl⟩
    have hsum : Ext.sumFl fl ((List.finRange n).map (baryTermFl fl w' nodes x)) = .fin S := by
      unfold Ext.sumFl
      have : (List.finRange n).map (baryTermFl fl w' nodes x) = ((List.finRange n).map t).map Ext.fin := by
        rw [List.map_map]
        exact List.map_congr_left fun j _ => ht j
      rw [this, sumFl_fin, hS]
    have hSerr : |S - D| ≤ ((1 + ε) ^ (n + m + 3) - 1) * (∑ j, |(Lagrange.basis Finset.univ nodes j).eval x|) * |D| := by
      have h1 := roundedSum_foldl (fl := fl) ((List.finRange n).map t) {0} 0 (RoundedSum.one 0)
      rw [← hS] at h1
      have h2 := sum_error hε hfl (fun j => w j / (x - nodes j)) t hterr h1 (by simp [add_comm])
        (by simp [Fin.sum_univ_def]) (by simp [Fin.sum_univ_def, Function.comp_def]) hDdef
      rw [mul_assoc, hlam]
      exact h2
    set lam := ∑ j, |(Lagrange.basis Finset.univ nodes j).eval x| with hlamdef
    have hS0 : S ≠ 0 := rel_ne (by linarith) hD hSerr
    refine ⟨fl (t i / S), ?_, fun k hk => absurd hk (hx' k), ?_⟩
    · unfold evaluateFl
      rw [if_neg (hx' i), hsum, ht i]
      simp [Ext.div, hS0, Ext.round]
    · rw [hb]
      have hp3 : (1 : ℚ) ≤ (1 + ε) ^ (m + 3) := one_le_pow₀ (by linarith)
      have h1 := rel_mul (by linarith) (hterr i) (rel_inv (by linarith) hD hSerr)
      have h2 := rel_fl hε hfl h1
      rw [div_eq_mul_inv, div_eq_mul_inv (w i / _)]
      refine rel_mono (le_of_eq ?_) h2
      ring

/-- `float64`, the three nodes -1, 0, 1 with the exact weights 1, -2, 1, at 1/2: the hypotheses hold. -/
example : TrueWeights (![1, -2, 1] : Fin 3 → ℚ) ![-1, 0, 1] ∧ Function.Injective (![-1, 0, 1] : Fin 3 → ℚ) ∧
    (∑ j, |(Lagrange.basis Finset.univ (![-1, 0, 1] : Fin 3 → ℚ) j).eval (1 / 2)|) = 5 / 4 ∧
    2 * (((1 + (1 / 2 : ℚ) ^ 53) ^ (3 + 0 + 3) - 1) * (5 / 4)) ≤ 1 := by
  have hi : Function.Injective (![-1, 0, 1] : Fin 3 → ℚ) := by
    intro a b h
    fin_cases a <;> fin_cases b <;> simp at h ⊢ <;> norm_num at h
  have hw : TrueWeights (![1, -2, 1] : Fin 3 → ℚ) ![-1, 0, 1] := by
    refine ⟨2, by norm_num, fun i => ?_⟩
    fin_cases i
    · have : (Finset.univ : Finset (Fin 3)).erase 0 = {1, 2} := by decide
      simp [this]; norm_num
    · have : (Finset.univ : Finset (Fin 3)).erase 1 = {0, 2} := by decide
      simp [this]
    · have : (Finset.univ : Finset (Fin 3)).erase 2 = {0, 1} := by decide
      simp [this]; norm_num
  refine ⟨hw, hi, ?_, by norm_num⟩
  have hx : ∀ k, (1 / 2 : ℚ) ≠ (![-1, 0, 1] : Fin 3 → ℚ) k := by
    intro k; fin_cases k <;> norm_num
  simp only [fun j => (bary_basis _ _ hw hi (1 / 2) hx j).2, Fin.sum_univ_three]
  have e2 : (![1, -2, 1] : Fin 3 → ℚ) 2 = 1 := rfl
  have e3 : (![-1, 0, 1] : Fin 3 → ℚ) 2 = 1 := rfl
  rw [e2, e3]
  norm_num [abs_of_pos, abs_of_neg]

/-- Interpolating the nodal values of a polynomial with the computed matrix (the products and sums of the interpolation
itself taken exactly). -/
theorem C140_polynomial {n m : ℕ} (hε : 0 ≤ ε) (hfl : ∀ x, |fl x - x| ≤ ε * |x|) (w w' nodes : Fin n → ℚ)
    (hw : TrueWeights w nodes) (hnodes : Function.Injective nodes)
    (hw' : ∀ j, |w' j - w j| ≤ ((1 + ε) ^ m - 1) * |w j|) (x : ℚ)
    (hsmall : 2 * (((1 + ε) ^ (n + m + 3) - 1) * ∑ j, |(Lagrange.basis Finset.univ nodes j).eval x|) ≤ 1)
    (v : Fin n → ℚ) (hv : ∀ i, evaluateFl fl w' nodes x i = .fin (v i)) (p : ℚ[X]) (hp : p.degree < n) (B : ℚ)
    (hB : ∀ i, |p.eval (nodes i)| ≤ B) :
    |∑ i, v i * p.eval (nodes i) - p.eval x| ≤
      ((1 + ε) ^ (m + 4) * (1 + 2 * (((1 + ε) ^ (n + m + 3) - 1) *
          ∑ j, |(Lagrange.basis Finset.univ nodes j).eval x|)) - 1) *
        (∑ j, |(Lagrange.basis Finset.univ nodes j).eval x|) * B := by
  have hpx : p.eval x = ∑ i, (Lagrange.basis Finset.univ nodes i).eval x * p.eval (nodes i) := by
    conv_lhs => rw [lagrange_expand hnodes p hp]
    simp only [eval_finsetSum, eval_mul, eval_C]
    exact Finset.sum_congr rfl fun i _ => mul_comm _ _
  rw [hpx, ← Finset.sum_sub_distrib, Finset.mul_sum, Finset.sum_mul]
  refine (Finset.abs_sum_le_sum_abs _ _).trans (Finset.sum_le_sum fun i _ => ?_)
  obtain ⟨u, hu, -, he⟩ := C140_interp_partial hε hfl w w' nodes hw hnodes hw' x hsmall i
  have : u = v i := by
    have := hu.symm.trans (hv i)
    simpa using this
  subst this
  rw [← sub_mul, abs_mul]
  exact mul_le_mul he (hB i) (abs_nonneg _) ((abs_nonneg _).trans he)

/-- A polynomial that is allowed: `1 + X^2` on the three nodes, bounded there by 2. -/
example : ((1 : ℚ[X]) + X ^ 2).degree < ((3 : ℕ) : WithBot ℕ) ∧ ∀ i, |((1 : ℚ[X]) + X ^ 2).eval ((![-1, 0, 1] : Fin 3 → ℚ) i)| ≤ 2 := by
  refine ⟨?_, fun i => by fin_cases i <;> norm_num⟩
  have : ((1 : ℚ[X]) + X ^ 2).degree ≤ 2 := by compute_degree
  exact lt_of_le_of_lt this (by norm_num)

/-- The differentiation matrix: entries off the diagonal have a small relative error, those on it an error relative to the
row. The weights may carry `m` roundings. -/
theorem C140_diff {n m : ℕ} (hε : 0 ≤ ε) (hε2 : ε ≤ 1 / 2) (hfl : ∀ x, |fl x - x| ≤ ε * |x|) (w w' nodes : Fin n → ℚ)
    (hw : TrueWeights w nodes) (hnodes : Function.Injective nodes) (hμ : (1 + ε) ^ m - 1 ≤ 1 / 2)
    (hw' : ∀ j, |w' j - w j| ≤ ((1 + ε) ^ m - 1) * |w j|) (D : Fin n → Fin n → ℚ) (hD : DiffMatrixFl fl w' nodes D)
    (i : Fin n) :
    (∀ j, i ≠ j → |D i j - (derivative (Lagrange.basis Finset.univ nodes j)).eval (nodes i)| ≤
      ((1 + ε) ^ (3 * m + 4) - 1) * |(derivative (Lagrange.basis Finset.univ nodes j)).eval (nodes i)|) ∧
    |D i i - (derivative (Lagrange.basis Finset.univ nodes i)).eval (nodes i)| ≤
      ((1 + ε) ^ (n + (3 * m + 4)) - 1) *
        ∑ j ∈ Finset.univ.erase i, |(derivative (Lagrange.basis Finset.univ nodes j)).eval (nodes i)| := by
  have hw0 := hw.ne_zero hnodes
  have hm1 : (1 : ℚ) ≤ (1 + ε) ^ m := one_le_pow₀ (by linarith)
  have hder : ∀ j, (derivative (Lagrange.basis Finset.univ nodes j)).eval (nodes i) = diffMatrix1d w nodes i j := by
    intro j
    have hdeg : (Lagrange.basis Finset.univ nodes j).degree < n := by
      rw [Lagrange.degree_basis hnodes.injOn (Finset.mem_univ j)]
      simp only [Finset.card_univ, Fintype.card_fin]
      have : 0 < n := j.pos
      exact_mod_cast (by omega : n - 1 < n)
    rw [← C33_exact w nodes hw hnodes _ hdeg i]
    simp only [Matrix.mulVec, dotProduct]
    rw [Finset.sum_eq_single j]
    · rw [Lagrange.eval_basis_self hnodes.injOn (Finset.mem_univ j), mul_one]
    · intro k _ hk
      rw [Lagrange.eval_basis_of_ne (Ne.symm hk) (Finset.mem_univ k), mul_zero]
    · simp
  have hoff : ∀ j, |diffOffFl fl w' nodes i j - diffOff w nodes i j| ≤
      ((1 + ε) ^ (3 * m + 4) - 1) * |diffOff w nodes i j| := by
    intro j
    unfold diffOffFl diffOff
    by_cases hij : i = j
    · simp [hij]
    · rw [if_pos hij, if_pos hij]
      have hd : nodes i - nodes j ≠ 0 := sub_ne_zero.mpr fun h => hij (hnodes h)
      have h1 := rel_fl hε hfl (rel_mul (by linarith) (hw' j) (rel_inv hμ (hw0 i) (hw' i)))
      rw [← div_eq_mul_inv, ← div_eq_mul_inv] at h1
      have hnn : 0 ≤ (1 + ε) * (1 + ((1 + ((1 + ε) ^ m - 1)) * (1 + 2 * ((1 + ε) ^ m - 1)) - 1)) - 1 := by
        nlinarith [mul_nonneg (sub_nonneg.mpr hm1) (sub_nonneg.mpr hm1)]
      have h2 := rel_fl hε hfl (rel_mul hnn h1 (rel_inv hε2 hd (hfl _)))
      rw [← div_eq_mul_inv, ← div_eq_mul_inv] at h2
      refine rel_mono ?_ h2
      have e : (1 + ε) ^ (3 * m + 4) = (1 + ε) * ((1 + ε) * ((1 + ε) ^ m * ((1 + ε) ^ m) ^ 2) * (1 + ε) ^ 2) := by ring
      rw [e]
      have a1 : 1 + 2 * ((1 + ε) ^ m - 1) ≤ ((1 + ε) ^ m) ^ 2 := two_le_sq
      have a2 : 1 + 2 * ε ≤ (1 + ε) ^ 2 := by nlinarith
      have b1 : (1 + ε) ^ m * (1 + 2 * ((1 + ε) ^ m - 1)) ≤ (1 + ε) ^ m * ((1 + ε) ^ m) ^ 2 :=
        mul_le_mul_of_nonneg_left a1 (by linarith)
      have b2 : (1 + ε) * ((1 + ε) ^ m * (1 + 2 * ((1 + ε) ^ m - 1))) * (1 + 2 * ε) ≤
          (1 + ε) * ((1 + ε) ^ m * ((1 + ε) ^ m) ^ 2) * (1 + ε) ^ 2 :=
        mul_le_mul (mul_le_mul_of_nonneg_left b1 (by linarith)) a2 (by linarith) (by positivity)
      have b3 := mul_le_mul_of_nonneg_left b2 (by linarith : 0 ≤ 1 + ε)
      ring_nf at b3 ⊢
      linarith
  obtain ⟨h1, s, hs, hDs⟩ := hD i
  have hval : ∀ j, i ≠ j → diffMatrix1d w nodes i j = diffOff w nodes i j := fun j hij => by
    simp [diffMatrix1d, hij]
  refine ⟨fun j hij => ?_, ?_⟩
  · rw [h1 j hij, hder j, hval j hij]
    exact hoff j
  · have hdiag : diffMatrix1d w nodes i i = - ∑ k, diffOff w nodes i k := by simp [diffMatrix1d]
    rw [hder i, hdiag, hDs, neg_sub_neg, abs_sub_comm]
    have h2 := sum_error hε hfl (diffOff w nodes i) (diffOffFl fl w' nodes i) hoff hs (by simp)
      (by simp [Fin.sum_univ_def]) (by simp [Fin.sum_univ_def, Function.comp_def]) rfl
    refine h2.trans (le_of_eq ?_)
    congr 1
    rw [← Finset.add_sum_erase _ _ (Finset.mem_univ i)]
    have : diffOff w nodes i i = 0 := by simp [diffOff]
    rw [this, abs_zero, zero_add]
    refine Finset.sum_congr rfl fun j hj => ?_
    rw [hder j, hval j (Finset.ne_of_mem_erase hj).symm]

/-- The hypotheses in `float64` with weights that carry ten roundings. -/
example : ((1 / 2 : ℚ) ^ 53 ≤ 1 / 2) ∧ (1 + (1 / 2 : ℚ) ^ 53) ^ 10 - 1 ≤ 1 / 2 ∧
    ∃ D, DiffMatrixFl (flBin 53) (![1, -2, 1] : Fin 3 → ℚ) ![-1, 0, 1] D := by
  refine ⟨by norm_num, by norm_num, fun i j => if i = j then
    -sumLeft (flBin 53) ((List.finRange 3).map (diffOffFl (flBin 53) ![1, -2, 1] ![-1, 0, 1] i))
    else diffOffFl (flBin 53) ![1, -2, 1] ![-1, 0, 1] i j, fun i => ⟨fun j hij => by simp [hij], _, ?_, by simp; rfl⟩⟩
  exact roundedSum_left (by simp)

/-- The derivative of a constant, whatever the weights: what remains is at most the roundings of one sum. -/
theorem C140_constants {n : ℕ} (hε : 0 ≤ ε) (hfl : ∀ x, |fl x - x| ≤ ε * |x|) (w nodes : Fin n → ℚ)
    (D : Fin n → Fin n → ℚ) (hD : DiffMatrixFl fl w nodes D) (i : Fin n) :
    |∑ j, D i j| ≤ ((1 + ε) ^ (n - 1) - 1) * ∑ j ∈ Finset.univ.erase i, |D i j| := by
  obtain ⟨h1, s, hs, hDs⟩ := hD i
  have h2 := hs.error hε hfl
  have hz : diffOffFl fl w nodes i i = 0 := by simp [diffOffFl]
  have e1 : ∑ j, diffOffFl fl w nodes i j = ∑ j ∈ Finset.univ.erase i, D i j := by
    rw [← Finset.add_sum_erase _ _ (Finset.mem_univ i), hz, zero_add]
    exact Finset.sum_congr rfl fun j hj => (h1 j (Finset.ne_of_mem_erase hj).symm).symm
  have e2 : ∑ j, |diffOffFl fl w nodes i j| = ∑ j ∈ Finset.univ.erase i, |D i j| := by
    rw [← Finset.add_sum_erase _ _ (Finset.mem_univ i), hz, abs_zero, zero_add]
    exact Finset.sum_congr rfl fun j hj => by rw [h1 j (Finset.ne_of_mem_erase hj).symm]
  rw [← Finset.add_sum_erase _ _ (Finset.mem_univ i), hDs, ← e1, ← e2, neg_add_eq_sub, abs_sub_comm]
  simpa [Fin.sum_univ_def, Function.comp_def] using h2

/-- Any row is allowed in `C140_constants`; here the one of the middle node has two entries other than zero. -/
example : diffOffFl (flBin 53) (![1, -2, 1] : Fin 3 → ℚ) ![-1, 0, 1] 1 0 ≠ 0 := by decide +kernel

/-- The rows of the computed interpolation matrix need not add up to one, so constants are not preserved: three
equidistant nodes, the point 1/2. -/
theorem C140_violated : ∀ p ∈ [8, 11, 24, 53], ∃ v : Fin 3 → ℚ,
    (∀ i, evaluateFl (flBin p) (![1, -2, 1] : Fin 3 → ℚ) ![-1, 0, 1] (1 / 2) i = .fin (v i)) ∧ v 0 + v 1 + v 2 ≠ 1 := by
  have key : ∀ p ∈ [8, 11, 24, 53], (∀ i, ((evaluateFl (flBin p) (![1, -2, 1] : Fin 3 → ℚ) ![-1, 0, 1] (1 / 2) i).toField?).isSome) ∧
      (((evaluateFl (flBin p) (![1, -2, 1] : Fin 3 → ℚ) ![-1, 0, 1] (1 / 2) 0).toField?).getD 0 +
       ((evaluateFl (flBin p) (![1, -2, 1] : Fin 3 → ℚ) ![-1, 0, 1] (1 / 2) 1).toField?).getD 0 +
       ((evaluateFl (flBin p) (![1, -2, 1] : Fin 3 → ℚ) ![-1, 0, 1] (1 / 2) 2).toField?).getD 0) ≠ 1 := by
    decide +kernel
  intro p hp
  refine ⟨fun i => ((evaluateFl (flBin p) (![1, -2, 1] : Fin 3 → ℚ) ![-1, 0, 1] (1 / 2) i).toField?).getD 0,
    fun i => ?_, (key p hp).2⟩
  have h := (key p hp).1 i
  obtain ⟨u, hu⟩ : ∃ u, u = evaluateFl (flBin p) (![1, -2, 1] : Fin 3 → ℚ) ![-1, 0, 1] (1 / 2) i := ⟨_, rfl⟩
  simp only [← hu] at h ⊢
  cases u <;> simp [Ext.toField?] at h ⊢

end Verif.Core
