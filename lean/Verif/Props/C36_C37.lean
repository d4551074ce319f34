import Verif.Model.TimeStepping
import Verif.Props.C31_C33

/-!
# C36, C37: extrapolation and backward differentiation coefficients
-/

namespace Verif.NS

open Verif.Core Polynomial

variable {K : Type*} [Field K] [LinearOrder K] [IsStrictOrderedRing K]

theorem ncNode_last (k : ℕ) (hk : 1 ≤ k) : (ncNode (k + 1) (Fin.last k) : K) = 1 := by
  have : (k : K) ≠ 0 := by rw [Nat.cast_ne_zero]; omega
  unfold ncNode
  simp only [Fin.val_last, Nat.add_sub_cancel]
  field_simp
  ring

theorem extk_exists (k : ℕ) (hk : 1 ≤ k) : ∃ c : Fin (k + 1) → K, extkCoeffs k = some c ∧
    ∀ p : K[X], p.degree < (k + 1 : ℕ) → ∑ i, c i * p.eval (ncNode (k + 1) i) = p.eval (1 + 2 / (k : K)) := by
  obtain ⟨M, hM, h⟩ := C32_newton_cotes (K := K) (k + 1) (fun _ : Fin 1 => (1 + 2 / (k : K)))
  refine ⟨fun i => (toNMat M).entry 0 i, ?_, fun p hp => ?_⟩
  · unfold extkCoeffs
    rw [if_neg (by omega), hM]
    rfl
  · rw [← h p hp 0]
    simp only [Matrix.mulVec, dotProduct]
    apply Finset.sum_congr rfl
    intro i _
    congr 1
    have := i.2
    simp [toNMat]
    intro hlt
    omega

theorem bdfk_exists (k : ℕ) (hk : 1 ≤ k) : ∃ c : Fin (k + 1) → K, bdfkCoeffs k = some c ∧
    ∀ p : K[X], p.degree < (k + 1 : ℕ) →
      ∑ i, c i * p.eval (ncNode (k + 1) i) = (derivative p).eval 1 * (2 / (k : K)) := by
  obtain ⟨M, hM, h⟩ := C32_newton_cotes (K := K) (k + 1) (fun _ : Fin 1 => (1 : K))
  refine ⟨fun i => (toNMat (M * diffMatrix1d (ncWeight (k + 1)) (ncNode (k + 1)))).entry 0 i * (2 / (k : K)),
    ?_, fun p hp => ?_⟩
  · unfold bdfkCoeffs
    rw [if_neg (by omega), hM]
    rfl
  · have hd : (derivative p).degree < (k + 1 : ℕ) := lt_of_le_of_lt degree_derivative_le hp
    have hh := h (derivative p) hd 0
    have hD : (fun i => (derivative p).eval (ncNode (k + 1) i)) =
        (diffMatrix1d (ncWeight (k + 1)) (ncNode (k + 1))).mulVec (fun j => p.eval (ncNode (k + 1) j)) := by
      funext i
      exact (C33_newton_cotes (K := K) (k + 1) p hp i).symm
    rw [hD, Matrix.mulVec_mulVec] at hh
    rw [← hh]
    simp only [Matrix.mulVec, dotProduct]
    rw [Finset.sum_mul]
    apply Finset.sum_congr rfl
    intro i _
    have hi : (i : ℕ) ≤ k := Nat.lt_succ_iff.mp i.2
    simp [toNMat, hi]
    ring

/-- The change of variable that takes the reference nodes to `t0, t0 + s, ...`. -/
theorem affine_node (k : ℕ) (hk : 1 ≤ k) (t0 s : K) (i : Fin (k + 1)) :
    t0 + (ncNode (k + 1) i + 1) * ((k : K) / 2 * s) = t0 + (i : ℕ) * s := by
  have : (k : K) ≠ 0 := by rw [Nat.cast_ne_zero]; omega
  unfold ncNode
  simp only [Nat.add_sub_cancel]
  field_simp
  ring

/-- The polynomial in the reference variable. -/
noncomputable def rescale (p : K[X]) (t0 b : K) : K[X] := p.comp (C t0 + (X + 1) * C b)

omit [LinearOrder K] [IsStrictOrderedRing K] in
theorem rescale_eval (p : K[X]) (t0 b x : K) : (rescale p t0 b).eval x = p.eval (t0 + (x + 1) * b) := by
  simp [rescale]

omit [LinearOrder K] [IsStrictOrderedRing K] in
theorem rescale_derivative (p : K[X]) (t0 b x : K) :
    (derivative (rescale p t0 b)).eval x = b * (derivative p).eval (t0 + (x + 1) * b) := by
  simp [rescale, derivative_comp]

omit [LinearOrder K] [IsStrictOrderedRing K] in
theorem rescale_degree (p : K[X]) (t0 b : K) (n : ℕ) (hp : p.degree < (n + 1 : ℕ)) :
    (rescale p t0 b).degree < (n + 1 : ℕ) := by
  have h1 : p.natDegree ≤ n := by
    by_cases h0 : p = 0
    · simp [h0]
    · have := (natDegree_lt_iff_degree_lt h0).mpr hp
      omega
  have h2 : (C t0 + (X + 1) * C b : K[X]).natDegree ≤ 1 := by
    have : (C t0 + (X + 1) * C b : K[X]) = C b * X + C (t0 + b) := by
      simp only [C_add]; ring
    rw [this]
    exact natDegree_linear_le
  have h3 : (rescale p t0 b).natDegree ≤ n := by
    unfold rescale
    refine natDegree_comp_le.trans ?_
    calc p.natDegree * _ ≤ n * 1 := Nat.mul_le_mul h1 h2
      _ = n := by ring
  exact lt_of_le_of_lt degree_le_natDegree (by exact_mod_cast Nat.lt_succ_of_le h3)

/-- EXT coefficients extrapolate one step: exact for every polynomial of degree at most `k`, any origin and
step. -/
theorem C36_exact (k : ℕ) (hk : 1 ≤ k) : ∃ c : Fin (k + 1) → K, extkCoeffs k = some c ∧
    ∀ (p : K[X]) (t0 s : K), p.degree ≤ k →
      ∑ i : Fin (k + 1), c i * p.eval (t0 + (i : ℕ) * s) = p.eval (t0 + (k + 1) * s) := by
  obtain ⟨c, hc, h⟩ := extk_exists (K := K) k hk
  have hk0 : (k : K) ≠ 0 := by rw [Nat.cast_ne_zero]; omega
  refine ⟨c, hc, fun p t0 s hp => ?_⟩
  have hp' : p.degree < (k + 1 : ℕ) := lt_of_le_of_lt hp (by exact_mod_cast Nat.lt_succ_self k)
  have := h (rescale p t0 ((k : K) / 2 * s)) (rescale_degree p _ _ k hp')
  simp only [rescale_eval, affine_node k hk] at this
  rw [this]
  congr 1
  field_simp
  ring

theorem C36_sum_one (k : ℕ) (c : Fin (k + 1) → K) (hc : extkCoeffs k = some c) : ∑ i, c i = 1 := by
  have hk : 1 ≤ k := by
    by_contra h
    have : k = 0 := by omega
    subst this
    simp [extkCoeffs] at hc
  obtain ⟨c', hc', h⟩ := C36_exact (K := K) k hk
  rw [hc, Option.some.injEq] at hc'
  subst hc'
  have := h 1 0 0 (by rw [degree_one]; exact_mod_cast Nat.zero_le k)
  simpa using this

/-- Closed form of the EXT coefficients. -/
theorem C36_closed_form (k : ℕ) (c : Fin (k + 1) → K) (hc : extkCoeffs k = some c) (i : Fin (k + 1)) :
    c i = (-1) ^ (k - (i : ℕ)) * ((k + 1).choose i : K) := by
  have hk : 1 ≤ k := by
    by_contra h
    have : k = 0 := by omega
    subst this
    simp [extkCoeffs] at hc
  obtain ⟨c', hc', h⟩ := C36_exact (K := K) k hk
  rw [hc, Option.some.injEq] at hc'
  subst hc'
  -- test against the basis polynomial of node `i` on the integers
  have hinj : Function.Injective (fun j : Fin (k + 1) => ((j : ℕ) : K)) := fun a b hab =>
    Fin.ext (Nat.cast_injective (R := K) hab)
  have hb := h (Lagrange.basis Finset.univ (fun j : Fin (k + 1) => ((j : ℕ) : K)) i) 0 1 (by
    rw [Lagrange.degree_basis hinj.injOn (Finset.mem_univ i)]; simp)
  simp only [zero_add, mul_one] at hb
  rw [Finset.sum_eq_single i] at hb
  · rw [Lagrange.eval_basis_self hinj.injOn (Finset.mem_univ i), mul_one] at hb
    rw [hb]
    have hev : (Lagrange.basis Finset.univ (fun j : Fin (k + 1) => ((j : ℕ) : K)) i).eval ((k : K) + 1) =
        ∏ j ∈ Finset.univ.erase i, ((((i : ℕ) : K) - ((j : ℕ) : K))⁻¹ * ((k : K) + 1 - ((j : ℕ) : K))) := by
      rw [Lagrange.basis, eval_prod]
      apply Finset.prod_congr rfl
      intro j _
      simp [Lagrange.basisDivisor]
    rw [hev, Finset.prod_mul_distrib, Finset.prod_inv_distrib, prod_int_diffs]
    have hi := i.2
    have hnum : ((k : K) + 1 - ((i : ℕ) : K)) * ∏ j ∈ Finset.univ.erase i, ((k : K) + 1 - ((j : ℕ) : K)) =
        ((k + 1).factorial : K) := by
      rw [Finset.mul_prod_erase Finset.univ (fun j : Fin (k + 1) => (k : K) + 1 - ((j : ℕ) : K))
        (Finset.mem_univ i)]
      rw [Fin.prod_univ_eq_prod_range (fun j => (k : K) + 1 - (j : K)) (k + 1), ← Finset.prod_range_reflect,
        ← Finset.prod_range_add_one_eq_factorial, Nat.cast_prod]
      apply Finset.prod_congr rfl
      intro x hx
      rw [Finset.mem_range] at hx
      have : ((k + 1 - 1 - x : ℕ) : K) = (k : K) - (x : K) := by
        rw [Nat.add_sub_cancel, Nat.cast_sub (by omega)]
      rw [this]; push_cast; ring
    have hki : ((k : K) + 1 - ((i : ℕ) : K)) = ((k + 1 - i : ℕ) : K) := by
      rw [Nat.cast_sub (by omega)]; push_cast; ring
    have hki0 : ((k + 1 - i : ℕ) : K) ≠ 0 := by rw [Nat.cast_ne_zero]; omega
    rw [hki] at hnum
    have hf1 : ((i : ℕ).factorial : K) ≠ 0 := by rw [Nat.cast_ne_zero]; exact Nat.factorial_ne_zero _
    have hf2 : ((k - i).factorial : K) ≠ 0 := by rw [Nat.cast_ne_zero]; exact Nat.factorial_ne_zero _
    have hs0 : ((-1 : K)) ^ (k - (i : ℕ)) ≠ 0 := pow_ne_zero _ (by norm_num)
    have hsq : ((-1 : K)) ^ (k - (i : ℕ)) * (-1) ^ (k - (i : ℕ)) = 1 := by
      rw [← mul_pow]; norm_num
    have hch : (((k + 1).choose i : ℕ) : K) * ((i : ℕ).factorial : K) * (((k + 1 - i : ℕ) : K) * ((k - i).factorial : K)) =
        ((k + 1).factorial : K) := by
      have h1 := Nat.choose_mul_factorial_mul_factorial (by omega : (i : ℕ) ≤ k + 1)
      have h2 : (k + 1 - i).factorial = (k + 1 - i) * (k - i).factorial := by
        have : k + 1 - i = (k - i) + 1 := by omega
        rw [this, Nat.factorial_succ]
      rw [h2] at h1
      exact_mod_cast h1
    rw [inv_mul_eq_iff_eq_mul₀ (mul_ne_zero (mul_ne_zero hs0 hf1) hf2)]
    apply mul_left_cancel₀ hki0
    rw [hnum, ← hch]
    linear_combination (-(((k + 1 - i : ℕ) : K)) * ((i : ℕ).factorial : K) * ((k - i).factorial : K) *
      ((k + 1).choose i : K)) * hsq
  · intro j _ hj
    have := Lagrange.eval_basis_of_ne (v := fun j : Fin (k + 1) => ((j : ℕ) : K)) (fun h => hj h.symm)
      (Finset.mem_univ j)
    rw [this, mul_zero]
  · intro h; exact absurd (Finset.mem_univ i) h

/-- BDF coefficients: step times the derivative at the last sample, exact for degree at most `k`. -/
theorem C37_exact (k : ℕ) (hk : 1 ≤ k) : ∃ c : Fin (k + 1) → K, bdfkCoeffs k = some c ∧
    ∀ (p : K[X]) (t0 s : K), p.degree ≤ k →
      ∑ i : Fin (k + 1), c i * p.eval (t0 + (i : ℕ) * s) = s * (derivative p).eval (t0 + k * s) := by
  obtain ⟨c, hc, h⟩ := bdfk_exists (K := K) k hk
  have hk0 : (k : K) ≠ 0 := by rw [Nat.cast_ne_zero]; omega
  refine ⟨c, hc, fun p t0 s hp => ?_⟩
  have hp' : p.degree < (k + 1 : ℕ) := lt_of_le_of_lt hp (by exact_mod_cast Nat.lt_succ_self k)
  have := h (rescale p t0 ((k : K) / 2 * s)) (rescale_degree p _ _ k hp')
  simp only [rescale_eval, rescale_derivative, affine_node k hk] at this
  rw [this]
  have he : t0 + (1 + 1) * ((k : K) / 2 * s) = t0 + k * s := by field_simp; ring
  rw [he]
  field_simp

theorem C37_sum_zero (k : ℕ) (c : Fin (k + 1) → K) (hc : bdfkCoeffs k = some c) : ∑ i, c i = 0 := by
  have hk : 1 ≤ k := by
    by_contra h
    have : k = 0 := by omega
    subst this
    simp [bdfkCoeffs] at hc
  obtain ⟨c', hc', h⟩ := C37_exact (K := K) k hk
  rw [hc, Option.some.injEq] at hc'
  subst hc'
  have := h 1 0 0 (by rw [degree_one]; exact_mod_cast Nat.zero_le k)
  simpa using this

/-- The leading BDF coefficient is the harmonic number. -/
theorem C37_leading (k : ℕ) (c : Fin (k + 1) → K) (hc : bdfkCoeffs k = some c) :
    c (Fin.last k) = ∑ j ∈ Finset.range k, 1 / ((j : K) + 1) ∧ 0 < c (Fin.last k) := by
  have hk : 1 ≤ k := by
    by_contra h
    have : k = 0 := by omega
    subst this
    simp [bdfkCoeffs] at hc
  obtain ⟨c', hc', h⟩ := C37_exact (K := K) k hk
  rw [hc, Option.some.injEq] at hc'
  subst hc'
  have hfac : ∏ j ∈ Finset.range k, ((k : K) - (j : K)) = (k.factorial : K) := by
    rw [← Finset.prod_range_reflect, ← Finset.prod_range_add_one_eq_factorial, Nat.cast_prod]
    apply Finset.prod_congr rfl
    intro x hx
    rw [Finset.mem_range] at hx
    have : ((k - 1 - x : ℕ) : K) = (k : K) - 1 - (x : K) := by
      rw [Nat.cast_sub (by omega), Nat.cast_sub (by omega)]; simp
    rw [this]; push_cast; ring
  have hf0 : (k.factorial : K) ≠ 0 := by rw [Nat.cast_ne_zero]; exact Nat.factorial_ne_zero _
  let p : K[X] := ∏ j ∈ Finset.range k, (X - C (j : K))
  have hdeg : p.degree ≤ k := by
    have : p.degree = (k : ℕ) := by
      have hm : p.natDegree = k := by
        simp only [p]
        rw [natDegree_prod_of_monic _ _ (fun i _ => monic_X_sub_C _)]
        simp only [natDegree_X_sub_C, Finset.sum_const, Finset.card_range, smul_eq_mul, mul_one]
      have hp0 : p ≠ 0 := (monic_prod_of_monic _ _ (fun i _ => monic_X_sub_C _)).ne_zero
      rw [degree_eq_natDegree hp0, hm]
    rw [this]
  have hh := h p 0 1 hdeg
  simp only [zero_add, mul_one, one_mul] at hh
  have hlhs : ∑ i : Fin (k + 1), c i * p.eval ((i : ℕ) : K) = c (Fin.last k) * (k.factorial : K) := by
    rw [Finset.sum_eq_single (Fin.last k)]
    · congr 1
      simp only [p, eval_prod, eval_sub, eval_X, eval_C, Fin.val_last]
      exact hfac
    · intro j _ hj
      have hjk : (j : ℕ) < k := by
        have := j.2
        have : (j : ℕ) ≠ k := fun hc => hj (Fin.ext hc)
        omega
      have : p.eval ((j : ℕ) : K) = 0 := by
        simp only [p, eval_prod, eval_sub, eval_X, eval_C]
        exact Finset.prod_eq_zero (Finset.mem_range.mpr hjk) (sub_self _)
      rw [this, mul_zero]
    · intro hc; exact absurd (Finset.mem_univ _) hc
  have hrhs : (derivative p).eval (k : K) = (k.factorial : K) * ∑ j ∈ Finset.range k, 1 / ((j : K) + 1) := by
    simp only [p]
    rw [derivative_prod_finset, eval_finsetSum]
    rw [← Finset.sum_range_reflect (fun j => 1 / ((j : K) + 1)), Finset.mul_sum]
    apply Finset.sum_congr rfl
    intro b hb
    rw [Finset.mem_range] at hb
    have hkb : ((k - 1 - b : ℕ) : K) + 1 = (k : K) - (b : K) := by
      rw [Nat.cast_sub (by omega), Nat.cast_sub (by omega), Nat.cast_one]; ring
    have hkb0 : (k : K) - (b : K) ≠ 0 := by
      rw [sub_ne_zero]
      intro hc
      have : k = b := by exact_mod_cast hc
      omega
    rw [hkb, ← hfac, ← Finset.mul_prod_erase _ _ (Finset.mem_range.mpr hb)]
    simp only [derivative_sub, derivative_X, derivative_C, sub_zero, mul_one, eval_prod, eval_sub, eval_X, eval_C]
    field_simp
  rw [hlhs, hrhs] at hh
  have hval : c (Fin.last k) = ∑ j ∈ Finset.range k, 1 / ((j : K) + 1) := by
    apply mul_left_cancel₀ hf0
    rw [← hh]; ring
  refine ⟨hval, ?_⟩
  rw [hval]
  apply Finset.sum_pos
  · intro j _
    have : (0 : K) ≤ (j : K) := Nat.cast_nonneg j
    positivity
  · exact Finset.nonempty_range_iff.mpr (by omega)

/-- BDF2 coefficients `1/2, -2, 3/2` and EXT2 coefficients `1, -3, 3`. -/
example : ((bdfkCoeffs 2 : Option (Fin 3 → ℚ)).map (fun c => [c 0, c 1, c 2])) = some [1 / 2, -2, 3 / 2] ∧
    ((extkCoeffs 2 : Option (Fin 3 → ℚ)).map (fun c => [c 0, c 1, c 2])) = some [1, -3, 3] := by
  constructor <;> decide +kernel

end Verif.NS
