import Verif.Lemmas.Legendre
import Verif.Props.C31_C33
import Mathlib.Order.Interval.Finset.Fin

/-!
# Interpolatory quadrature on the roots of an orthogonal polynomial
-/

namespace Verif.Core

open Polynomial

theorem deg_C_mul_le (a : ℝ) (p : ℝ[X]) : (C a * p).degree ≤ p.degree := by
  rw [C_mul']; exact degree_smul_le _ _

/-- A polynomial of degree `n` with `n` given roots. -/
theorem eq_nodal {n : ℕ} {x : Fin n → ℝ} (hx : Function.Injective x) {Q : ℝ[X]} (hQ : Q.natDegree = n)
    (h : ∀ i, Q.eval (x i) = 0) : Q = C (Q.coeff n) * Lagrange.nodal Finset.univ x := by
  have hm : (Lagrange.nodal Finset.univ x).Monic := Lagrange.nodal_monic
  have hd : (Lagrange.nodal Finset.univ x).natDegree = n := by rw [Lagrange.natDegree_nodal, Finset.card_univ, Fintype.card_fin]
  have hdeg : (Q - C (Q.coeff n) * Lagrange.nodal Finset.univ x).degree < (n : ℕ) := by
    rw [degree_lt_iff_coeff_zero]
    intro k hk
    rw [coeff_sub, coeff_C_mul]
    rcases Nat.eq_or_lt_of_le hk with rfl | hlt
    · have := hm.coeff_natDegree
      rw [hd] at this
      rw [this, mul_one, sub_self]
    · rw [coeff_eq_zero_of_natDegree_lt (p := Q) (by omega),
        coeff_eq_zero_of_natDegree_lt (p := Lagrange.nodal Finset.univ x) (by omega), mul_zero, sub_zero]
  have := lagrange_expand hx _ hdeg
  rw [← sub_eq_zero, this]
  apply Finset.sum_eq_zero
  intro i _
  rw [eval_sub, eval_mul, h i, Lagrange.eval_nodal_at_node (Finset.mem_univ i), mul_zero, sub_zero, C_0, zero_mul]

/-- The quotient of the node polynomial by one of its factors. -/
theorem quotient_at {n : ℕ} {x : Fin n → ℝ} (hx : Function.Injective x) {Q : ℝ[X]} (hQ : Q.natDegree = n)
    (h : ∀ i, Q.eval (x i) = 0) (i : Fin n) : ∃ ω : ℝ[X], (X - C (x i)) * ω = Q ∧ ω.degree < (n : ℕ) ∧
      ω.coeff (n - 1) = Q.coeff n ∧ ω.eval (x i) = (derivative Q).eval (x i) ∧
      ω = C ((derivative Q).eval (x i)) * Lagrange.basis Finset.univ x i := by
  have hn : 0 < n := Fin.pos i
  refine ⟨C (Q.coeff n) * Lagrange.nodal (Finset.univ.erase i) x, ?_, ?_, ?_⟩
  · conv_rhs => rw [eq_nodal hx hQ h, Lagrange.nodal_eq_mul_nodal_erase (Finset.mem_univ i)]
    ring
  · refine lt_of_le_of_lt (deg_C_mul_le _ _) ?_
    rw [Lagrange.degree_nodal, Finset.card_erase_of_mem (Finset.mem_univ i), Finset.card_univ, Fintype.card_fin]
    exact_mod_cast (by omega : n - 1 < n)
  have hmon : (Lagrange.nodal (Finset.univ.erase i) x).coeff (n - 1) = 1 := by
    have h1 : (Lagrange.nodal (Finset.univ.erase i) x).Monic := Lagrange.nodal_monic
    have h2 := h1.coeff_natDegree
    rwa [Lagrange.natDegree_nodal, Finset.card_erase_of_mem (Finset.mem_univ i), Finset.card_univ, Fintype.card_fin] at h2
  have hder : (C (Q.coeff n) * Lagrange.nodal (Finset.univ.erase i) x).eval (x i) = (derivative Q).eval (x i) := by
    conv_rhs => rw [eq_nodal hx hQ h]
    rw [derivative_C_mul, eval_mul, eval_C, eval_mul, eval_C, Lagrange.eval_nodal_derivative_eval_node_eq (Finset.mem_univ i)]
  refine ⟨by rw [coeff_C_mul, hmon, mul_one], hder, ?_⟩
  have hdeg : (C (Q.coeff n) * Lagrange.nodal (Finset.univ.erase i) x).degree < (n : ℕ) := by
    refine lt_of_le_of_lt (deg_C_mul_le _ _) ?_
    rw [Lagrange.degree_nodal, Finset.card_erase_of_mem (Finset.mem_univ i), Finset.card_univ, Fintype.card_fin]
    exact_mod_cast (by omega : n - 1 < n)
  have hexp := lagrange_expand hx _ hdeg
  rw [Finset.sum_eq_single i] at hexp
  · rw [hder] at hexp
    exact hexp
  · intro j _ hj
    rw [eval_mul, Lagrange.eval_nodal_at_node (Finset.mem_erase.mpr ⟨hj, Finset.mem_univ j⟩), mul_zero, C_0, zero_mul]
  · intro hi; exact absurd (Finset.mem_univ i) hi

/-- Quadrature on the zeros of a polynomial that is orthogonal to all polynomials of degree below `k`. -/
theorem gauss_exact {n k : ℕ} {x : Fin n → ℝ} (hx : Function.Injective x) {Q : ℝ[X]} (hQ : Q.natDegree = n) (hQ0 : Q ≠ 0)
    (h : ∀ i, Q.eval (x i) = 0) (hs : ∀ i, (derivative Q).eval (x i) ≠ 0)
    (ho : ∀ q : ℝ[X], q.degree < (k : ℕ) → integ (Q * q) = 0) {w : Fin n → ℝ}
    (hw : ∀ i, ∀ ω : ℝ[X], (X - C (x i)) * ω = Q → w i * (derivative Q).eval (x i) = integ ω)
    {f : ℝ[X]} (hf : f.degree < (n + k : ℕ)) : ∑ i, w i * f.eval (x i) = integ f := by
  have hbasis : ∀ i, integ (Lagrange.basis Finset.univ x i) = w i := by
    intro i
    obtain ⟨ω, h1, _, _, _, h5⟩ := quotient_at hx hQ h i
    have := hw i ω h1
    rw [h5, integ_C_mul, mul_comm] at this
    exact (mul_left_cancel₀ (hs i) this).symm
  have hdm := EuclideanDomain.div_add_mod f Q
  have hr : (f % Q).degree < (n : ℕ) := by
    have := EuclideanDomain.mod_lt f hQ0
    rw [← hQ, ← degree_eq_natDegree hQ0]
    exact this
  have hq : (f / Q).degree < (k : ℕ) := by
    by_cases h0 : f / Q = 0
    · rw [h0, degree_zero]; exact WithBot.bot_lt_coe _
    · have hle : ¬ f.degree < Q.degree := fun hc => h0 ((Polynomial.div_eq_zero_iff hQ0).mpr hc)
      have hadd := degree_add_div hQ0 (not_lt.mp hle)
      rw [← hadd, degree_eq_natDegree hQ0, degree_eq_natDegree h0, hQ] at hf
      rw [degree_eq_natDegree h0]
      have : n + (f / Q).natDegree < n + k := by exact_mod_cast hf
      exact_mod_cast (by omega : (f / Q).natDegree < k)
  have heval : ∀ i, f.eval (x i) = (f % Q).eval (x i) := by
    intro i
    conv_lhs => rw [← hdm]
    rw [eval_add, eval_mul, h i, zero_mul, zero_add]
  have hI : integ f = integ (f % Q) := by
    conv_lhs => rw [← hdm]
    rw [map_add, ho _ hq, zero_add]
  rw [hI]
  conv_rhs => rw [lagrange_expand hx _ hr]
  rw [map_sum]
  refine Finset.sum_congr rfl fun i _ => ?_
  rw [integ_C_mul, hbasis, heval, mul_comm]

/-- Sign of the derivative of the node polynomial. -/
theorem prod_sign {n : ℕ} {x : Fin n → ℝ} (hx : StrictMono x) (i : Fin n) :
    ∏ j ∈ Finset.univ.erase i, (x i - x j) = (-1) ^ (n - 1 - (i : ℕ)) * |∏ j ∈ Finset.univ.erase i, (x i - x j)| := by
  rw [Finset.abs_prod]
  have : ∀ j ∈ Finset.univ.erase i, x i - x j = (if i < j then (-1 : ℝ) else 1) * |x i - x j| := by
    intro j hj
    have hne := (Finset.mem_erase.mp hj).1
    rcases lt_or_gt_of_ne hne with hlt | hlt
    · rw [if_neg (not_lt.mpr hlt.le), one_mul, abs_of_pos (sub_pos.mpr (hx hlt))]
    · rw [if_pos hlt, abs_of_neg (sub_neg.mpr (hx hlt))]; ring
  conv_lhs => rw [Finset.prod_congr rfl this, Finset.prod_mul_distrib]
  congr 1
  rw [Finset.prod_ite, Finset.prod_const, Finset.prod_const_one, mul_one]
  congr 1
  have : (Finset.univ.erase i).filter (fun j => i < j) = Finset.Ioi i := by
    ext j
    simp only [Finset.mem_filter, Finset.mem_erase, Finset.mem_univ, and_true, Finset.mem_Ioi]
    constructor
    · rintro ⟨_, h⟩; exact h
    · intro h; exact ⟨h.ne', h⟩
  rw [this, Fin.card_Ioi]

/-- Alternating weights of the right size are the barycentric weights. -/
theorem bary_true {n : ℕ} {x : Fin n → ℝ} (hx : StrictMono x) {Q : ℝ[X]} (hQ : Q.natDegree = n) (hQ0 : Q ≠ 0)
    (h : ∀ i, Q.eval (x i) = 0) {s : ℝ} (hs : 0 < s) {b : Fin n → ℝ}
    (hb : ∀ i, b i = (-1) ^ (i : ℕ) * (s / |(derivative Q).eval (x i)|)) : TrueWeights b x := by
  have hlc : Q.coeff n ≠ 0 := by
    rw [← hQ]; exact leadingCoeff_ne_zero.mpr hQ0
  refine ⟨(-1) ^ (n - 1) * (s / |Q.coeff n|), ?_, fun i => ?_⟩
  · refine mul_ne_zero (pow_ne_zero _ (by norm_num)) (div_ne_zero hs.ne' (abs_ne_zero.mpr hlc))
  have hder : (derivative Q).eval (x i) = Q.coeff n * ∏ j ∈ Finset.univ.erase i, (x i - x j) := by
    conv_lhs => rw [eq_nodal hx.injective hQ h]
    rw [derivative_C_mul, eval_mul, eval_C, Lagrange.eval_nodal_derivative_eval_node_eq (Finset.mem_univ i),
      Lagrange.eval_nodal]
  rw [hb, hder, abs_mul, Finset.prod_inv_distrib]
  conv_rhs => rw [prod_sign hx i]
  rw [mul_inv]
  have e : ((-1 : ℝ) ^ (n - 1 - (i : ℕ)))⁻¹ = (-1) ^ (n - 1 - (i : ℕ)) := by
    rw [← inv_pow]; norm_num
  rw [e]
  have hi : (i : ℕ) ≤ n - 1 := by have := i.2; omega
  have e2 : (-1 : ℝ) ^ (n - 1) * (-1) ^ (n - 1 - (i : ℕ)) = (-1) ^ (i : ℕ) := by
    rw [← pow_add, show n - 1 + (n - 1 - (i : ℕ)) = i + 2 * (n - 1 - i) by omega, pow_add, pow_mul]
    norm_num
  rw [← e2]
  rw [div_mul_eq_div_div, div_eq_mul_inv _ (|∏ j ∈ Finset.univ.erase i, (x i - x j)|)]
  ring

/-! ### Gauss-Legendre -/

theorem integ_eq_lead {n : ℕ} {q : ℝ[X]} (hq : q.degree < (n + 1 : ℕ)) :
    integ (legendre n * q) = q.coeff n / (legendre n).coeff n * (2 / (2 * (n : ℝ) + 1)) := by
  have h := legendre_orth (reduce_degree hq)
  rw [mul_sub, map_sub, mul_left_comm, integ_C_mul, sub_eq_zero] at h
  rw [h]
  have := legendre_norm n
  have h0 : (2 * (n : ℝ) + 1) ≠ 0 := by positivity
  congr 1
  field_simp
  linarith

theorem degree_div_lt {n : ℕ} {p ω : ℝ[X]} {x : ℝ} (h : (X - C x) * ω = p) (hp : p.degree < (n + 1 : ℕ)) :
    ω.degree < (n : ℕ) := by
  rw [← h, degree_mul, degree_X_sub_C] at hp
  by_cases h0 : ω = 0
  · rw [h0, degree_zero]; exact WithBot.bot_lt_coe _
  · rw [degree_eq_natDegree h0] at hp ⊢
    have : 1 + ω.natDegree < n + 1 := by exact_mod_cast hp
    exact_mod_cast (by omega : ω.natDegree < n)

/-- The integral that determines the Gauss weights. -/
theorem gl_integral {n : ℕ} {x : ℝ} {ω : ℝ[X]} (h : (X - C x) * ω = legendre (n + 1)) :
    ((n : ℝ) + 1) * (legendre n).eval x * integ ω = 2 := by
  have hω : ω.degree < (n + 1 : ℕ) := degree_div_lt h (by
    rw [degree_eq_natDegree (legendre_ne_zero _), legendre_natDegree]; exact_mod_cast Nat.lt_succ_self _)
  have hc : ω.coeff n = (legendre (n + 1)).coeff (n + 1) := by
    rw [← h, sub_mul, coeff_sub, coeff_X_mul, coeff_C_mul, coeff_eq_zero_of_degree_lt hω, mul_zero, sub_zero]
  obtain ⟨q, hq⟩ : (X - C x) ∣ legendre n - C ((legendre n).eval x) := by
    rw [dvd_iff_isRoot]; simp [IsRoot]
  have hqd : q.degree < (n : ℕ) := degree_div_lt hq.symm (by
    refine lt_of_le_of_lt (degree_sub_le _ _) (max_lt ?_ ?_)
    · rw [degree_eq_natDegree (legendre_ne_zero _), legendre_natDegree]; exact_mod_cast Nat.lt_succ_self _
    · exact lt_of_le_of_lt degree_C_le (by exact_mod_cast Nat.succ_pos n))
  have h1 : integ (ω * (legendre n - C ((legendre n).eval x))) = 0 := by
    rw [hq, ← mul_assoc, mul_comm ω, h]
    exact legendre_orth (lt_trans hqd (by exact_mod_cast Nat.lt_succ_self n))
  rw [mul_sub, map_sub, mul_comm ω (legendre n), integ_eq_lead hω, mul_comm ω (C _), integ_C_mul, sub_eq_zero, hc] at h1
  have hl := legendre_lead n
  have hp := (legendre_degree n).2
  have h0 : (2 * (n : ℝ) + 1) ≠ 0 := by positivity
  rw [mul_assoc, ← h1]
  field_simp
  linear_combination hl

/-! ### Gauss-Lobatto-Legendre -/

/-- The node polynomial `(x² - 1) P_N'(x)`. -/
noncomputable def lobatto (N : ℕ) : ℝ[X] := (X ^ 2 - 1) * derivative (legendre N)

theorem lobatto_orth {N : ℕ} {q : ℝ[X]} (hq : q.degree < (N : ℕ)) : integ (lobatto (N + 1) * q) = 0 := by
  unfold lobatto
  rw [legendre_D]
  have e : ((N : ℝ[X]) + 1) * (X * legendre (N + 1) - legendre N) * q =
      C ((N : ℝ) + 1) * (legendre (N + 1) * (X * q)) - C ((N : ℝ) + 1) * (legendre N * q) := by simp; ring
  rw [e, map_sub, integ_C_mul, integ_C_mul, legendre_orth hq, legendre_orth (n := N + 1), mul_zero, sub_zero]
  by_cases h0 : q = 0
  · rw [h0, mul_zero, degree_zero]; exact WithBot.bot_lt_coe _
  · rw [degree_mul, degree_X, degree_eq_natDegree h0]
    rw [degree_eq_natDegree h0] at hq
    have : q.natDegree < N := by exact_mod_cast hq
    exact_mod_cast (by omega : 1 + q.natDegree < N + 1)

theorem derivative_coeff (N : ℕ) : (derivative (legendre (N + 1))).coeff N = ((N : ℝ) + 1) * (legendre (N + 1)).coeff (N + 1) := by
  rw [coeff_derivative]; ring

theorem derivative_degree (N : ℕ) : (derivative (legendre (N + 1))).natDegree = N := by
  apply le_antisymm
  · have := natDegree_derivative_le (legendre (N + 1))
    rw [legendre_natDegree] at this
    omega
  · apply le_natDegree_of_ne_zero
    rw [derivative_coeff]
    have := (legendre_degree (N + 1)).2
    positivity

theorem sq_sub_one : (X ^ 2 - 1 : ℝ[X]).Monic ∧ (X ^ 2 - 1 : ℝ[X]).natDegree = 2 := by
  constructor
  · have := monic_X_pow_sub_C (R := ℝ) (n := 2) 1 (by norm_num)
    simpa using this
  · have := natDegree_X_pow_sub_C (R := ℝ) (n := 2) (r := 1)
    simpa using this

theorem lobatto_ne_zero (N : ℕ) : lobatto (N + 1) ≠ 0 := mul_ne_zero sq_sub_one.1.ne_zero (derivative_ne_zero N)

theorem lobatto_natDegree (N : ℕ) : (lobatto (N + 1)).natDegree = N + 2 := by
  unfold lobatto
  rw [natDegree_mul sq_sub_one.1.ne_zero (derivative_ne_zero N), sq_sub_one.2, derivative_degree]
  omega

theorem lobatto_coeff (N : ℕ) : (lobatto (N + 1)).coeff (N + 2) = ((N : ℝ) + 1) * (legendre (N + 1)).coeff (N + 1) := by
  have h1 := leadingCoeff_mul (X ^ 2 - 1 : ℝ[X]) (derivative (legendre (N + 1)))
  rw [sq_sub_one.1.leadingCoeff, one_mul] at h1
  unfold leadingCoeff at h1
  rw [derivative_degree, derivative_coeff] at h1
  change (lobatto (N + 1)).coeff (lobatto (N + 1)).natDegree = _ at h1
  rw [lobatto_natDegree] at h1
  exact h1

theorem lobatto_derivative (N : ℕ) (x : ℝ) : (derivative (lobatto N)).eval x = (N : ℝ) * (N + 1) * (legendre N).eval x := by
  unfold lobatto
  rw [legendre_ode]
  simp

/-- The integral that determines the Lobatto weights. -/
theorem gll_integral {N : ℕ} {x : ℝ} {ω : ℝ[X]} (h : (X - C x) * ω = lobatto (N + 1)) :
    (legendre (N + 1)).eval x * integ ω = 2 := by
  have hω : ω.degree < (N + 2 : ℕ) := degree_div_lt h (by
    rw [degree_eq_natDegree (lobatto_ne_zero _), lobatto_natDegree]; exact_mod_cast Nat.lt_succ_self _)
  have hc : ω.coeff (N + 1) = ((N : ℝ) + 1) * (legendre (N + 1)).coeff (N + 1) := by
    rw [← lobatto_coeff, ← h, sub_mul, coeff_sub, coeff_X_mul, coeff_C_mul, coeff_eq_zero_of_degree_lt hω, mul_zero, sub_zero]
  obtain ⟨q, hq⟩ : (X - C x) ∣ legendre (N + 1) - C ((legendre (N + 1)).eval x) := by
    rw [dvd_iff_isRoot]; simp [IsRoot]
  have hqd : q.degree < (N + 1 : ℕ) := degree_div_lt hq.symm (by
    refine lt_of_le_of_lt (degree_sub_le _ _) (max_lt ?_ ?_)
    · rw [degree_eq_natDegree (legendre_ne_zero _), legendre_natDegree]; exact_mod_cast Nat.lt_succ_self _
    · exact lt_of_le_of_lt degree_C_le (by exact_mod_cast Nat.succ_pos _))
  have hqc : q.coeff N = (legendre (N + 1)).coeff (N + 1) := by
    have := congrArg (fun p => coeff p (N + 1)) hq
    simp only [coeff_sub, coeff_C_succ, sub_zero] at this
    rw [this, sub_mul, coeff_sub, coeff_X_mul, coeff_C_mul, coeff_eq_zero_of_degree_lt hqd, mul_zero, sub_zero]
  have hlc := (legendre_degree (N + 1)).2
  have hN : ((N : ℝ) + 1) ≠ 0 := by positivity
  -- the quotient is the derivative up to lower order
  have hred : (q - C ((N : ℝ) + 1)⁻¹ * derivative (legendre (N + 1))).degree < (N : ℕ) := by
    rw [degree_lt_iff_coeff_zero]
    intro k hk
    rw [coeff_sub, coeff_C_mul]
    rcases Nat.eq_or_lt_of_le hk with rfl | hlt
    · rw [derivative_coeff, hqc]
      field_simp
      ring
    · rw [coeff_eq_zero_of_degree_lt (lt_of_lt_of_le hqd (by exact_mod_cast hlt)),
        coeff_eq_zero_of_natDegree_lt (p := derivative (legendre (N + 1))) (by rw [derivative_degree]; omega), mul_zero, sub_zero]
  have h2 := lobatto_orth hred
  rw [mul_sub, map_sub, mul_left_comm, integ_C_mul, sub_eq_zero] at h2
  have h3 := integ_parts (lobatto (N + 1)) (legendre (N + 1)) (by simp [lobatto]) (by simp [lobatto])
  unfold lobatto at h3
  rw [legendre_ode] at h3
  have e3 : ((N + 1 : ℕ) : ℝ[X]) * (((N + 1 : ℕ) : ℝ[X]) + 1) * legendre (N + 1) * legendre (N + 1) =
      C (((N : ℝ) + 1) * (N + 2)) * (legendre (N + 1) * legendre (N + 1)) := by
    simp [map_ofNat]; ring
  rw [e3, integ_C_mul] at h3
  have h4 : integ (lobatto (N + 1) * derivative (legendre (N + 1))) =
      - (((N : ℝ) + 1) * (N + 2) * integ (legendre (N + 1) * legendre (N + 1))) := by
    unfold lobatto; linarith
  have hnorm := legendre_norm (N + 1)
  push_cast at hnorm
  have h1 : integ (ω * (legendre (N + 1) - C ((legendre (N + 1)).eval x))) = integ (lobatto (N + 1) * q) := by
    rw [hq, ← mul_assoc, mul_comm ω, h]
  rw [h2, h4, mul_sub, map_sub, mul_comm ω (legendre (N + 1)), integ_eq_lead hω, mul_comm ω (C _), integ_C_mul, hc] at h1
  push_cast at h1
  have h0 : (2 * ((N : ℝ) + 1) + 1) ≠ 0 := by positivity
  have h5 : integ (legendre (N + 1) * legendre (N + 1)) = 2 / (2 * ((N : ℝ) + 1) + 1) := by
    field_simp
    linarith
  rw [h5] at h1
  have h6 : ((N : ℝ) + 1) * (legendre (N + 1)).coeff (N + 1) / (legendre (N + 1)).coeff (N + 1) = (N : ℝ) + 1 := by
    field_simp
  rw [h6] at h1
  have h7 : (legendre (N + 1)).eval x * integ ω = ((N : ℝ) + 1) * (2 / (2 * ((N : ℝ) + 1) + 1)) +
      ((N : ℝ) + 1)⁻¹ * (((N : ℝ) + 1) * (N + 2) * (2 / (2 * ((N : ℝ) + 1) + 1))) := by linarith
  rw [h7]
  field_simp
  ring

end Verif.Core
