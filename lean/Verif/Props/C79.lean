import Verif.Props.C78
import Mathlib.Algebra.BigOperators.Intervals
import Mathlib.Analysis.SpecialFunctions.Integrals.Basic

/-!
# C79: Gauss-Legendre and Newton-Cotes rules
-/

namespace Verif.Core

open Polynomial

/-! ### Gauss-Legendre -/

/-- At a root of `P_n`. -/
theorem gl_at_root {n : ℕ} {x : ℝ} (h : (legendre (n + 1)).eval x = 0) :
    (1 - x ^ 2) * (derivative (legendre (n + 1))).eval x = ((n : ℝ) + 1) * (legendre n).eval x ∧
    (derivative (legendre (n + 1))).eval x ≠ 0 ∧ (legendre n).eval x ≠ 0 ∧ 0 < 1 - x ^ 2 := by
  have hd := congrArg (eval x) (legendre_D n)
  simp only [eval_mul, eval_sub, eval_add, eval_pow, eval_X, eval_one, eval_natCast, h] at hd
  have hin := legendre_root_inside h
  refine ⟨by linarith, fun hc => legendre_simple h hc, fun hc => no_common_root x n ⟨hc, h⟩, by nlinarith [hin.1, hin.2]⟩

/-- The list of Gauss-Legendre nodes. -/
theorem gl_list (n : ℕ) : ∃ l, glNodes (n + 1) = some l ∧ l.length = n + 1 ∧ l.Pairwise (· < ·) ∧
    ∀ x, x ∈ l ↔ (legendre (n + 1)).eval x = 0 := by
  have hs := sortedRoots_spec (legendre_ne_zero (n + 1))
  refine ⟨sortedRoots (legendre (n + 1)), by simp [glNodes], ?_, hs.2.1, hs.2.2⟩
  rw [hs.1, legendre_card]

section

variable {n : ℕ} {l : List ℝ} (hlen : l.length = n + 1) (hpw : l.Pairwise (· < ·))
  (hr : ∀ x, x ∈ l ↔ (legendre (n + 1)).eval x = 0)

include hlen hpw hr

/-- The interpolatory weights `2 / (n P_{n-1} P_n')` are exact. -/
theorem gl_exact {f : ℝ[X]} (hf : f.natDegree ≤ 2 * n + 1) :
    ∑ i, 2 / (((n : ℝ) + 1) * ((derivative (legendre (n + 1))).eval (vec l (n + 1) i) * (legendre n).eval (vec l (n + 1) i))) *
      f.eval (vec l (n + 1) i) = integ f := by
  have hroot : ∀ i, (legendre (n + 1)).eval (vec l (n + 1) i) = 0 := fun i => (hr _).mp (vec_mem hlen i)
  refine gauss_exact (k := n + 1) (vec_strictMono hlen hpw).injective (legendre_natDegree _) (legendre_ne_zero _) hroot
    (fun i => (gl_at_root (hroot i)).2.1) (fun q hq => legendre_orth hq) (fun i ω hω => ?_) ?_
  · have hg := gl_integral hω
    obtain ⟨_, h2, h3, _⟩ := gl_at_root (hroot i)
    have hg' : integ ω = 2 / (((n : ℝ) + 1) * (legendre n).eval (vec l (n + 1) i)) := by
      have : ((n : ℝ) + 1) ≠ 0 := by positivity
      field_simp
      linarith
    rw [hg']
    field_simp
  · refine lt_of_le_of_lt degree_le_natDegree ?_
    exact_mod_cast (by omega : f.natDegree < n + 1 + (n + 1))

/-- numpy's unscaled weights add up to the number of points. -/
theorem gl_raw_sum : (l.map (fun x => 1 / ((derivative (legendre (n + 1))).eval x * (legendre n).eval x))).sum = (n : ℝ) + 1 := by
  have h1 := gl_exact hlen hpw hr (f := 1) (by simp)
  have h2 : integ (1 : ℝ[X]) = 2 := by
    rw [integ_apply]; simp; norm_num
  rw [h2] at h1
  have h3 : (l.map (fun x => 1 / ((derivative (legendre (n + 1))).eval x * (legendre n).eval x))).sum =
      ∑ i, 1 / ((derivative (legendre (n + 1))).eval (vec l (n + 1) i) * (legendre n).eval (vec l (n + 1) i)) := by
    rw [← List.sum_ofFn]
    congr 1
    apply List.ext_getElem
    · simp [hlen]
    · intro k _ _
      rw [List.getElem_map, List.getElem_ofFn, vec_get hlen]
  rw [h3]
  have h4 : ∑ i, 2 / (((n : ℝ) + 1) * ((derivative (legendre (n + 1))).eval (vec l (n + 1) i) *
      (legendre n).eval (vec l (n + 1) i))) * (1 : ℝ[X]).eval (vec l (n + 1) i) =
      2 / ((n : ℝ) + 1) *
        ∑ i, 1 / ((derivative (legendre (n + 1))).eval (vec l (n + 1) i) * (legendre n).eval (vec l (n + 1) i)) := by
    rw [Finset.mul_sum]
    refine Finset.sum_congr rfl fun i _ => ?_
    rw [eval_one, mul_one, div_mul_div_comm, mul_one]
  rw [h4] at h1
  have : ((n : ℝ) + 1) ≠ 0 := by positivity
  field_simp at h1
  linarith

theorem glWeights_vec (i : Fin (n + 1)) : vec (glWeights (n + 1) l) (n + 1) i =
    2 / (((n : ℝ) + 1) * ((derivative (legendre (n + 1))).eval (vec l (n + 1) i) * (legendre n).eval (vec l (n + 1) i))) := by
  unfold glWeights
  simp only [Nat.add_sub_cancel]
  rw [vec_map (by rw [List.length_map, hlen]), vec_map hlen, gl_raw_sum hlen hpw hr, div_mul_div_comm]
  ring

end

/-- `m` Gauss-Legendre points (for every `m ≥ 1`): they increase, lie strictly inside `(-1, 1)`, and the rule numpy
returns has positive weights and is exact up to degree `2 m - 1` and no further. -/
theorem C79_gauss_legendre (m : ℕ) (hm : 1 ≤ m) : ∃ l, glNodes m = some l ∧ l.length = m ∧ l.Pairwise (· < ·) ∧
    (∀ x ∈ l, -1 < x ∧ x < 1) ∧ QuadratureRule (glWeights m l) l (2 * m - 1) := by
  obtain ⟨n, rfl⟩ : ∃ n, m = n + 1 := ⟨m - 1, by omega⟩
  obtain ⟨l, h1, hlen, hpw, hr⟩ := gl_list n
  refine ⟨l, h1, hlen, hpw, fun x hx => legendre_root_inside ((hr x).mp hx), ?_⟩
  have hWl : (glWeights (n + 1) l).length = n + 1 := by simp [glWeights, hlen]
  have hroot : ∀ i, (legendre (n + 1)).eval (vec l (n + 1) i) = 0 := fun i => (hr _).mp (vec_mem hlen i)
  have hsum : ∀ f : ℝ[X], (List.zipWith (fun w x => w * f.eval x) (glWeights (n + 1) l) l).sum =
      ∑ i, vec (glWeights (n + 1) l) (n + 1) i * f.eval (vec l (n + 1) i) := fun f =>
    zip_sum hWl hlen (fun w x => w * f.eval x)
  refine ⟨by rw [hWl, hlen], ?_, ?_, ?_⟩
  · intro w hw
    obtain ⟨i, rfl⟩ := mem_vec hWl hw
    rw [glWeights_vec hlen hpw hr]
    obtain ⟨h2, h3, _, h5⟩ := gl_at_root (hroot i)
    have : ((n : ℝ) + 1) * ((derivative (legendre (n + 1))).eval (vec l (n + 1) i) * (legendre n).eval (vec l (n + 1) i)) =
        (1 - vec l (n + 1) i ^ 2) * (derivative (legendre (n + 1))).eval (vec l (n + 1) i) ^ 2 := by
      linear_combination -(derivative (legendre (n + 1))).eval (vec l (n + 1) i) * h2
    rw [this]
    positivity
  · intro f hf
    rw [hsum, ← integ_apply, ← gl_exact hlen hpw hr (f := f) (by omega)]
    exact Finset.sum_congr rfl fun i _ => by rw [glWeights_vec hlen hpw hr]
  · refine ⟨legendre (n + 1) * legendre (n + 1), ?_, ?_⟩
    · rw [natDegree_mul (legendre_ne_zero _) (legendre_ne_zero _), legendre_natDegree]; omega
    · rw [hsum, ← integ_apply]
      have h0 : ∑ i, vec (glWeights (n + 1) l) (n + 1) i * (legendre (n + 1) * legendre (n + 1)).eval (vec l (n + 1) i) = 0 := by
        apply Finset.sum_eq_zero
        intro i _
        rw [eval_mul, hroot i]; ring
      rw [h0]
      intro hc
      have := legendre_norm (n + 1)
      rw [← hc] at this
      norm_num at this

/-- The alternating square roots of `(1 - x²) w` are the barycentric weights of the nodes, up to a common factor. -/
theorem C79_barycentric {m : ℕ} (hm : 1 ≤ m) {l : List ℝ} (hl : glNodes m = some l) :
    TrueWeights (vec (glBary l (glWeights m l)) m) (vec l m) := by
  obtain ⟨n, rfl⟩ : ∃ n, m = n + 1 := ⟨m - 1, by omega⟩
  obtain ⟨l', h1, hlen, hpw, hr⟩ := gl_list n
  rw [hl, Option.some.injEq] at h1
  subst h1
  have hroot : ∀ i, (legendre (n + 1)).eval (vec l (n + 1) i) = 0 := fun i => (hr _).mp (vec_mem hlen i)
  have hWl : (glWeights (n + 1) l).length = n + 1 := by simp [glWeights, hlen]
  refine bary_true (s := Real.sqrt 2) (vec_strictMono hlen hpw) (legendre_natDegree _) (legendre_ne_zero _) hroot
    (Real.sqrt_pos.mpr (by norm_num)) fun i => ?_
  obtain ⟨h2, h3, h4, h5⟩ := gl_at_root (hroot i)
  unfold glBary
  rw [mapIdx_vec _ _ (by simp [hWl, hlen]), List.getElem_zip]
  simp only
  rw [← vec_get hWl, ← vec_get hlen, glWeights_vec hlen hpw hr]
  have : (1 - vec l (n + 1) i ^ 2) * (2 / (((n : ℝ) + 1) * ((derivative (legendre (n + 1))).eval (vec l (n + 1) i) *
      (legendre n).eval (vec l (n + 1) i)))) = 2 / (derivative (legendre (n + 1))).eval (vec l (n + 1) i) ^ 2 := by
    have hn : ((n : ℝ) + 1) ≠ 0 := by positivity
    field_simp
    linear_combination h2
  rw [this, Real.sqrt_div (by norm_num), Real.sqrt_sq_eq_abs]

/-- Interpolation and differentiation from the Gauss-Legendre nodes. -/
theorem C79_interpolation (m : ℕ) (hm : 1 ≤ m) : ∃ l, glNodes m = some l ∧ l.length = m ∧
    ∀ f : ℝ[X], f.natDegree < m →
      (∀ (q : ℕ) (evalpoints : Fin q → ℝ), ∃ M,
        interpMatrix1d (vec (glBary l (glWeights m l)) m) (vec l m) evalpoints = some M ∧
          ∀ a, M.mulVec (fun i => f.eval (vec l m i)) a = f.eval (evalpoints a)) ∧
      ∀ i, (diffMatrix1d (vec (glBary l (glWeights m l)) m) (vec l m)).mulVec (fun j => f.eval (vec l m j)) i =
        (derivative f).eval (vec l m i) := by
  obtain ⟨l, h1, h2, h3, _⟩ := C79_gauss_legendre m hm
  have ht := C79_barycentric hm h1
  have hinj := (vec_strictMono h2 h3).injective
  refine ⟨l, h1, h2, fun f hf => ?_⟩
  have hd : f.degree < (m : WithBot ℕ) := lt_of_le_of_lt degree_le_natDegree (by exact_mod_cast hf)
  constructor
  · intro q ev
    obtain ⟨M, hM, he⟩ := C32_exact _ _ ht hinj ev
    exact ⟨M, hM, fun a => he f hd a⟩
  · intro i
    exact C33_exact _ _ ht hinj f hd i

/-! ### Newton-Cotes -/

theorem nc_weight_vec {p : ℕ} (hp : 1 ≤ p) {W : List ℝ} (hW : ncQuadWeights (p + 1) = some W) : W.length = p + 1 ∧
    ∀ i : Fin (p + 1), vec W (p + 1) i = (1 / (p : ℝ)) * (2 - (if i = 0 then 1 else 0) - (if i = Fin.last p then 1 else 0)) := by
  unfold ncQuadWeights at hW
  rw [if_neg (by omega), Option.some.injEq] at hW
  have hlen : W.length = p + 1 := by
    rw [← hW]
    simp only [List.length_map, List.length_append, List.length_cons, List.length_nil, List.length_replicate]
    omega
  refine ⟨hlen, fun i => ?_⟩
  rw [vec_get hlen]
  simp only [← hW, List.getElem_map, Nat.add_sub_cancel]
  congr 1
  have hi := i.2
  rcases Nat.eq_zero_or_pos i with h0 | h0
  · have h1 : i = 0 := Fin.ext h0
    have h2 : i ≠ Fin.last p := fun h => by
      have := congrArg Fin.val h
      simp only [Fin.val_last] at this
      omega
    rw [if_pos h1, if_neg h2]
    simp only [h0]
    norm_num
  · have h1 : i ≠ 0 := fun h => by rw [h] at h0; simp at h0
    rw [if_neg h1]
    by_cases hl : i = Fin.last p
    · rw [if_pos hl]
      have hv : (i : ℕ) = p := by rw [hl]; rfl
      rw [List.getElem_append_right (by simp; omega)]
      norm_num
    · rw [if_neg hl]
      have hv : (i : ℕ) ≠ p := fun h => hl (Fin.ext (by rw [h]; rfl))
      rw [List.getElem_append_left (by simp; omega), List.getElem_append_right (by simp; omega)]
      simp

theorem nc_sum {p : ℕ} (hp : 1 ≤ p) {W : List ℝ} (hW : ncQuadWeights (p + 1) = some W) (f : ℝ → ℝ) :
    (List.zipWith (fun w x => w * f x) W (List.ofFn (ncNode (K := ℝ) (p + 1)))).sum =
      (1 / (p : ℝ)) * (2 * (∑ i ∈ Finset.range (p + 1), f (-1 + i * (2 / (p : ℝ)))) - f (-1) - f 1) := by
  obtain ⟨h1, h2⟩ := nc_weight_vec hp hW
  have hl : (List.ofFn (ncNode (K := ℝ) (p + 1))).length = p + 1 := by simp
  have hv : ∀ i, vec (List.ofFn (ncNode (K := ℝ) (p + 1))) (p + 1) i = ncNode (p + 1) i := by
    intro i
    rw [vec_get hl, List.getElem_ofFn]
  rw [zip_sum h1 hl (fun w x => w * f x)]
  simp only [hv, h2]
  have hp0 : (p : ℝ) ≠ 0 := by positivity
  have e0 : ncNode (K := ℝ) (p + 1) 0 = -1 := by simp [ncNode]
  have e1 : ncNode (K := ℝ) (p + 1) (Fin.last p) = 1 := by
    simp only [ncNode, Fin.val_last, Nat.add_sub_cancel]; field_simp; norm_num
  have : ∀ i : Fin (p + 1), 1 / (p : ℝ) * (2 - (if i = 0 then 1 else 0) - (if i = Fin.last p then 1 else 0)) *
      f (ncNode (p + 1) i) = 1 / (p : ℝ) * (2 * f (ncNode (p + 1) i) - (if i = 0 then f (ncNode (p + 1) i) else 0) -
        (if i = Fin.last p then f (ncNode (p + 1) i) else 0)) := by
    intro i
    split <;> split <;> ring
  simp only [this]
  rw [← Finset.mul_sum, Finset.sum_sub_distrib, Finset.sum_sub_distrib, Finset.sum_ite_eq', Finset.sum_ite_eq', ← Finset.mul_sum]
  simp only [Finset.mem_univ, if_true, e0, e1]
  rw [← Fin.sum_univ_eq_sum_range (fun i => f (-1 + (i : ℝ) * (2 / (p : ℝ)))) (p + 1)]
  rfl

theorem sum_first (p : ℕ) : ∑ i ∈ Finset.range (p + 1), (i : ℝ) = p * (p + 1) / 2 := by
  induction p with
  | zero => simp
  | succ p ih => rw [Finset.sum_range_succ, ih]; push_cast; ring

theorem sum_second (p : ℕ) : ∑ i ∈ Finset.range (p + 1), (i : ℝ) ^ 2 = p * (p + 1) * (2 * p + 1) / 6 := by
  induction p with
  | zero => simp
  | succ p ih => rw [Finset.sum_range_succ, ih]; push_cast; ring

/-- `p + 1` equispaced points (for every `p ≥ 1`): whatever their number, the weights of the code are those of the composite
trapezoidal rule, exact for polynomials of degree one and not for degree two. -/
theorem C79_newton_cotes (p : ℕ) (hp : 1 ≤ p) : ∃ W, ncQuadWeights (p + 1) = some W ∧
    QuadratureRule W (List.ofFn (ncNode (K := ℝ) (p + 1))) 1 := by
  obtain ⟨W, hW⟩ : ∃ W, ncQuadWeights (K := ℝ) (p + 1) = some W := by
    unfold ncQuadWeights
    rw [if_neg (by omega)]
    exact ⟨_, rfl⟩
  have hp0 : (p : ℝ) ≠ 0 := by positivity
  refine ⟨W, hW, by rw [(nc_weight_vec hp hW).1]; simp, ?_, ?_, ?_⟩
  · intro w hw
    have h : w ∈ (([(1 : ℝ)] ++ List.replicate (p + 1 - 2) (2 : ℝ) ++ [(1 : ℝ)]).map (fun v : ℝ => (1 / ((p + 1 - 1 : ℕ) : ℝ)) * v)) := by
      unfold ncQuadWeights at hW
      rw [if_neg (by omega), Option.some.injEq] at hW
      rw [hW]; exact hw
    obtain ⟨v, hv, rfl⟩ := List.mem_map.mp h
    have hvp : 0 < v := by
      rcases List.mem_append.mp hv with hv | hv
      · rcases List.mem_append.mp hv with hv | hv
        · rw [List.mem_singleton.mp hv]; norm_num
        · rw [(List.mem_replicate.mp hv).2]; norm_num
      · rw [List.mem_singleton.mp hv]; norm_num
    rw [Nat.add_sub_cancel]
    positivity
  · intro f hf
    obtain ⟨a, b, rfl⟩ : ∃ a b : ℝ, f = C a * X + C b := ⟨_, _, eq_X_add_C_of_natDegree_le_one hf⟩
    rw [nc_sum hp hW (fun x => (C a * X + C b : ℝ[X]).eval x)]
    simp only [eval_add, eval_mul, eval_C, eval_X]
    rw [intervalIntegral.integral_add (Continuous.intervalIntegrable (by fun_prop) _ _) (by simp), intervalIntegral.integral_const_mul, integral_id,
      intervalIntegral.integral_const, Finset.sum_add_distrib, ← Finset.mul_sum, Finset.sum_add_distrib, ← Finset.sum_mul, sum_first]
    simp only [Finset.sum_const, Finset.card_range, smul_eq_mul, nsmul_eq_mul]
    push_cast
    field_simp
    ring
  · refine ⟨X ^ 2, by simp, ?_⟩
    rw [nc_sum hp hW (fun x => (X ^ 2 : ℝ[X]).eval x)]
    simp only [eval_pow, eval_X]
    rw [integral_pow]
    have e : ∀ i : ℕ, (-1 + (i : ℝ) * (2 / (p : ℝ))) ^ 2 = 1 + (-4 / (p : ℝ)) * i + (4 / (p : ℝ) ^ 2) * (i : ℝ) ^ 2 := by
      intro i; field_simp; ring
    simp only [e]
    rw [Finset.sum_add_distrib, Finset.sum_add_distrib, ← Finset.mul_sum, ← Finset.mul_sum, sum_first, sum_second]
    simp only [Finset.sum_const, Finset.card_range, nsmul_eq_mul]
    push_cast
    intro hc
    have : 4 / (3 * (p : ℝ) ^ 2) = 0 := by
      have h2 : (1 / (p : ℝ)) * (2 * (((p : ℝ) + 1) * 1 + (-4 / (p : ℝ)) * ((p : ℝ) * (p + 1) / 2) +
          4 / (p : ℝ) ^ 2 * ((p : ℝ) * (p + 1) * (2 * p + 1) / 6)) - (-1) ^ 2 - 1 ^ 2) = 2 / 3 + 4 / (3 * (p : ℝ) ^ 2) := by
        field_simp; ring
      rw [h2] at hc
      norm_num at hc ⊢
      exact hc
    have h3 : (0 : ℝ) < 4 / (3 * (p : ℝ) ^ 2) := by positivity
    linarith

/-- Two Gauss points are the roots of `x² - 1/3`; three equispaced points carry `1/2, 1, 1/2`. -/
example : (∃ l, glNodes 2 = some l ∧ l.length = 2 ∧ ∀ x ∈ l, x ^ 2 = 1 / 3) ∧
    ncQuadWeights (K := ℝ) 3 = some [1 / 2, 1, 1 / 2] := by
  constructor
  · obtain ⟨l, h1, h2, _, h4⟩ := gl_list 1
    refine ⟨l, h1, h2, fun x hx => ?_⟩
    have := (h4 x).mp hx
    simp only [legendre, eval_mul, eval_sub, eval_C, eval_X, eval_one] at this
    norm_num at this
    linarith
  · simp [ncQuadWeights]

end Verif.Core
