import Verif.Lemmas.GaussTables

/-!
# C78: Gauss-Lobatto-Legendre nodes, weights and interpolation
-/

namespace Verif.Core

open Polynomial

/-- The weights `W` at the points `l` are positive and integrate every polynomial of degree at most `deg` over `[-1, 1]`
exactly, but not every polynomial of degree `deg + 1`. -/
structure QuadratureRule (W l : List ℝ) (deg : ℕ) : Prop where
  length : W.length = l.length
  positive : ∀ w ∈ W, 0 < w
  exact : ∀ f : ℝ[X], f.natDegree ≤ deg → (List.zipWith (fun w x => w * f.eval x) W l).sum = ∫ x in (-1 : ℝ)..1, f.eval x
  sharp : ∃ f : ℝ[X], f.natDegree = deg + 1 ∧
    (List.zipWith (fun w x => w * f.eval x) W l).sum ≠ ∫ x in (-1 : ℝ)..1, f.eval x

/-- The weights add up to the length of the interval. -/
theorem QuadratureRule.sum {W l : List ℝ} {deg : ℕ} (h : QuadratureRule W l deg) : W.sum = 2 := by
  have h1 := h.exact 1 (by simp)
  simp only [eval_one, mul_one, intervalIntegral.integral_const] at h1
  have h2 : List.zipWith (fun (w : ℝ) (_ : ℝ) => w) W l = W := by
    apply List.ext_getElem
    · simp [h.length]
    · intro k _ _; simp
  rw [h2] at h1
  rw [h1]; norm_num

/-- Weights of the code at one node. -/
theorem gllWeights_vec {N : ℕ} {l : List ℝ} (hl : l.length = N + 2) (i : Fin (N + 2)) :
    vec (gllWeights (N + 2) l) (N + 2) i =
      2 / (((N : ℝ) + 2) * (N + 1)) / ((legendre (N + 1)).eval (vec l (N + 2) i)) ^ 2 := by
  unfold gllWeights
  rw [vec_map hl]
  push_cast
  rw [show ((N : ℝ) + 2 - 1) = N + 1 by ring]

/-- `p + 1` Gauss-Lobatto-Legendre points (for every order `p ≥ 1`): they increase from `-1` to `1` symmetrically, and the
quadrature rule built from them has positive weights and is exact up to degree `2 p - 1` and no further. -/
theorem C78_rule (p : ℕ) (hp : 1 ≤ p) : ∃ l, gllNodes (p + 1) = some l ∧ l.length = p + 1 ∧
    ElementNodes (vec l (p + 1)) ∧ QuadratureRule (gllWeights (p + 1) l) l (2 * p - 1) := by
  obtain ⟨N, rfl⟩ : ∃ N, p = N + 1 := ⟨p - 1, by omega⟩
  obtain ⟨l, h1, hlen, hpw, hr, ht⟩ := gll_list N
  have hen := gll_elementNodes hlen hpw hr ht
  refine ⟨l, h1, hlen, hen, ?_⟩
  have hWl : (gllWeights (N + 2) l).length = N + 2 := by simp [gllWeights, hlen]
  have hinj := hen.increasing.injective
  have hroot : ∀ i, (lobatto (N + 1)).eval (vec l (N + 2) i) = 0 := fun i => (hr _).mp (vec_mem hlen i)
  have hP : ∀ i, (legendre (N + 1)).eval (vec l (N + 2) i) ≠ 0 := fun i => lobatto_derivative_ne (hroot i)
  have hsum : ∀ f : ℝ[X], (List.zipWith (fun w x => w * f.eval x) (gllWeights (N + 2) l) l).sum =
      ∑ i, vec (gllWeights (N + 2) l) (N + 2) i * f.eval (vec l (N + 2) i) := fun f =>
    zip_sum hWl hlen (fun w x => w * f.eval x)
  refine ⟨by rw [hWl, hlen], ?_, ?_, ?_⟩
  · intro w hw
    obtain ⟨i, rfl⟩ := mem_vec hWl hw
    rw [gllWeights_vec hlen]
    have := hP i
    positivity
  · intro f hf
    rw [hsum, ← integ_apply]
    apply gauss_exact (k := N) hinj (lobatto_natDegree N) (lobatto_ne_zero N) hroot
    · intro i
      rw [lobatto_derivative]
      have := hP i
      push_cast
      positivity
    · intro q hq; exact lobatto_orth hq
    · intro i ω hω
      have hg := gll_integral hω
      rw [gllWeights_vec hlen, lobatto_derivative]
      have := hP i
      have hg' : integ ω = 2 / (legendre (N + 1)).eval (vec l (N + 2) i) := by
        field_simp; linarith
      rw [hg']
      push_cast
      field_simp
      ring
    · refine lt_of_le_of_lt degree_le_natDegree ?_
      exact_mod_cast (by omega : f.natDegree < N + 2 + N)
  · refine ⟨lobatto (N + 1) * derivative (legendre (N + 1)), ?_, ?_⟩
    · rw [natDegree_mul (lobatto_ne_zero N) (derivative_ne_zero N), lobatto_natDegree, derivative_degree]
      omega
    · rw [hsum, ← integ_apply]
      have h0 : ∑ i, vec (gllWeights (N + 2) l) (N + 2) i *
          (lobatto (N + 1) * derivative (legendre (N + 1))).eval (vec l (N + 2) i) = 0 := by
        apply Finset.sum_eq_zero
        intro i _
        rw [eval_mul, hroot i]; ring
      rw [h0]
      exact (lobatto_self N).ne'

theorem mapIdx_vec {α : Type*} (l : List α) (g : ℕ → α → ℝ) {m : ℕ} (h : l.length = m) (i : Fin m) :
    vec (l.mapIdx g) m i = g i (l[(i : ℕ)]'(by rw [h]; exact i.2)) := by
  rw [vec_get (by rw [List.length_mapIdx, h]), List.getElem_mapIdx]

/-- The alternating square roots of the weights are the barycentric weights of the nodes, up to a common factor. -/
theorem C78_barycentric {p : ℕ} (hp : 1 ≤ p) {l : List ℝ} (hl : gllNodes (p + 1) = some l) :
    TrueWeights (vec (gllBary (gllWeights (p + 1) l)) (p + 1)) (vec l (p + 1)) := by
  obtain ⟨N, rfl⟩ : ∃ N, p = N + 1 := ⟨p - 1, by omega⟩
  obtain ⟨l', h1, hlen, hpw, hr, ht⟩ := gll_list N
  rw [hl, Option.some.injEq] at h1
  subst h1
  have hen := gll_elementNodes hlen hpw hr ht
  have hroot : ∀ i, (lobatto (N + 1)).eval (vec l (N + 2) i) = 0 := fun i => (hr _).mp (vec_mem hlen i)
  have hWl : (gllWeights (N + 2) l).length = N + 2 := by simp [gllWeights, hlen]
  refine bary_true (s := Real.sqrt (2 / (((N : ℝ) + 2) * (N + 1))) * ((N + 1) * (N + 2))) hen.increasing
    (lobatto_natDegree N) (lobatto_ne_zero N) hroot ?_ fun i => ?_
  · have : 0 < Real.sqrt (2 / (((N : ℝ) + 2) * (N + 1))) := Real.sqrt_pos.mpr (by positivity)
    positivity
  · have hP : (legendre (N + 1)).eval (vec l (N + 2) i) ≠ 0 := lobatto_derivative_ne (hroot i)
    unfold gllBary
    rw [mapIdx_vec _ _ hWl, ← vec_get hWl, gllWeights_vec hlen, lobatto_derivative, Real.sqrt_div (by positivity),
      Real.sqrt_sq_eq_abs, abs_mul, abs_of_pos (by push_cast; positivity : (0 : ℝ) < ((N + 1 : ℕ) : ℝ) * (((N + 1 : ℕ) : ℝ) + 1))]
    push_cast
    have := abs_pos.mpr hP
    congr 1
    field_simp
    ring

/-- Interpolation from the Gauss-Lobatto-Legendre nodes reproduces every polynomial of degree at most the order, at every
evaluation point, and the differentiation matrix its derivative at the nodes. -/
theorem C78_interpolation (p : ℕ) (hp : 1 ≤ p) : ∃ l, gllNodes (p + 1) = some l ∧ l.length = p + 1 ∧
    ∀ f : ℝ[X], f.natDegree ≤ p →
      (∀ (q : ℕ) (evalpoints : Fin q → ℝ), ∃ M,
        interpMatrix1d (vec (gllBary (gllWeights (p + 1) l)) (p + 1)) (vec l (p + 1)) evalpoints = some M ∧
          ∀ a, M.mulVec (fun i => f.eval (vec l (p + 1) i)) a = f.eval (evalpoints a)) ∧
      ∀ i, (diffMatrix1d (vec (gllBary (gllWeights (p + 1) l)) (p + 1)) (vec l (p + 1))).mulVec
        (fun j => f.eval (vec l (p + 1) j)) i = (derivative f).eval (vec l (p + 1) i) := by
  obtain ⟨l, h1, h2, h3, _⟩ := C78_rule p hp
  have ht := C78_barycentric hp h1
  refine ⟨l, h1, h2, fun f hf => ?_⟩
  have hd : f.degree < ((p + 1 : ℕ) : WithBot ℕ) :=
    lt_of_le_of_lt degree_le_natDegree (by exact_mod_cast (by omega : f.natDegree < p + 1))
  constructor
  · intro q ev
    obtain ⟨M, hM, he⟩ := C32_exact _ _ ht h3.increasing.injective ev
    exact ⟨M, hM, fun a => he f hd a⟩
  · intro i
    exact C33_exact _ _ ht h3.increasing.injective f hd i

/-- Three points: `-1, 0, 1` with weights `1/3, 4/3, 1/3` (Simpson's rule), and fewer than two points raise. -/
example : gllNodes 3 = some [-1, 0, 1] ∧ gllWeights 3 [-1, 0, 1] = [1 / 3, 4 / 3, 1 / 3] ∧ gllNodes 1 = none := by
  refine ⟨?_, ?_, rfl⟩
  · have hj : (jacobi11 1).roots.toFinset = {0} := by
      have : (jacobi11 1) = C 2 * X := by simp [jacobi11, map_ofNat]
      rw [this, roots_C_mul _ (by norm_num), roots_X]; simp
    simp [gllNodes, sortedRoots, hj]
  · simp only [gllWeights, List.map, legendre]
    norm_num

end Verif.Core
