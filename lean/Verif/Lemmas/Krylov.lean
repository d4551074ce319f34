import Verif.Props.C44_C46
import Verif.Spec.Krylov
import Mathlib.Algebra.Polynomial.AlgebraMap
import Mathlib.Algebra.Polynomial.Inductions
import Mathlib.RingTheory.Polynomial.Chebyshev

/-! Lemmas about the Krylov spaces of `cg` and about Chebyshev polynomials of symmetric operators. -/

namespace Verif.Linalg

open Verif.Spec Polynomial

variable {K V : Type*} [Field K] [LinearOrder K] [IsStrictOrderedRing K] [AddCommGroup V] [Module K V]
variable {dot : V →ₗ[K] V →ₗ[K] K} {A M : V →ₗ[K] V} {b x0 : V} {atol2 : K} {maxiter : ℕ}

theorem krylov_mono (T : V →ₗ[K] V) (v : V) {m n : ℕ} (h : m ≤ n) : krylov T v m ≤ krylov T v n :=
  Submodule.span_mono fun _ ⟨i, hi, hw⟩ => ⟨i, lt_of_lt_of_le hi h, hw⟩

theorem krylov_map (T : V →ₗ[K] V) (v : V) {n : ℕ} {w : V} (h : w ∈ krylov T v n) : T w ∈ krylov T v (n + 1) := by
  induction h using Submodule.span_induction with
  | mem w hw =>
    obtain ⟨i, hi, rfl⟩ := hw
    exact Submodule.subset_span ⟨i + 1, by omega, by rw [pow_succ']; rfl⟩
  | zero => rw [map_zero]; exact Submodule.zero_mem _
  | add x y _ _ hx hy => rw [map_add]; exact Submodule.add_mem _ hx hy
  | smul c x _ hx => rw [map_smul]; exact Submodule.smul_mem _ c hx

/-- The span of the first `n` search directions. -/
def dirSpan (f : ℕ → CGState K V) (n : ℕ) : Submodule K V := Submodule.span K {w | ∃ i < n, w = (f i).p}

theorem dirSpan_mono (f : ℕ → CGState K V) {m n : ℕ} (h : m ≤ n) : dirSpan f m ≤ dirSpan f n :=
  Submodule.span_mono fun _ ⟨i, hi, hw⟩ => ⟨i, lt_of_lt_of_le hi h, hw⟩

theorem mem_dirSpan (f : ℕ → CGState K V) {i n : ℕ} (h : i < n) : (f i).p ∈ dirSpan f n :=
  Submodule.subset_span ⟨i, h, rfl⟩

theorem Run.residual {n : ℕ} {f : ℕ → CGState K V} (R : Run dot A M b x0 atol2 maxiter n f) :
    ∀ j ≤ n, (f j).r = b - A (f j).x := by
  intro j
  induction j with
  | zero => intro _; rw [R.start]; rfl
  | succ j ih =>
    intro hj
    obtain ⟨_, _, hx, hr, _⟩ := cgBody_eq (R.turn j hj).2
    rw [hr, hx, ih (by omega), map_add, map_smul]; abel

/-- The directions and the iterates lie in the Krylov spaces. -/
theorem Run.in_krylov {n : ℕ} {f : ℕ → CGState K V} (R : Run dot A M b x0 atol2 maxiter n f) :
    ∀ j ≤ n, (f j).x - x0 ∈ krylov (M ∘ₗ A) (M (b - A x0)) j ∧
      (f j).p ∈ krylov (M ∘ₗ A) (M (b - A x0)) (j + 1) := by
  intro j
  induction j with
  | zero =>
    intro _
    rw [R.start]
    refine ⟨?_, Submodule.subset_span ⟨0, by omega, rfl⟩⟩
    simp [cgInit]
  | succ j ih =>
    intro hj
    obtain ⟨hxj, hpj⟩ := ih (by omega)
    obtain ⟨_, _, hx, _, _, hp, _⟩ := cgBody_eq (R.turn j hj).2
    have hx' : (f (j + 1)).x - x0 ∈ krylov (M ∘ₗ A) (M (b - A x0)) (j + 1) := by
      rw [hx, add_sub_right_comm]
      exact Submodule.add_mem _ (krylov_mono _ _ (Nat.le_succ j) hxj) (Submodule.smul_mem _ _ hpj)
    refine ⟨hx', ?_⟩
    rw [hp]
    refine Submodule.add_mem _ ?_ (Submodule.smul_mem _ _ (krylov_mono _ _ (by omega) hpj))
    have e : M (f (j + 1)).r = M (b - A x0) - (M ∘ₗ A) ((f (j + 1)).x - x0) := by
      rw [R.residual _ hj, LinearMap.comp_apply, ← map_sub, map_sub A]
      congr 1
      abel
    rw [e]
    exact Submodule.sub_mem _ (Submodule.subset_span ⟨0, by omega, rfl⟩) (krylov_map _ _ hx')

theorem Run.residual_mem {n : ℕ} {f : ℕ → CGState K V} (R : Run dot A M b x0 atol2 maxiter n f) :
    ∀ j ≤ n, M (f j).r ∈ dirSpan f (j + 1) := by
  intro j hj
  cases j with
  | zero =>
    have : M (f 0).r = (f 0).p := by rw [R.start]; rfl
    rw [this]; exact mem_dirSpan f (by omega)
  | succ j =>
    obtain ⟨_, _, _, _, _, hp, _⟩ := cgBody_eq (R.turn j hj).2
    rw [← sub_eq_iff_eq_add] at hp
    rw [← hp]
    exact Submodule.sub_mem _ (mem_dirSpan f (by omega)) (Submodule.smul_mem _ _ (mem_dirSpan f (by omega)))

theorem Run.apply_mem (h0 : 0 ≤ atol2) {n : ℕ} {f : ℕ → CGState K V}
    (R : Run dot A M b x0 atol2 maxiter n f) {j : ℕ} (hj : j < n) : (M ∘ₗ A) (f j).p ∈ dirSpan f (j + 2) := by
  obtain ⟨hpAp, _, _, hr, _⟩ := cgBody_eq (R.turn j hj).2
  have hg : 0 < (f j).gamma := lt_of_le_of_lt h0 (R.turn j hj).1.1
  set a := (f j).gamma / dot (f j).p (A (f j).p) with ha
  have ha0 : a ≠ 0 := div_ne_zero (ne_of_gt hg) hpAp
  have e : (M ∘ₗ A) (f j).p = a⁻¹ • (M (f j).r - M (f (j + 1)).r) := by
    rw [hr, map_sub, map_smul, sub_sub_cancel, smul_smul, inv_mul_cancel₀ ha0, one_smul]
    rfl
  rw [e]
  exact Submodule.smul_mem _ _ (Submodule.sub_mem _ (dirSpan_mono f (by omega) (R.residual_mem j (by omega)))
    (R.residual_mem (j + 1) hj))

theorem Run.krylov_le (h0 : 0 ≤ atol2) {n : ℕ} {f : ℕ → CGState K V} (R : Run dot A M b x0 atol2 maxiter n f) :
    krylov (M ∘ₗ A) (M (b - A x0)) n ≤ dirSpan f n := by
  have hstep : ∀ m, m + 1 ≤ n → ∀ w ∈ dirSpan f m, (M ∘ₗ A) w ∈ dirSpan f (m + 1) := by
    intro m hm w hw
    induction hw using Submodule.span_induction with
    | mem w hw =>
      obtain ⟨i, hi, rfl⟩ := hw
      exact dirSpan_mono f (by omega) (R.apply_mem h0 (j := i) (by omega))
    | zero => rw [map_zero]; exact Submodule.zero_mem _
    | add x y _ _ hx hy => rw [map_add]; exact Submodule.add_mem _ hx hy
    | smul c x _ hx => rw [map_smul]; exact Submodule.smul_mem _ c hx
  have hpow : ∀ i < n, ((M ∘ₗ A) ^ i) (M (b - A x0)) ∈ dirSpan f (i + 1) := by
    intro i
    induction i with
    | zero =>
      intro _
      have : ((M ∘ₗ A) ^ 0) (M (b - A x0)) = (f 0).p := by rw [R.start]; rfl
      rw [this]; exact mem_dirSpan f (by omega)
    | succ i ih =>
      intro hi
      rw [pow_succ']
      exact hstep (i + 1) (by omega) _ (ih (by omega))
  refine Submodule.span_le.mpr ?_
  rintro w ⟨i, hi, rfl⟩
  exact dirSpan_mono f (by omega) (hpow i hi)

/-- Bounds of the quadratic form of a symmetric operator bound the length of its values; the form need only be symmetric
and positive on the subspace. -/
theorem form_sq_le (a : V →ₗ[K] V →ₗ[K] K) (S : V →ₗ[K] V) (W : Submodule K V) (hS : ∀ x ∈ W, S x ∈ W)
    (hsym : ∀ x y, a (S x) y = a (S y) x) (hpsd : ∀ x ∈ W, 0 ≤ a x x) {rho : K} (hrho : 0 ≤ rho)
    (hlo : ∀ x ∈ W, -(rho * a x x) ≤ a (S x) x) (hhi : ∀ x ∈ W, a (S x) x ≤ rho * a x x) :
    ∀ x ∈ W, a (S x) (S x) ≤ rho ^ 2 * a x x := by
  intro x hx
  have key : ∀ t : K, 4 * t * a (S x) (S x) ≤ 2 * rho * (a x x + t ^ 2 * a (S x) (S x)) := by
    intro t
    have hy : t • S x ∈ W := W.smul_mem t (hS x hx)
    have h1 := hhi _ (W.add_mem hx hy)
    have h2 := hlo _ (W.sub_mem hx hy)
    have hs := hsym x (t • S x)
    simp only [map_add, map_sub, map_smul, LinearMap.add_apply, LinearMap.sub_apply, LinearMap.smul_apply,
      smul_eq_mul] at h1 h2 hs ⊢
    nlinarith [h1, h2, hs]
  rcases hrho.eq_or_lt with h | h
  · have := key 1
    rw [← h] at this ⊢
    nlinarith
  · have := key rho⁻¹
    have e : rho ^ 2 * (2 * rho * (a x x + rho⁻¹ ^ 2 * a (S x) (S x)) - 4 * rho⁻¹ * a (S x) (S x)) =
        2 * rho * (rho ^ 2 * a x x - a (S x) (S x)) := by
      field_simp
      ring
    have h3 : 0 ≤ 2 * rho * (rho ^ 2 * a x x - a (S x) (S x)) := by
      rw [← e]
      exact mul_nonneg (sq_nonneg rho) (by linarith)
    have := nonneg_of_mul_nonneg_right h3 (by linarith)
    linarith

theorem cheb_pell (n : ℕ) :
    Chebyshev.T K n ^ 2 + (1 - X ^ 2) * Chebyshev.U K ((n : ℤ) - 1) ^ 2 = 1 := by
  induction n with
  | zero => simp
  | succ n ih =>
    have h1 : Chebyshev.T K ((n + 1 : ℕ) : ℤ) =
        X * Chebyshev.T K n - (1 - X ^ 2) * Chebyshev.U K ((n : ℤ) - 1) := by
      have := Chebyshev.T_eq_X_mul_T_sub_pol_U K ((n : ℤ) - 1)
      rw [show ((n : ℤ) - 1) + 2 = ((n + 1 : ℕ) : ℤ) by push_cast; ring,
        show ((n : ℤ) - 1) + 1 = n by ring] at this
      exact this
    have h2 : Chebyshev.U K (((n + 1 : ℕ) : ℤ) - 1) = X * Chebyshev.U K ((n : ℤ) - 1) + Chebyshev.T K n := by
      have := Chebyshev.U_eq_X_mul_U_add_T K ((n : ℤ) - 1)
      rw [show ((n : ℤ) - 1) + 1 = n by ring] at this
      rw [show ((n + 1 : ℕ) : ℤ) - 1 = n by push_cast; ring]
      exact this
    rw [h1, h2]
    linear_combination ih

theorem cheb_eval_inv {z : K} (hz : z ≠ 0) (n : ℕ) :
    (Chebyshev.T K n).eval ((z + z⁻¹) / 2) = (z ^ n + z⁻¹ ^ n) / 2 := by
  induction n using Nat.twoStepInduction with
  | zero => simp
  | one => simp
  | more n h0 h1 =>
    have e : ((n + 2 : ℕ) : ℤ) = (n : ℤ) + 2 := by push_cast; ring
    have e1 : ((n + 1 : ℕ) : ℤ) = (n : ℤ) + 1 := by push_cast; ring
    rw [e1] at h1
    rw [e, Chebyshev.T_add_two, eval_sub, eval_mul, eval_mul, eval_X, h1, h0]
    simp only [eval_ofNat]
    have hzi : z * z⁻¹ = 1 := mul_inv_cancel₀ hz
    linear_combination ((z ^ n + z⁻¹ ^ n) / 2) * hzi

/-- A Chebyshev polynomial of a symmetric operator that shortens every vector shortens every vector. -/
theorem cheb_contract (a : V →ₗ[K] V →ₗ[K] K) (S : V →ₗ[K] V) (W : Submodule K V) (hS : ∀ x ∈ W, S x ∈ W)
    (hsym : ∀ x y, a (S x) y = a x (S y)) (hle : ∀ x ∈ W, a (S x) (S x) ≤ a x x) (n : ℕ) :
    ∀ x ∈ W, a (aeval S (Chebyshev.T K n) x) (aeval S (Chebyshev.T K n) x) ≤ a x x := by
  intro x hx
  have hp : ∀ (q : K[X]) (x y : V), a (aeval S q x) y = a x (aeval S q y) := by
    intro q
    induction q using Polynomial.induction_on' with
    | add p q h1 h2 => intro x y; simp only [map_add, LinearMap.add_apply, h1, h2]
    | monomial k c =>
      have hk : ∀ k x y, a ((S ^ k) x) y = a x ((S ^ k) y) := by
        intro k
        induction k with
        | zero => intro x y; rfl
        | succ k ih =>
          intro x y
          rw [pow_succ, Module.End.mul_apply, ih, hsym, ← Module.End.mul_apply, ← pow_succ', ← pow_succ]
      intro x y
      rw [aeval_monomial, Module.End.mul_apply, Module.End.mul_apply, Module.algebraMap_end_apply,
        Module.algebraMap_end_apply, map_smul, map_smul, LinearMap.smul_apply, hk]
  have hW : ∀ (q : K[X]), ∀ x ∈ W, aeval S q x ∈ W := by
    intro q x hx
    have hk : ∀ k, (S ^ k) x ∈ W := by
      intro k
      induction k with
      | zero => exact hx
      | succ k ih => rw [pow_succ', Module.End.mul_apply]; exact hS _ ih
    rw [aeval_eq_sum_range, LinearMap.sum_apply]
    exact Submodule.sum_mem _ fun i _ => W.smul_mem _ (hk i)
  set t := Chebyshev.T K n
  set u := Chebyshev.U K ((n : ℤ) - 1)
  have hu := hle _ (hW u x hx)
  have e1 : a (aeval S t x) (aeval S t x) = a x (aeval S (t ^ 2) x) := by
    rw [hp, ← Module.End.mul_apply, ← map_mul, sq]
  have e2 : a (aeval S u x) (aeval S u x) = a x (aeval S (u ^ 2) x) := by
    rw [hp, ← Module.End.mul_apply, ← map_mul, sq]
  have e3 : a (S (aeval S u x)) (S (aeval S u x)) = a x (aeval S (X ^ 2 * u ^ 2) x) := by
    have : S (aeval S u x) = aeval S (X * u) x := by rw [map_mul, aeval_X, Module.End.mul_apply]
    rw [this, hp, ← Module.End.mul_apply, ← map_mul]
    congr 3
    ring
  have hpell : t ^ 2 = 1 - u ^ 2 + X ^ 2 * u ^ 2 := by
    have := cheb_pell (K := K) n
    linear_combination this
  rw [e1, hpell, map_add, map_sub, map_one, LinearMap.add_apply, LinearMap.sub_apply, map_add, map_sub, ← e2, ← e3]
  have : a x ((1 : Module.End K V) x) = a x x := rfl
  rw [this]
  linarith

end Verif.Linalg
