import Verif.Lemmas.Krylov

/-!
# C97: the iterates of `cg` are optimal and converge at the known rate
-/

namespace Verif.Linalg

open Verif.Spec Polynomial

variable {K V : Type*} [Field K] [LinearOrder K] [IsStrictOrderedRing K] [AddCommGroup V] [Module K V]
variable {dot : V →ₗ[K] V →ₗ[K] K} {A M : V →ₗ[K] V} {b x0 : V} {atol2 : K} {maxiter : ℕ}

/-! ### C97 -/

/-- After `n` iterations, whatever made the loop stop, the result is the unique vector of `x0` plus the Krylov space of
order `n` with the smallest `A`-norm of the error. `xs` is any solution of the preconditioned system. -/
theorem C97_optimal (H : CGHyp dot A M) (b x0 xs : V) (hxs : M (b - A xs) = 0) (tol atol : K) (maxiter : ℕ) :
    ∃ x res n, cg (fun u v => dot u v) A M b x0 tol atol maxiter = some (x, res, n) ∧
      x - x0 ∈ krylov (M ∘ₗ A) (M (b - A x0)) n ∧
      ∀ y ∈ krylov (M ∘ₗ A) (M (b - A x0)) n, x0 + y ≠ x → energyDist dot A xs x < energyDist dot A xs (x0 + y) := by
  obtain ⟨n, f, R, hcg, _⟩ := cg_run H b x0 tol atol maxiter
  have h0 : 0 ≤ cgBound (fun u v => dot u v) b tol atol := le_max_of_le_right (sq_nonneg atol)
  have hx := (R.in_krylov n le_rfl).1
  refine ⟨_, _, n, hcg, hx, fun y hy hne => ?_⟩
  -- the difference of the two candidates
  have hz : x0 + y - (f n).x ∈ dirSpan f n := by
    have : x0 + y - (f n).x = y - ((f n).x - x0) := by abel
    rw [this]
    exact R.krylov_le h0 (Submodule.sub_mem _ hy hx)
  obtain ⟨horth, _⟩ := R.orthogonal H h0 n le_rfl
  have hrz : ∀ z ∈ dirSpan f n, dot (f n).r z = 0 ∧ ∃ w, z = M w := by
    intro z hz
    induction hz using Submodule.span_induction with
    | mem z hz =>
      obtain ⟨i, hi, rfl⟩ := hz
      exact ⟨horth i hi, (R.orthogonal H h0 i (by omega)).2.2.2.2⟩
    | zero => exact ⟨map_zero _, 0, (map_zero M).symm⟩
    | add x y _ _ hx hy =>
      obtain ⟨h1, w1, rfl⟩ := hx
      obtain ⟨h2, w2, rfl⟩ := hy
      exact ⟨by rw [map_add, h1, h2, add_zero], w1 + w2, (map_add M _ _).symm⟩
    | smul c x _ hx =>
      obtain ⟨h1, w1, rfl⟩ := hx
      exact ⟨by rw [map_smul, h1, smul_zero], c • w1, (map_smul M _ _).symm⟩
  obtain ⟨h1, w, hw⟩ := hrz _ hz
  set z := x0 + y - (f n).x with hzdef
  have hz0 : M w ≠ 0 := by
    rw [← hw, hzdef]
    exact sub_ne_zero.mpr hne
  have hpos := H.posA w hz0
  rw [← hw] at hpos
  have hxy : xs - (x0 + y) = xs - (f n).x - z := by rw [hzdef]; abel
  unfold energyDist
  rw [hxy]
  -- the cross term vanishes
  have hcross : dot z (A (xs - (f n).x)) = 0 := by
    have e1 : A (xs - (f n).x) = (f n).r - (b - A xs) := by rw [R.residual n le_rfl, map_sub]; abel
    rw [e1, map_sub, H.symm z (f n).r, h1, hw, H.symmM, hxs, map_zero, sub_zero]
  have hcross2 : dot (xs - (f n).x) (A z) = 0 := by rw [← H.symmA, H.symm]; exact hcross
  set e := xs - (f n).x
  simp only [map_sub, LinearMap.sub_apply] at hcross hcross2 ⊢
  rw [hcross2, hcross]
  linarith

/-- The error is at most that of any polynomial of degree `n` in `M A` with value one at zero, applied to the initial
error. -/
theorem C97_polynomial (H : CGHyp dot A M) (b x0 xs : V) (hxs : M (b - A xs) = 0) (tol atol : K) (maxiter : ℕ) :
    ∃ x res n, cg (fun u v => dot u v) A M b x0 tol atol maxiter = some (x, res, n) ∧
      ∀ q : K[X], q.natDegree ≤ n → q.eval 0 = 1 →
        energyDist dot A xs x ≤ dot (aeval (M ∘ₗ A) q (xs - x0)) (A (aeval (M ∘ₗ A) q (xs - x0))) := by
  obtain ⟨x, res, n, hcg, hx, hopt⟩ := C97_optimal H b x0 xs hxs tol atol maxiter
  refine ⟨x, res, n, hcg, fun q hq hq0 => ?_⟩
  set T := M ∘ₗ A with hT
  have hTe : T (xs - x0) = M (b - A x0) := by
    rw [hT, LinearMap.comp_apply, map_sub]
    have : A xs - A x0 = (b - A x0) - (b - A xs) := by abel
    rw [this, map_sub, hxs, sub_zero]
  have hs : ∀ s : K[X], s.natDegree < n ∨ s = 0 → aeval T s (M (b - A x0)) ∈ krylov T (M (b - A x0)) n := by
    intro s hs
    rcases hs with hs | rfl
    · rw [aeval_eq_sum_range, LinearMap.sum_apply]
      refine Submodule.sum_mem _ fun i hi => ?_
      rw [LinearMap.smul_apply]
      exact Submodule.smul_mem _ _ (Submodule.subset_span ⟨i, by have := Finset.mem_range.mp hi; omega, rfl⟩)
    · rw [map_zero]; exact Submodule.zero_mem _
  have hdiv : q.divX.natDegree < n ∨ q.divX = 0 := by
    rcases Nat.eq_zero_or_pos q.natDegree with h | h
    · right
      rw [divX_eq_zero_iff]
      exact eq_C_of_natDegree_eq_zero h
    · left
      rw [natDegree_divX_eq_natDegree_tsub_one]; omega
  have hqe : aeval T q (xs - x0) = (xs - x0) + aeval T q.divX (M (b - A x0)) := by
    have hc : q.coeff 0 = 1 := by rw [coeff_zero_eq_eval_zero]; exact hq0
    conv_lhs => rw [← divX_mul_X_add q]
    rw [hc, map_add, map_mul, aeval_X, map_one, map_one, LinearMap.add_apply, Module.End.mul_apply, hTe, add_comm]
    rfl
  have hy := Submodule.neg_mem _ (hs _ hdiv)
  have hE : energyDist dot A xs (x0 + -aeval T q.divX (M (b - A x0))) =
      dot (aeval T q (xs - x0)) (A (aeval T q (xs - x0))) := by
    have : xs - (x0 + -aeval T q.divX (M (b - A x0))) = aeval T q (xs - x0) := by rw [hqe]; abel
    unfold energyDist
    rw [this]
  rw [← hE]
  by_cases hne : x0 + -aeval T q.divX (M (b - A x0)) = x
  · rw [hne]
  · exact (hopt _ hy hne).le

/-- Bounds `m` and `L` of the quotient of `⟨A x, M A x⟩` and `⟨x, A x⟩` on the range of the preconditioner. -/
structure SpectralBounds (dot : V →ₗ[K] V →ₗ[K] K) (A M : V →ₗ[K] V) (m L : K) : Prop where
  pos : 0 < m
  lower : ∀ y, m * dot (M y) (A (M y)) ≤ dot (A (M y)) (M (A (M y)))
  upper : ∀ y, dot (A (M y)) (M (A (M y))) ≤ L * dot (M y) (A (M y))

/-- With spectral bounds `m` and `L`, the square of the energy norm of the error falls by the factor
`((L - m) / (L + m)) ^ 2` in each iteration; `L / m` is the condition number. -/
theorem C97_rate (H : CGHyp dot A M) {m L : K} (B : SpectralBounds dot A M m L) (hmL : m ≤ L) (b x0 xs : V)
    (hxs : M (b - A xs) = 0) (hx0 : ∃ y, xs - x0 = M y) (tol atol : K) (maxiter : ℕ) :
    ∃ x res n, cg (fun u v => dot u v) A M b x0 tol atol maxiter = some (x, res, n) ∧
      energyDist dot A xs x ≤ ((L - m) / (L + m)) ^ (2 * n) * energyDist dot A xs x0 := by
  obtain ⟨x, res, n, hcg, hq⟩ := C97_polynomial H b x0 xs hxs tol atol maxiter
  refine ⟨x, res, n, hcg, ?_⟩
  set T := M ∘ₗ A with hT
  have hm := B.pos
  have hLm : 0 < L + m := by linarith
  set rho := (L - m) / (L + m) with hrho
  have hrho0 : 0 ≤ rho := div_nonneg (by linarith) hLm.le
  set w : K := 2 / (L + m) with hw
  set S : V →ₗ[K] V := LinearMap.id - w • T with hS
  have hpoly := hq ((1 - C w * X) ^ n) (by
    refine natDegree_pow_le.trans ?_
    have : (1 - C w * X : K[X]).natDegree ≤ 1 := by
      refine (natDegree_sub_le _ _).trans ?_
      rw [natDegree_one]
      exact max_le (Nat.zero_le _) ((natDegree_C_mul_le w X).trans natDegree_X_le)
    calc n * _ ≤ n * 1 := Nat.mul_le_mul_left n this
      _ = n := Nat.mul_one n) (by simp)
  have haev : aeval T ((1 - C w * X) ^ n) = S ^ n := by
    rw [map_pow, map_sub, map_one, map_mul, aeval_C, aeval_X, hS]
    congr 1
  rw [haev] at hpoly
  refine hpoly.trans ?_
  -- the form of the energy on the range of the preconditioner
  set W := LinearMap.range M with hW
  set a : V →ₗ[K] V →ₗ[K] K := dot.compl₂ A with ha
  have hTW : ∀ v, T v ∈ W := fun v => ⟨A v, rfl⟩
  have hSW : ∀ v ∈ W, S v ∈ W := fun v hv => W.sub_mem hv (W.smul_mem w (hTW v))
  have hpsd : ∀ v ∈ W, 0 ≤ a v v := by
    rintro _ ⟨y, rfl⟩
    by_cases h : M y = 0
    · rw [h]; simp
    · exact (H.posA y h).le
  have hTT : ∀ u v, a (T u) v = dot (A v) (M (A u)) := fun u v => by
    rw [ha, LinearMap.compl₂_apply, hT, LinearMap.comp_apply, H.symm]
  have hsym : ∀ u v, a (S u) v = a (S v) u := by
    intro u v
    have h1 : a u v = a v u := by rw [ha, LinearMap.compl₂_apply, LinearMap.compl₂_apply, H.symm, H.symmA]
    have h2 : a (T u) v = a (T v) u := by rw [hTT, hTT, H.symm, H.symmM]
    rw [hS, LinearMap.sub_apply, LinearMap.sub_apply, map_sub, map_sub, LinearMap.sub_apply, LinearMap.sub_apply,
      LinearMap.id_apply, LinearMap.id_apply, h1, LinearMap.smul_apply, LinearMap.smul_apply, map_smul, map_smul,
      LinearMap.smul_apply, LinearMap.smul_apply, h2]
  have hval : ∀ v, a (S v) v = a v v - w * a (T v) v := by
    intro v
    rw [hS, LinearMap.sub_apply, map_sub, LinearMap.sub_apply, LinearMap.id_apply, LinearMap.smul_apply, map_smul,
      LinearMap.smul_apply, smul_eq_mul]
  have hw0 : 0 < w := div_pos two_pos hLm
  have hwm : 1 - w * m = rho := by rw [hw, hrho]; field_simp; ring
  have hwL : 1 - w * L = -rho := by rw [hw, hrho]; field_simp; ring
  have hstep := form_sq_le a S W hSW hsym hpsd hrho0
    (by
      rintro _ ⟨y, rfl⟩
      have h1 : a (T (M y)) (M y) ≤ L * a (M y) (M y) := by rw [hTT]; exact B.upper y
      rw [hval]
      have h2 := mul_le_mul_of_nonneg_left h1 hw0.le
      have : -(rho * a (M y) (M y)) = (1 - w * L) * a (M y) (M y) := by rw [hwL]; ring
      rw [this]; linarith)
    (by
      rintro _ ⟨y, rfl⟩
      have h1 : m * a (M y) (M y) ≤ a (T (M y)) (M y) := by rw [hTT]; exact B.lower y
      rw [hval]
      have h2 := mul_le_mul_of_nonneg_left h1 hw0.le
      have : rho * a (M y) (M y) = (1 - w * m) * a (M y) (M y) := by rw [hwm]
      rw [this]; linarith)
  have hpow : ∀ n, (S ^ n) (xs - x0) ∈ W ∧
      a ((S ^ n) (xs - x0)) ((S ^ n) (xs - x0)) ≤ rho ^ (2 * n) * a (xs - x0) (xs - x0) := by
    intro n
    induction n with
    | zero =>
      obtain ⟨y, hy⟩ := hx0
      exact ⟨⟨y, hy.symm⟩, by simp⟩
    | succ n ih =>
      obtain ⟨h1, h2⟩ := ih
      rw [pow_succ', Module.End.mul_apply]
      refine ⟨hSW _ h1, (hstep _ h1).trans ?_⟩
      calc _ ≤ rho ^ 2 * (rho ^ (2 * n) * a (xs - x0) (xs - x0)) := mul_le_mul_of_nonneg_left h2 (sq_nonneg rho)
        _ = _ := by ring
  exact (hpow n).2

/-- The residual that `cg` returns bounds the error from both sides, so an exit before the cap bounds the error by the
tolerance. -/
theorem C97_error (H : CGHyp dot A M) {m L : K} (B : SpectralBounds dot A M m L) (b x0 xs : V)
    (hxs : M (b - A xs) = 0) (hx0 : ∃ y, xs - x0 = M y) (tol atol : K) (maxiter : ℕ) :
    ∃ x res n, cg (fun u v => dot u v) A M b x0 tol atol maxiter = some (x, res, n) ∧
      m * energyDist dot A xs x ≤ res ∧ res ≤ L * energyDist dot A xs x ∧
      (n < maxiter → m * energyDist dot A xs x ≤ max (tol ^ 2 * dot b b) (atol ^ 2)) := by
  obtain ⟨x, res, n, hcg, hx, -⟩ := C97_optimal H b x0 xs hxs tol atol maxiter
  obtain ⟨-, hres, hexit⟩ := C44_exit (fun u v => dot u v) A M b x0 tol atol maxiter x res n hcg
  have hmem : xs - x ∈ LinearMap.range M := by
    obtain ⟨y, hy⟩ := hx0
    have hk : krylov (M ∘ₗ A) (M (b - A x0)) n ≤ LinearMap.range M := by
      refine Submodule.span_le.mpr ?_
      rintro w ⟨i, _, rfl⟩
      cases i with
      | zero => exact ⟨_, rfl⟩
      | succ i => rw [pow_succ']; exact ⟨_, rfl⟩
    have : xs - x = M y - (x - x0) := by rw [← hy]; abel
    rw [this]
    exact Submodule.sub_mem _ ⟨y, rfl⟩ (hk hx)
  obtain ⟨y, hy⟩ := hmem
  have hMr : M (b - A x) = M (A (xs - x)) := by
    have : b - A x = (b - A xs) + A (xs - x) := by rw [map_sub]; abel
    rw [this, map_add, hxs, zero_add]
  have hres' : res = dot (A (xs - x)) (M (A (xs - x))) := by
    rw [hres]
    have : b - A x = (b - A xs) + A (xs - x) := by rw [map_sub]; abel
    show dot (b - A x) (M (b - A x)) = _
    rw [hMr, this, map_add, LinearMap.add_apply, ← H.symmM, hxs, map_zero, LinearMap.zero_apply, zero_add]
  have hl := B.lower y
  have hu := B.upper y
  rw [hy, ← hres'] at hl hu
  exact ⟨x, res, n, hcg, hl, hu, fun h => hl.trans (hexit h)⟩

/-- The number of iterations grows with the root of the condition number only: when `s ^ 2` is at least `L / m`, the
square of the energy norm of the error after `n` iterations is at most `4 ((s - 1) / (s + 1)) ^ (2 n)` times the initial
one. -/
theorem C97_chebyshev (H : CGHyp dot A M) {m L s : K} (B : SpectralBounds dot A M m L) (hs : 1 ≤ s)
    (hsL : L ≤ s ^ 2 * m) (b x0 xs : V)
    (hxs : M (b - A xs) = 0) (hx0 : ∃ y, xs - x0 = M y) (tol atol : K) (maxiter : ℕ) :
    ∃ x res n, cg (fun u v => dot u v) A M b x0 tol atol maxiter = some (x, res, n) ∧
      energyDist dot A xs x ≤ 4 * ((s - 1) / (s + 1)) ^ (2 * n) * energyDist dot A xs x0 := by
  have hm := B.pos
  set W := LinearMap.range M with hW
  set a : V →ₗ[K] V →ₗ[K] K := dot.compl₂ A with ha
  have hpsd : ∀ v ∈ W, 0 ≤ a v v := by
    rintro _ ⟨y, rfl⟩
    by_cases h : M y = 0
    · rw [h]; simp
    · exact (H.posA y h).le
  have B' : SpectralBounds dot A M m (s ^ 2 * m) :=
    ⟨B.pos, B.lower, fun y => (B.upper y).trans (mul_le_mul_of_nonneg_right hsL (hpsd _ ⟨y, rfl⟩))⟩
  have hE0 : 0 ≤ energyDist dot A xs x0 := by
    obtain ⟨y, hy⟩ := hx0
    exact hpsd _ ⟨y, hy.symm⟩
  rcases hs.eq_or_lt with rfl | hs1
  · obtain ⟨x, res, n, hcg, hr⟩ := C97_rate H B' (by linarith) b x0 xs hxs hx0 tol atol maxiter
    refine ⟨x, res, n, hcg, hr.trans ?_⟩
    have e : (1 ^ 2 * m - m) / (1 ^ 2 * m + m) = ((1 - 1) / (1 + 1) : K) := by simp
    rw [e]
    have h0 : (0 : K) ≤ ((1 - 1) / (1 + 1)) ^ (2 * n) := by rw [pow_mul]; exact pow_nonneg (sq_nonneg _) n
    nlinarith [mul_nonneg h0 hE0]
  obtain ⟨x, res, n, hcg, hq⟩ := C97_polynomial H b x0 xs hxs tol atol maxiter
  refine ⟨x, res, n, hcg, ?_⟩
  set T := M ∘ₗ A with hT
  have hd : 0 < s ^ 2 - 1 := by nlinarith
  set sigma := (s ^ 2 + 1) / (s ^ 2 - 1) with hsigma
  set w := 2 / ((s ^ 2 - 1) * m) with hw
  set S : V →ₗ[K] V := aeval T (C sigma - C w * X) with hS
  have hSv : ∀ v, S v = sigma • v - w • T v := by
    intro v
    rw [hS, map_sub, map_mul, aeval_C, aeval_C, aeval_X, LinearMap.sub_apply, Module.End.mul_apply,
      Module.algebraMap_end_apply, Module.algebraMap_end_apply]
  have hTW : ∀ v, T v ∈ W := fun v => ⟨A v, rfl⟩
  have hSW : ∀ v ∈ W, S v ∈ W := fun v hv => by
    rw [hSv]; exact W.sub_mem (W.smul_mem _ hv) (W.smul_mem w (hTW v))
  have hTT : ∀ u v, a (T u) v = dot (A v) (M (A u)) := fun u v => by
    rw [ha, LinearMap.compl₂_apply, hT, LinearMap.comp_apply, H.symm]
  have hasym : ∀ u v, a u v = a v u := fun u v => by
    rw [ha, LinearMap.compl₂_apply, LinearMap.compl₂_apply, H.symm, H.symmA]
  have hsym : ∀ u v, a (S u) v = a u (S v) := by
    intro u v
    have h2 : a (T u) v = a u (T v) := by rw [hasym u, hTT, hTT, H.symm, H.symmM]
    rw [hSv, hSv, map_sub, map_sub, map_smul, map_smul, map_smul, map_smul, LinearMap.sub_apply,
      LinearMap.smul_apply, LinearMap.smul_apply, h2]
  have hval : ∀ v, a (S v) v = sigma * a v v - w * a (T v) v := by
    intro v
    rw [hSv, map_sub, map_smul, map_smul, LinearMap.sub_apply, LinearMap.smul_apply, LinearMap.smul_apply,
      smul_eq_mul, smul_eq_mul]
  have hw0 : 0 < w := div_pos two_pos (mul_pos hd hm)
  have hdne := ne_of_gt hd
  have hmne := ne_of_gt hm
  have hwm : sigma - w * m = 1 := by rw [hw, hsigma]; field_simp; ring
  have hwL : sigma - w * (s ^ 2 * m) = -1 := by rw [hw, hsigma]; field_simp; ring
  have hle : ∀ v ∈ W, a (S v) (S v) ≤ a v v := by
    intro v hv
    have := form_sq_le a S W hSW (fun u v => by rw [hsym, hasym]) hpsd (rho := 1) zero_le_one
      (by
        rintro _ ⟨y, rfl⟩
        have h1 : a (T (M y)) (M y) ≤ s ^ 2 * m * a (M y) (M y) := by rw [hTT]; exact B'.upper y
        rw [hval]
        have h2 := mul_le_mul_of_nonneg_left h1 hw0.le
        have : -(1 * a (M y) (M y)) = (sigma - w * (s ^ 2 * m)) * a (M y) (M y) := by rw [hwL]; ring
        rw [this]; linarith)
      (by
        rintro _ ⟨y, rfl⟩
        have h1 : m * a (M y) (M y) ≤ a (T (M y)) (M y) := by rw [hTT]; exact B'.lower y
        rw [hval]
        have h2 := mul_le_mul_of_nonneg_left h1 hw0.le
        have : 1 * a (M y) (M y) = (sigma - w * m) * a (M y) (M y) := by rw [hwm]
        rw [this]; linarith) v hv
    simpa using this
  -- the value of the Chebyshev polynomial at the centre
  set z := (s + 1) / (s - 1) with hz
  have hs0 : 0 < s - 1 := by linarith
  have hz0 : 0 < z := div_pos (by linarith) hs0
  have hsz : sigma = (z + z⁻¹) / 2 := by
    have h1 : s - 1 ≠ 0 := ne_of_gt hs0
    have h2 : s + 1 ≠ 0 := by linarith
    rw [hsigma, hz, inv_div, div_add_div _ _ h1 h2, div_div, div_eq_div_iff hdne (by positivity)]
    ring
  set c := (Chebyshev.T K n).eval sigma with hc
  have hcz : c = (z ^ n + z⁻¹ ^ n) / 2 := by rw [hc, hsz, cheb_eval_inv hz0.ne']
  have hzn : 0 < z ^ n := pow_pos hz0 n
  have hcpos : z ^ n / 2 ≤ c := by
    rw [hcz]
    have : 0 < z⁻¹ ^ n := pow_pos (inv_pos.mpr hz0) n
    linarith
  have hc0 : 0 < c := by linarith
  have hpoly := hq (C c⁻¹ * (Chebyshev.T K n).comp (C sigma - C w * X)) (by
    refine (natDegree_C_mul_le _ _).trans (natDegree_comp_le.trans ?_)
    rw [Chebyshev.natDegree_T]
    have : (C sigma - C w * X : K[X]).natDegree ≤ 1 := by
      refine (natDegree_sub_le _ _).trans ?_
      rw [natDegree_C]
      exact max_le (Nat.zero_le _) ((natDegree_C_mul_le w X).trans natDegree_X_le)
    calc _ ≤ n * 1 := Nat.mul_le_mul (by simp) this
      _ = n := Nat.mul_one n) (by
    rw [eval_mul, eval_C, eval_comp, eval_sub, eval_C, eval_mul, eval_X, mul_zero, sub_zero, ← hc]
    exact inv_mul_cancel₀ hc0.ne')
  have haev : aeval T (C c⁻¹ * (Chebyshev.T K n).comp (C sigma - C w * X)) (xs - x0) =
      c⁻¹ • aeval S (Chebyshev.T K n) (xs - x0) := by
    rw [map_mul, aeval_C, aeval_comp, Module.End.mul_apply, Module.algebraMap_end_apply]
  rw [haev] at hpoly
  obtain ⟨y, hy⟩ := hx0
  have hcon := cheb_contract a S W hSW hsym hle n (xs - x0) ⟨y, hy.symm⟩
  refine hpoly.trans ?_
  have e : dot (c⁻¹ • aeval S (Chebyshev.T K n) (xs - x0)) (A (c⁻¹ • aeval S (Chebyshev.T K n) (xs - x0))) =
      c⁻¹ ^ 2 * a (aeval S (Chebyshev.T K n) (xs - x0)) (aeval S (Chebyshev.T K n) (xs - x0)) := by
    rw [ha, LinearMap.compl₂_apply, map_smul, map_smul, map_smul, LinearMap.smul_apply, smul_eq_mul, smul_eq_mul]
    ring
  rw [e]
  have hz1 : (s - 1) / (s + 1) = z⁻¹ := by rw [hz, inv_div]
  have h4 : c⁻¹ ^ 2 ≤ 4 * ((s - 1) / (s + 1)) ^ (2 * n) := by
    have h5 : c⁻¹ ≤ 2 * z⁻¹ ^ n := by
      rw [inv_pow, inv_le_comm₀ hc0 (by positivity), mul_inv, inv_inv]
      linarith
    rw [hz1, mul_comm 2 n, pow_mul]
    have h6 : 0 < c⁻¹ := inv_pos.mpr hc0
    nlinarith
  calc _ ≤ c⁻¹ ^ 2 * a (xs - x0) (xs - x0) := mul_le_mul_of_nonneg_left hcon (sq_nonneg _)
    _ ≤ _ := mul_le_mul_of_nonneg_right h4 hE0

/-! ### instances -/

/-- The bounds of `diag(2, 1)`. -/
example : SpectralBounds dot2 diag2 LinearMap.id 1 2 := by
  refine ⟨one_pos, ?_, ?_⟩ <;> rintro ⟨a, b⟩ <;> simp [dot2, diag2] <;>
    nlinarith [mul_self_nonneg a, mul_self_nonneg b]

/-- The bounds also hold for a preconditioner with a kernel. -/
example : SpectralBounds dot2 diag2 sum2 3 3 := by
  refine ⟨by norm_num, ?_, ?_⟩ <;> rintro ⟨a, b⟩ <;> simp [dot2, diag2, sum2] <;> apply le_of_eq <;> ring

/-- The rate is attained: with `m = 1` and `L = 2` one iteration lowers the square of the error from `3 / 2` to
`1 / 6`. -/
example : cg (fun u v : ℚ × ℚ => u.1 * v.1 + u.2 * v.2) (fun u => (2 * u.1, u.2)) id (1, 1) (0, 0) 0 0 1 =
      some ((2 / 3, 2 / 3), 2 / 9, 1) ∧
    energyDist dot2 diag2 (1 / 2, 1) (2 / 3, 2 / 3) = ((2 - 1) / (2 + 1)) ^ (2 * 1) * energyDist dot2 diag2 (1 / 2, 1) 0 := by
  refine ⟨by decide +kernel, ?_⟩
  simp [energyDist, dot2, diag2]
  norm_num

/-- The solution of the system. -/
example : (LinearMap.id : (ℚ × ℚ) →ₗ[ℚ] ℚ × ℚ) ((1, 1) - diag2 (1 / 2, 1)) = 0 ∧
    ∃ y, ((1 / 2 : ℚ), (1 : ℚ)) - 0 = (LinearMap.id : (ℚ × ℚ) →ₗ[ℚ] ℚ × ℚ) y := by
  refine ⟨?_, ⟨_, rfl⟩⟩
  simp [diag2]

end Verif.Linalg
