import Verif.Lemmas.CG
import Mathlib.LinearAlgebra.FiniteDimensional.Lemmas
import Mathlib.LinearAlgebra.BilinearMap
import Mathlib.LinearAlgebra.Dimension.LinearMap
import Mathlib.LinearAlgebra.Matrix.DotProduct
import Mathlib.LinearAlgebra.Matrix.ToLin

/-!
# C44, C45, C46: conjugate gradients
-/

namespace Verif.Linalg

/-! ### C44 -/

section

variable {K V : Type*} [Field K] [LinearOrder K] [AddCommGroup V] [Module K V]

/-- `cg` does at most `maxiter` iterations, reports `⟨r, M r⟩` of the true residual of the vector it returns, and an exit
before the cap means that this number meets the tolerance. `dot` and `M` are arbitrary functions. -/
theorem C44_exit (dot : V → V → K) (A : V →ₗ[K] V) (M : V → V) (b x0 : V) (tol atol : K) (maxiter : ℕ)
    (x : V) (res : K) (n : ℕ) (h : cg dot A M b x0 tol atol maxiter = some (x, res, n)) :
    n ≤ maxiter ∧ res = dot (b - A x) (M (b - A x)) ∧
      (n < maxiter → res ≤ max (tol ^ 2 * dot b b) (atol ^ 2)) := by
  unfold cg at h
  split at h
  · exact absurd h (by simp)
  · rename_i s hs
    simp only [Option.some.injEq, Prod.mk.injEq] at h
    obtain ⟨rfl, rfl, rfl⟩ := h
    have hinv := cgLoop_inv (dot := dot) (A := A) (M := M) (atol2 := cgBound dot b tol atol) (maxiter := maxiter)
      (fun s => s.k ≤ maxiter ∧ s.r = b - A s.x ∧ s.gamma = dot s.r (M s.r)) (by
        rintro s s' ⟨h1, h2, h3⟩ ⟨hc, hb⟩
        obtain ⟨_, _, hx, hr, hg, _, hk⟩ := cgBody_eq hb
        refine ⟨by rw [hk]; exact hc.2, ?_, hg⟩
        rw [hr, hx, h2, map_add, map_smul]
        abel) _ _ _ ⟨Nat.zero_le _, rfl, rfl⟩ hs
    have hdone := cgLoop_done maxiter _ _ (by simp [cgInit]) hs
    obtain ⟨h1, h2, h3⟩ := hinv
    refine ⟨h1, by rw [h3, h2], fun hlt => ?_⟩
    by_contra hc
    exact hdone ⟨not_le.mp hc, hlt⟩

/-- An initial guess that meets the tolerance is returned unchanged, after no iteration. -/
theorem C44_initial_guess (dot : V → V → K) (A M : V → V) (b x0 : V) (tol atol : K) (maxiter : ℕ)
    (h : dot (b - A x0) (M (b - A x0)) ≤ max (tol ^ 2 * dot b b) (atol ^ 2)) :
    cg dot A M b x0 tol atol maxiter = some (x0, dot (b - A x0) (M (b - A x0)), 0) := by
  unfold cg
  rw [cgLoop_stop]
  · rfl
  · intro hc
    exact absurd hc.1 (not_lt.mpr h)

/-! ### C46 -/

/-- The result stays in every subspace that contains `b`, `x0` and the range of `A` and that `M` maps into itself,
whatever the tolerances and the number of iterations. -/
theorem C46_subspace (dot : V → V → K) (A M : V → V) (S : Submodule K V) (b x0 : V) (tol atol : K) (maxiter : ℕ)
    (hb : b ∈ S) (hx0 : x0 ∈ S) (hA : ∀ v ∈ S, A v ∈ S) (hM : ∀ v ∈ S, M v ∈ S)
    (x : V) (res : K) (n : ℕ) (h : cg dot A M b x0 tol atol maxiter = some (x, res, n)) : x ∈ S := by
  unfold cg at h
  split at h
  · exact absurd h (by simp)
  · rename_i s hs
    simp only [Option.some.injEq, Prod.mk.injEq] at h
    obtain ⟨rfl, rfl, rfl⟩ := h
    have hr0 : b - A x0 ∈ S := S.sub_mem hb (hA _ hx0)
    have hinv := cgLoop_inv (dot := dot) (A := A) (M := M) (atol2 := cgBound dot b tol atol) (maxiter := maxiter)
      (fun s => s.x ∈ S ∧ s.r ∈ S ∧ s.p ∈ S) (by
        rintro s s' ⟨h1, h2, h3⟩ ⟨_, hbody⟩
        obtain ⟨_, _, hx, hr, _, hp, _⟩ := cgBody_eq hbody
        have hr' : s'.r ∈ S := by rw [hr]; exact S.sub_mem h2 (S.smul_mem _ (hA _ h3))
        refine ⟨by rw [hx]; exact S.add_mem h1 (S.smul_mem _ h3), hr', ?_⟩
        rw [hp]
        exact S.add_mem (hM _ hr') (S.smul_mem _ h3)) _ _ _ ⟨hx0, hr0, hM _ hr0⟩ hs
    exact hinv.1

end

/-! ### C45 -/

section

variable {K V : Type*} [Field K] [LinearOrder K] [IsStrictOrderedRing K] [AddCommGroup V] [Module K V]

/-- The hypotheses of the method: `dot` is an inner product, `A` and `M` are symmetric, `M` is positive semidefinite and
`A` is positive definite on the range of `M`. For `M` definite this says that `A` and `M` are SPD; the weaker form covers
the preconditioner `QQᵀ`. -/
structure CGHyp (dot : V →ₗ[K] V →ₗ[K] K) (A M : V →ₗ[K] V) : Prop where
  symm : ∀ x y, dot x y = dot y x
  pos : ∀ x, x ≠ 0 → 0 < dot x x
  symmA : ∀ x y, dot (A x) y = dot x (A y)
  symmM : ∀ x y, dot (M x) y = dot x (M y)
  psdM : ∀ x, 0 ≤ dot x (M x)
  posA : ∀ x, M x ≠ 0 → 0 < dot (M x) (A (M x))

/-- A positive semidefinite operator vanishes where its quadratic form does. -/
theorem CGHyp.M_eq_zero {dot : V →ₗ[K] V →ₗ[K] K} {A M : V →ₗ[K] V} (H : CGHyp dot A M) (r : V)
    (h : dot r (M r) = 0) : M r = 0 := by
  by_contra hne
  -- the quadratic form along `r + t M r`
  have hq : ∀ t : K, 0 ≤ 2 * t * dot (M r) (M r) + t ^ 2 * dot (M r) (M (M r)) := by
    intro t
    have h1 := H.psdM (r + t • M r)
    have h2 : dot r (M (M r)) = dot (M r) (M r) := (H.symmM r (M r)).symm
    simp only [map_add, map_smul, LinearMap.add_apply, LinearMap.smul_apply, smul_eq_mul, h, h2] at h1
    linarith
  have hp := H.pos (M r) hne
  have hs := H.psdM (M r)
  set a := dot (M r) (M r)
  set c := dot (M r) (M (M r))
  have h1 := hq (-(a / (c + 1)))
  have hc1 : 0 < c + 1 := by linarith
  have hd : 0 < a / (c + 1) := div_pos hp hc1
  have he : a = (a / (c + 1)) * (c + 1) := by field_simp
  have h2 : 2 * -(a / (c + 1)) * a + (-(a / (c + 1))) ^ 2 * c =
      -((a / (c + 1)) * (a / (c + 1)) * (c + 2)) := by
    have : a = (a / (c + 1)) * (c + 1) := he
    linear_combination (-2 * (a / (c + 1))) * this
  rw [h2] at h1
  have : 0 < (a / (c + 1)) * (a / (c + 1)) * (c + 2) := by positivity
  linarith

/-- A run of `n` iterations: the successive values of the loop variable. -/
structure Run (dot : V →ₗ[K] V →ₗ[K] K) (A M : V →ₗ[K] V) (b x0 : V) (atol2 : K) (maxiter : ℕ)
    (n : ℕ) (f : ℕ → CGState K V) : Prop where
  start : f 0 = cgInit (fun u v => dot u v) A M b x0
  turn : ∀ i < n, Turn (fun u v => dot u v) A M atol2 maxiter (f i) (f (i + 1))

variable {dot : V →ₗ[K] V →ₗ[K] K} {A M : V →ₗ[K] V} {b x0 : V} {atol2 : K} {maxiter : ℕ}

theorem Run.k {n : ℕ} {f : ℕ → CGState K V} (R : Run dot A M b x0 atol2 maxiter n f) :
    ∀ i ≤ n, (f i).k = i := by
  intro i
  induction i with
  | zero => intro _; rw [R.start]; rfl
  | succ i ih =>
    intro h
    rw [(cgBody_eq (R.turn i h).2).2.2.2.2.2.2, ih (by omega)]

theorem Run.gamma {n : ℕ} {f : ℕ → CGState K V} (R : Run dot A M b x0 atol2 maxiter n f) :
    ∀ i ≤ n, (f i).gamma = dot (f i).r (M (f i).r) := by
  intro i h
  cases i with
  | zero => rw [R.start]; rfl
  | succ i => exact (cgBody_eq (R.turn i h).2).2.2.2.2.1

/-- The directions are `A`-conjugate and the residuals `M`-orthogonal. -/
theorem Run.orthogonal (H : CGHyp dot A M) (h0 : 0 ≤ atol2) {n : ℕ} {f : ℕ → CGState K V}
    (R : Run dot A M b x0 atol2 maxiter n f) :
    ∀ j ≤ n, (∀ i < j, dot (f j).r (f i).p = 0) ∧ (∀ i < j, dot (f j).r (M (f i).r) = 0) ∧
      (∀ i < j, dot (f j).p (A (f i).p) = 0) ∧ dot (f j).r (f j).p = (f j).gamma ∧ ∃ y, (f j).p = M y := by
  intro j
  induction j using Nat.strong_induction_on with
  | _ j ih =>
    intro hj
    cases j with
    | zero =>
      refine ⟨fun i hi => absurd hi (by omega), fun i hi => absurd hi (by omega), fun i hi => absurd hi (by omega), ?_, ?_⟩
      · rw [R.start]; rfl
      · rw [R.start]; exact ⟨_, rfl⟩
    | succ m =>
      obtain ⟨ha, hb, hc, hd, y, hy⟩ := ih m (by omega) (by omega)
      obtain ⟨hcond, hbody⟩ := R.turn m (by omega)
      obtain ⟨hpAp, hg0, hx, hr, hg, hp, hk⟩ := cgBody_eq hbody
      -- (a)
      have ha' : ∀ i < m + 1, dot (f (m + 1)).r (f i).p = 0 := by
        intro i hi
        rw [hr, map_sub, map_smul, LinearMap.sub_apply, LinearMap.smul_apply, smul_eq_mul]
        rcases Nat.lt_succ_iff_lt_or_eq.mp hi with hlt | rfl
        · rw [ha i hlt, H.symmA, hc i hlt, mul_zero, sub_zero]
        · rw [hd, H.symmA, div_mul_cancel₀ _ hpAp, sub_self]
      -- (b)
      have hb' : ∀ i < m + 1, dot (f (m + 1)).r (M (f i).r) = 0 := by
        intro i hi
        cases i with
        | zero =>
          have : M (f 0).r = (f 0).p := by rw [R.start]; rfl
          rw [this]; exact ha' 0 hi
        | succ i =>
          have hpi := (cgBody_eq (R.turn i (by omega)).2).2.2.2.2.2.1
          have : M (f (i + 1)).r = (f (i + 1)).p - ((f (i + 1)).gamma / (f i).gamma) • (f i).p := by
            rw [hpi]; abel
          rw [this, map_sub, map_smul, ha' (i + 1) hi, ha' i (by omega), smul_zero, sub_zero]
      have hgam : (f (m + 1)).gamma = dot (f (m + 1)).r (M (f (m + 1)).r) := hg
      refine ⟨ha', hb', ?_, ?_, ?_⟩
      · -- (c)
        intro i hi
        obtain ⟨hpAi, hgi0, _, hri, _, _, _⟩ := cgBody_eq (R.turn i (by omega)).2
        have hal : (f i).gamma / dot (f i).p (A (f i).p) ≠ 0 := div_ne_zero hgi0 hpAi
        set al := (f i).gamma / dot (f i).p (A (f i).p) with hal_def
        have hAp : al • A (f i).p = (f i).r - (f (i + 1)).r := by
          rw [hri]; abel
        have hmain : al * dot (f (m + 1)).p (A (f i).p) =
            (dot (f (m + 1)).r (M (f i).r) - dot (f (m + 1)).r (M (f (i + 1)).r)) +
              ((f (m + 1)).gamma / (f m).gamma) * (al * dot (f m).p (A (f i).p)) := by
          have h1 : al * dot (f (m + 1)).p (A (f i).p) = dot (f (m + 1)).p (al • A (f i).p) := by
            rw [map_smul, smul_eq_mul]
          have h2 : al * dot (f m).p (A (f i).p) = dot (f m).p (al • A (f i).p) := by
            rw [map_smul, smul_eq_mul]
          rw [h1, h2, hp, map_add, LinearMap.add_apply, map_smul dot, LinearMap.smul_apply, smul_eq_mul, hAp]
          congr 1
          rw [map_sub, H.symmM, H.symmM]
        have hzero : al * dot (f (m + 1)).p (A (f i).p) = 0 → dot (f (m + 1)).p (A (f i).p) = 0 := fun h =>
          (mul_eq_zero.mp h).resolve_left hal
        apply hzero
        rw [hmain]
        rcases Nat.lt_succ_iff_lt_or_eq.mp hi with hlt | rfl
        · rw [hb' i hi, hb' (i + 1) (by omega), hc i hlt]; ring
        · rw [hb' i hi, ← hgam, hal_def, div_mul_cancel₀ _ hpAi, div_mul_cancel₀ _ hg0]; ring
      · -- (d)
        rw [hp, map_add, map_smul, ha' m (by omega), smul_zero, add_zero, ← hgam]
      · exact ⟨(f (m + 1)).r + ((f (m + 1)).gamma / (f m).gamma) • y, by rw [hp, hy, map_add, map_smul]⟩

/-- As long as the condition of the loop holds, the next quotient has a positive denominator. -/
theorem Run.no_breakdown (H : CGHyp dot A M) (h0 : 0 ≤ atol2) {n : ℕ} {f : ℕ → CGState K V}
    (R : Run dot A M b x0 atol2 maxiter n f) (hc : cgCond atol2 maxiter (f n)) :
    0 < dot (f n).p (A (f n).p) ∧ 0 < (f n).gamma := by
  obtain ⟨_, _, _, hd, y, hy⟩ := R.orthogonal H h0 n le_rfl
  have hg : 0 < (f n).gamma := lt_of_le_of_lt h0 hc.1
  refine ⟨?_, hg⟩
  rw [hy]
  apply H.posA
  intro hz
  rw [hy, hz, map_zero] at hd
  exact absurd hd.symm (ne_of_gt hg)

/-- Residuals with positive `⟨r, M r⟩` are linearly independent after `M`. -/
theorem Run.independent (H : CGHyp dot A M) (h0 : 0 ≤ atol2) {n : ℕ} {f : ℕ → CGState K V}
    (R : Run dot A M b x0 atol2 maxiter n f) (m : ℕ) (hm : m ≤ n + 1) (hpos : ∀ i < m, 0 < (f i).gamma) :
    LinearIndependent K (fun i : Fin m => M (f i).r) := by
  rw [Fintype.linearIndependent_iff]
  intro g hg i
  have h1 : dot (f i).r (∑ j : Fin m, g j • M (f j).r) = 0 := by rw [hg, map_zero]
  rw [map_sum, Finset.sum_eq_single i] at h1
  · rw [map_smul, smul_eq_mul, ← R.gamma i (by have := i.2; omega)] at h1
    exact (mul_eq_zero.mp h1).resolve_right (ne_of_gt (hpos i i.2))
  · intro j _ hj
    rw [map_smul, smul_eq_mul]
    have hne : (j : ℕ) ≠ (i : ℕ) := fun h => hj (Fin.ext h)
    have hi := i.2
    have hj2 := j.2
    rcases Nat.lt_or_gt_of_ne hne with hlt | hlt
    · rw [(R.orthogonal H h0 i (by omega)).2.1 j hlt, mul_zero]
    · have := (R.orthogonal H h0 j (by omega)).2.1 i hlt
      rw [← H.symmM, H.symm, this, mul_zero]
  · intro h; exact absurd (Finset.mem_univ i) h

/-- The loop visits the states of a run. -/
theorem cgLoop_run (H : CGHyp dot A M) (h0 : 0 ≤ atol2) (fuel n : ℕ) (f : ℕ → CGState K V)
    (R : Run dot A M b x0 atol2 maxiter n f) :
    ∃ n' f', n ≤ n' ∧ Run dot A M b x0 atol2 maxiter n' f' ∧ (∀ i ≤ n, f' i = f i) ∧
      cgLoop (fun u v => dot u v) A M atol2 maxiter fuel (f n) = some (f' n') := by
  induction fuel generalizing n f with
  | zero => exact ⟨n, f, le_rfl, R, fun _ _ => rfl, rfl⟩
  | succ fuel ih =>
    by_cases hc : cgCond atol2 maxiter (f n)
    · obtain ⟨hp, hg⟩ := R.no_breakdown H h0 hc
      obtain ⟨s', hs'⟩ := cgBody_some (dot := fun u v => dot u v) (A := A) (M := M) (s := f n) (ne_of_gt hp) (ne_of_gt hg)
      have R' : Run dot A M b x0 atol2 maxiter (n + 1) (fun i => if i ≤ n then f i else s') := by
        refine ⟨by simpa using R.start, fun i hi => ?_⟩
        rcases Nat.lt_succ_iff_lt_or_eq.mp hi with hlt | rfl
        · have h1 : i ≤ n := by omega
          have h2 : i + 1 ≤ n := by omega
          simp only [h1, h2, if_true]
          exact R.turn i hlt
        · simp only [le_refl, if_true, Nat.succ_ne_self, Nat.not_succ_le_self, if_false]
          exact ⟨hc, hs'⟩
      obtain ⟨n', f', hn', hR', hag, hl⟩ := ih (n + 1) _ R'
      refine ⟨n', f', by omega, hR', fun i hi => ?_, ?_⟩
      · rw [hag i (by omega)]; simp [hi]
      · rw [cgLoop, if_pos hc, hs']
        simp only [Nat.not_succ_le_self, if_false] at hl
        exact hl
    · exact ⟨n, f, le_rfl, R, fun _ _ => rfl, by rw [cgLoop, if_neg hc]⟩

/-- For every result of `cg` there is a run that ends in it. -/
theorem cg_run (H : CGHyp dot A M) (b x0 : V) (tol atol : K) (maxiter : ℕ) :
    ∃ n f, Run dot A M b x0 (cgBound (fun u v => dot u v) b tol atol) maxiter n f ∧
      cg (fun u v => dot u v) A M b x0 tol atol maxiter = some ((f n).x, (f n).gamma, n) ∧
      ¬ cgCond (cgBound (fun u v => dot u v) b tol atol) maxiter (f n) := by
  have h0 : 0 ≤ cgBound (fun u v => dot u v) b tol atol := le_max_of_le_right (sq_nonneg atol)
  have R0 : Run dot A M b x0 (cgBound (fun u v => dot u v) b tol atol) maxiter 0
      (fun _ => cgInit (fun u v => dot u v) A M b x0) := ⟨rfl, fun i hi => absurd hi (by omega)⟩
  obtain ⟨n, f, _, R, _, hl⟩ := cgLoop_run H h0 maxiter 0 _ R0
  refine ⟨n, f, R, ?_, cgLoop_done maxiter _ _ (by simp [cgInit]) hl⟩
  unfold cg
  rw [hl]
  simp only [R.k n le_rfl]

/-- No division by zero, and the end within the rank of `M` (at most the dimension) iterations with a residual that
meets the tolerance. -/
theorem C45_terminates [FiniteDimensional K V] (H : CGHyp dot A M) (b x0 : V) (tol atol : K) (maxiter : ℕ)
    (hmax : Module.finrank K (LinearMap.range M) ≤ maxiter) :
    ∃ x res n, cg (fun u v => dot u v) A M b x0 tol atol maxiter = some (x, res, n) ∧
      n ≤ Module.finrank K (LinearMap.range M) ∧ n ≤ Module.finrank K V ∧
      res ≤ max (tol ^ 2 * dot b b) (atol ^ 2) := by
  obtain ⟨n, f, R, hcg, hdone⟩ := cg_run H b x0 tol atol maxiter
  have h0 : 0 ≤ cgBound (fun u v => dot u v) b tol atol := le_max_of_le_right (sq_nonneg atol)
  have hrank : ∀ m ≤ n + 1, (∀ i < m, 0 < (f i).gamma) → m ≤ Module.finrank K (LinearMap.range M) := by
    intro m hm hpos
    have hli := R.independent H h0 m hm hpos
    have hli' : LinearIndependent K (fun i : Fin m => (⟨M (f i).r, LinearMap.mem_range_self M _⟩ : LinearMap.range M)) := by
      apply LinearIndependent.of_comp (LinearMap.range M).subtype
      exact hli
    simpa using hli'.fintype_card_le_finrank
  have hpos : ∀ i < n, 0 < (f i).gamma := fun i hi => lt_of_le_of_lt h0 (R.turn i hi).1.1
  have hn := hrank n (by omega) hpos
  refine ⟨_, _, n, hcg, hn, hn.trans (Submodule.finrank_le _), ?_⟩
  by_contra hgt
  have hgt' : (f n).gamma > cgBound (fun u v => dot u v) b tol atol := not_le.mp hgt
  have hn1 := hrank (n + 1) le_rfl (fun i hi => by
    rcases Nat.lt_succ_iff_lt_or_eq.mp hi with h | rfl
    · exact hpos i h
    · exact lt_of_le_of_lt h0 hgt')
  apply hdone
  exact ⟨hgt', by rw [R.k n le_rfl]; omega⟩

/-- With zero tolerances the preconditioned residual of the result is zero, so for an invertible `M` the result solves
the system. -/
theorem C45_exact [FiniteDimensional K V] (H : CGHyp dot A M) (b x0 : V) (maxiter : ℕ)
    (hmax : Module.finrank K (LinearMap.range M) ≤ maxiter) :
    ∃ x res n, cg (fun u v => dot u v) A M b x0 0 0 maxiter = some (x, res, n) ∧
      M (b - A x) = 0 ∧ (Function.Injective M → A x = b) := by
  obtain ⟨x, res, n, hcg, _, _, hres⟩ := C45_terminates H b x0 0 0 maxiter hmax
  obtain ⟨_, hr, _⟩ := C44_exit _ A M b x0 0 0 maxiter x res n hcg
  have hz : M (b - A x) = 0 := by
    apply H.M_eq_zero
    apply le_antisymm _ (H.psdM _)
    simpa [hr] using hres
  refine ⟨x, res, n, hcg, hz, fun hinj => ?_⟩
  have : b - A x = 0 := hinj (by rw [hz, map_zero])
  exact (sub_eq_zero.mp this).symm

/-- The functional `⟨x, A x⟩ - 2 ⟨b, x⟩` decreases strictly at every iteration. -/
theorem Run.energy (H : CGHyp dot A M) (h0 : 0 ≤ atol2) {n : ℕ} {f : ℕ → CGState K V}
    (R : Run dot A M b x0 atol2 maxiter n f) (i : ℕ) (hi : i < n) :
    dot (f (i + 1)).x (A (f (i + 1)).x) - 2 * dot b (f (i + 1)).x <
      dot (f i).x (A (f i).x) - 2 * dot b (f i).x := by
  have hrx : ∀ j ≤ n, (f j).r = b - A (f j).x := by
    intro j
    induction j with
    | zero => intro _; rw [R.start]; rfl
    | succ j ih =>
      intro hj
      obtain ⟨_, _, hx, hr, _⟩ := cgBody_eq (R.turn j hj).2
      rw [hr, hx, ih (by omega), map_add, map_smul]; abel
  obtain ⟨hc, hbody⟩ := R.turn i hi
  obtain ⟨hpAp, hg0, hx, _, _, _, _⟩ := cgBody_eq hbody
  have hd := (R.orthogonal H h0 i (by omega)).2.2.2.1
  have R' : Run dot A M b x0 atol2 maxiter i f := ⟨R.start, fun j hj => R.turn j (by omega)⟩
  obtain ⟨hp, hg⟩ := R'.no_breakdown H h0 hc
  rw [hrx i (by omega), map_sub, LinearMap.sub_apply] at hd
  set a := (f i).gamma / dot (f i).p (A (f i).p) with ha
  have hag : a * dot (f i).p (A (f i).p) = (f i).gamma := by rw [ha, div_mul_cancel₀ _ hpAp]
  have hapos : 0 < a := div_pos hg hp
  rw [hx]
  simp only [map_add, map_smul, LinearMap.add_apply, LinearMap.smul_apply, smul_eq_mul]
  have hs : dot (f i).p (A (f i).x) = dot (A (f i).x) (f i).p := H.symm _ _
  have hs2 : dot (f i).x (A (f i).p) = dot (A (f i).x) (f i).p := (H.symmA _ _).symm
  have key : a * (f i).gamma > 0 := mul_pos hapos hg
  rw [hs, hs2]
  nlinarith [hag, hd, key]

/-- The loop with a larger cap continues the loop with the smaller one. -/
theorem cgLoop_continue {K V : Type*} [Field K] [LinearOrder K] [AddCommGroup V] [Module K V] {dot : V → V → K}
    {A M : V → V} {atol2 : K} {m m' : ℕ} (hm : m ≤ m') (fuel : ℕ) (s t : CGState K V) (hk : m ≤ s.k + fuel)
    (h : cgLoop dot A M atol2 m fuel s = some t) (extra : ℕ) :
    ∃ e, extra ≤ e ∧ cgLoop dot A M atol2 m' (fuel + extra) s = cgLoop dot A M atol2 m' e t := by
  induction fuel generalizing s with
  | zero =>
    simp only [cgLoop, Option.some.injEq] at h
    subst h
    exact ⟨extra, le_rfl, by rw [Nat.zero_add]⟩
  | succ fuel ih =>
    rw [cgLoop] at h
    split at h
    · rename_i hc
      split at h
      · exact absurd h (by simp)
      · rename_i s' hs'
        obtain ⟨e, he, hl⟩ := ih s' (by rw [(cgBody_eq hs').2.2.2.2.2.2]; omega) h
        refine ⟨e, he, ?_⟩
        have hc' : cgCond atol2 m' s := ⟨hc.1, lt_of_lt_of_le hc.2 hm⟩
        rw [Nat.succ_add, cgLoop, if_pos hc', hs']
        exact hl
    · simp only [Option.some.injEq] at h
      subst h
      exact ⟨fuel + 1 + extra, by omega, rfl⟩

/-- Allowing more iterations never increases the `A`-norm of the error of the result. -/
theorem C45_monotone (H : CGHyp dot A M) (b x0 xs : V) (hxs : A xs = b) (tol atol : K) (m m' : ℕ) (hm : m ≤ m') :
    ∃ x res n x' res' n', cg (fun u v => dot u v) A M b x0 tol atol m = some (x, res, n) ∧
      cg (fun u v => dot u v) A M b x0 tol atol m' = some (x', res', n') ∧
      dot (xs - x') (A (xs - x')) ≤ dot (xs - x) (A (xs - x)) ∧
      dot (xs - x) (A (xs - x)) ≤ dot (xs - x0) (A (xs - x0)) := by
  set B := cgBound (fun u v => dot u v) b tol atol with hB
  have h0 : 0 ≤ B := le_max_of_le_right (sq_nonneg atol)
  have hE : ∀ x, dot (xs - x) (A (xs - x)) = dot xs (A xs) + (dot x (A x) - 2 * dot b x) := by
    intro x
    simp only [map_sub, LinearMap.sub_apply]
    have h1 : dot xs (A x) = dot b x := by rw [← H.symmA, hxs]
    have h2 : dot x (A xs) = dot b x := by rw [H.symm, hxs]
    rw [h1, h2]; ring
  have hmono : ∀ {mm n : ℕ} {f : ℕ → CGState K V}, Run dot A M b x0 B mm n f → ∀ j ≤ n, ∀ i ≤ j,
      dot (f j).x (A (f j).x) - 2 * dot b (f j).x ≤ dot (f i).x (A (f i).x) - 2 * dot b (f i).x := by
    intro mm n f R j
    induction j with
    | zero => intro _ i hi; rw [Nat.le_zero.mp hi]
    | succ j ih =>
      intro hj i hi
      rcases Nat.le_succ_iff.mp hi with h | h
      · exact (R.energy H h0 j hj).le.trans (ih (by omega) i h)
      · rw [h]
  obtain ⟨n, f, R, hcg, _⟩ := cg_run H b x0 tol atol m
  -- the same states are a run under the larger cap
  have Rm : Run dot A M b x0 B m' n f := ⟨R.start, fun i hi =>
    ⟨⟨(R.turn i hi).1.1, lt_of_lt_of_le (R.turn i hi).1.2 hm⟩, (R.turn i hi).2⟩⟩
  have hl : cgLoop (fun u v => dot u v) A M B m m (cgInit (fun u v => dot u v) A M b x0) = some (f n) := by
    unfold cg at hcg
    rw [← hB] at hcg
    split at hcg
    · exact absurd hcg (by simp)
    · rename_i s hs
      rw [hs]
      -- states along the loop are those of the run
      have huniq : ∀ (fuel i : ℕ), i ≤ n → cgLoop (fun u v => dot u v) A M B m fuel (f i) = some s →
          ∃ e, cgLoop (fun u v => dot u v) A M B m e (f n) = some s := by
        intro fuel
        induction fuel with
        | zero =>
          intro i hi h
          have hsi : f i = s := by simpa [cgLoop] using h
          simp only [Option.some.injEq, Prod.mk.injEq] at hcg
          have hki : i = n := by rw [← R.k i hi, hsi]; exact hcg.2.2
          exact ⟨0, by rw [← hki]; exact h⟩
        | succ fuel ih =>
          intro i hi h
          rcases Nat.lt_or_eq_of_le hi with hlt | rfl
          · rw [cgLoop, if_pos (R.turn i hlt).1, (R.turn i hlt).2] at h
            exact ih (i + 1) hlt h
          · exact ⟨fuel + 1, h⟩
      obtain ⟨e, he⟩ := huniq m 0 (Nat.zero_le n) (by rw [R.start]; exact hs)
      simp only [Option.some.injEq, Prod.mk.injEq] at hcg
      -- `s.k = n`, so no turn was made after `f n`
      have hks : ∀ (e : ℕ) (s' : CGState K V), cgLoop (fun u v => dot u v) A M B m e s' = some s →
          s.k ≤ s'.k → s' = s := by
        intro e
        induction e with
        | zero => intro s' h _; simpa [cgLoop] using h
        | succ e ih =>
          intro s' h hle
          rw [cgLoop] at h
          split at h
          · split at h
            · exact absurd h (by simp)
            · rename_i s'' hb
              have hk := (cgBody_eq hb).2.2.2.2.2.2
              have := ih s'' h (by omega)
              rw [this] at hk
              omega
          · simpa using h
      rw [hks e (f n) he (by rw [R.k n le_rfl]; exact hcg.2.2.le)]
  obtain ⟨e, _, hcont⟩ := cgLoop_continue hm m _ _ (by simp [cgInit]) hl (m' - m)
  obtain ⟨n', f', hn', R', hag, hl'⟩ := cgLoop_run H h0 e n f Rm
  rw [hl', show m + (m' - m) = m' by omega] at hcont
  refine ⟨_, _, n, (f' n').x, (f' n').gamma, n', hcg, ?_, ?_, ?_⟩
  · unfold cg
    rw [← hB, hcont]
    simp only [R'.k n' le_rfl]
  · rw [hE, hE]
    have := hmono R' n' le_rfl n hn'
    rw [hag n le_rfl] at this
    linarith
  · rw [hE, hE]
    have := hmono R n le_rfl 0 (Nat.zero_le n)
    have hx0 : (f 0).x = x0 := by rw [R.start]; rfl
    rw [hx0] at this
    linarith

/-- Directions and residuals along any run of the loop. -/
theorem C45_conjugate (H : CGHyp dot A M) (b x0 : V) (tol atol : K) (maxiter : ℕ) :
    ∃ (n : ℕ) (f : ℕ → CGState K V), f 0 = cgInit (fun u v => dot u v) A M b x0 ∧
      (∀ i < n, cgBody (fun u v => dot u v) A M (f i) = some (f (i + 1))) ∧
      cg (fun u v => dot u v) A M b x0 tol atol maxiter = some ((f n).x, (f n).gamma, n) ∧
      (∀ i j, i < j → j ≤ n → dot (f j).p (A (f i).p) = 0 ∧ dot (f j).r (M (f i).r) = 0) ∧
      (∀ i < n, 0 < dot (f i).p (A (f i).p) ∧ 0 < (f i).gamma) := by
  obtain ⟨n, f, R, hcg, _⟩ := cg_run H b x0 tol atol maxiter
  have h0 : 0 ≤ cgBound (fun u v => dot u v) b tol atol := le_max_of_le_right (sq_nonneg atol)
  refine ⟨n, f, R.start, fun i hi => (R.turn i hi).2, hcg, fun i j hij hj => ?_, fun i hi => ?_⟩
  · have := R.orthogonal H h0 j hj
    exact ⟨this.2.2.1 i hij, this.2.1 i hij⟩
  · have R' : Run dot A M b x0 _ maxiter i f := ⟨R.start, fun j hj => R.turn j (by omega)⟩
    exact R'.no_breakdown H h0 (R.turn i hi).1

end

/-! ### instances -/

/-- The dot product of `ℚ²`. -/
def dot2 : (ℚ × ℚ) →ₗ[ℚ] (ℚ × ℚ) →ₗ[ℚ] ℚ :=
  LinearMap.mk₂ ℚ (fun u v => u.1 * v.1 + u.2 * v.2) (by intros; simp; ring) (by intros; simp; ring)
    (by intros; simp; ring) (by intros; simp; ring)

/-- `diag(2, 1)`. -/
def diag2 : (ℚ × ℚ) →ₗ[ℚ] (ℚ × ℚ) where
  toFun u := (2 * u.1, u.2)
  map_add' := by intros; simp; ring
  map_smul' := by intros; simp; ring

/-- `QQᵀ` of two copies of one node. -/
def sum2 : (ℚ × ℚ) →ₗ[ℚ] (ℚ × ℚ) where
  toFun u := (u.1 + u.2, u.1 + u.2)
  map_add' := by intros; simp; ring
  map_smul' := by intros; simp; ring

/-- The hypotheses hold for a definite operator and the identity. -/
example : CGHyp dot2 diag2 LinearMap.id := by
  refine ⟨?_, ?_, ?_, ?_, ?_, ?_⟩
  · rintro ⟨a, b⟩ ⟨c, d⟩; simp [dot2]; ring
  · rintro ⟨a, b⟩ h
    simp only [dot2, LinearMap.mk₂_apply]
    rcases not_and_or.mp (fun hab => h (Prod.ext_iff.mpr hab)) with h | h
    · have := mul_self_pos.mpr h; nlinarith [mul_self_nonneg b]
    · have := mul_self_pos.mpr h; nlinarith [mul_self_nonneg a]
  · rintro ⟨a, b⟩ ⟨c, d⟩; simp [dot2, diag2]; ring
  · rintro ⟨a, b⟩ ⟨c, d⟩; simp
  · rintro ⟨a, b⟩; simp [dot2]; nlinarith [mul_self_nonneg a, mul_self_nonneg b]
  · rintro ⟨a, b⟩ h
    simp only [dot2, diag2, LinearMap.mk₂_apply, LinearMap.id_coe, id, LinearMap.coe_mk, AddHom.coe_mk]
    rcases not_and_or.mp (fun hab => h (Prod.ext_iff.mpr hab)) with h | h
    · have : 0 < a * a := mul_self_pos.mpr h; nlinarith [mul_self_nonneg b]
    · have : 0 < b * b := mul_self_pos.mpr h; nlinarith [mul_self_nonneg a]

/-- They hold for the singular preconditioner `QQᵀ`, as used for the velocity. -/
example : CGHyp dot2 diag2 sum2 := by
  refine ⟨?_, ?_, ?_, ?_, ?_, ?_⟩
  · rintro ⟨a, b⟩ ⟨c, d⟩; simp [dot2]; ring
  · rintro ⟨a, b⟩ h
    simp only [dot2, LinearMap.mk₂_apply]
    rcases not_and_or.mp (fun hab => h (Prod.ext_iff.mpr hab)) with h | h
    · have := mul_self_pos.mpr h; nlinarith [mul_self_nonneg b]
    · have := mul_self_pos.mpr h; nlinarith [mul_self_nonneg a]
  · rintro ⟨a, b⟩ ⟨c, d⟩; simp [dot2, diag2]; ring
  · rintro ⟨a, b⟩ ⟨c, d⟩; simp [dot2, sum2]; ring
  · rintro ⟨a, b⟩; simp [dot2, sum2]; nlinarith [mul_self_nonneg (a + b)]
  · rintro ⟨a, b⟩ h
    have hab : a + b ≠ 0 := fun h0 => h (by simp [sum2, h0])
    simp only [dot2, diag2, sum2, LinearMap.mk₂_apply, LinearMap.coe_mk, AddHom.coe_mk]
    have := mul_self_pos.mpr hab
    nlinarith

/-- Two iterations solve `diag(2, 1) x = (1, 1)`. -/
example : cg (fun u v : ℚ × ℚ => u.1 * v.1 + u.2 * v.2) (fun u => (2 * u.1, u.2)) id (1, 1) (0, 0) 0 0 20 =
    some ((1 / 2, 1), 0, 2) := by decide +kernel

/-- Symmetry alone is not enough: with an indefinite operator the first quotient divides by zero. -/
example : cg (fun u v : ℚ × ℚ => u.1 * v.1 + u.2 * v.2) (fun u => (u.2, u.1)) id (1, 0) (0, 0) 0 0 20 = none := by
  decide +kernel

/-- A subspace as in C46: vectors with zero first entry, kept by the masked operator. -/
example : ∀ v ∈ (LinearMap.ker (LinearMap.fst ℚ ℚ ℚ)), (fun u : ℚ × ℚ => ((0 : ℚ), u.2)) v ∈
    LinearMap.ker (LinearMap.fst ℚ ℚ ℚ) := by
  intro v _; simp

end Verif.Linalg
