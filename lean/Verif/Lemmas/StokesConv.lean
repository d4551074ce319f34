import Verif.Lemmas.StokesTime
import Verif.Lemmas.TimeConv

/-!
# Norms of the errors of Stokes steps

The error equations of one step in the norm of the mass matrix, and along a run.
-/

set_option linter.unusedSectionVars false

namespace Verif.NS

open Verif.Core Verif.Linalg Verif.Spec

variable {d : ℕ} {sem : StokesSEM ℝ d}
  {vmesh pmesh : Mesh ℝ d} {quad overQuad : Quadrature1D ℝ} {masks : List (String × (ℕ → Bool))}
  {bcs : List (String × BCType)} {low : Nodes1D ℝ} {mu dt : ℝ} {k : ℕ} {project : Bool}

/-- The gradient of a pressure in the inner product of the mass matrix. -/
noncomputable def gradCoord (sem : StokesSEM ℝ d) (π : ℕ → ℝ) : EuclideanSpace ℝ (Fin sem.numV × Fin d) :=
  massCoord sem (sem.Q 1 1 (sem.Dt π))

theorem Q_lin (y z : Vel ℝ d) (a b : ℝ) : sem.Q 1 1 (a • y + b • z) = a • sem.Q 1 1 y + b • sem.Q 1 1 z := by
  have := (QLin sem 1 1).map_add (a • y) (b • z)
  rw [(QLin sem 1 1).map_smul, (QLin sem 1 1).map_smul] at this
  exact this

theorem gradCoord_lin (hv : sem.Valid) (x y : ℕ → ℝ) (a b : ℝ) :
    gradCoord sem (a • x + b • y) = a • gradCoord sem x + b • gradCoord sem y := by
  unfold gradCoord
  have h : sem.Dt (a • x + b • y) = a • sem.Dt x + b • sem.Dt y := by
    have := (DtLin sem hv.pwf).map_add (a • x) (b • y)
    rw [(DtLin sem hv.pwf).map_smul, (DtLin sem hv.pwf).map_smul] at this
    exact this
  rw [h, Q_lin, map_add, map_smul, map_smul]

/-- The gradient is bounded by the values at the nodes. -/
theorem gradCoord_bound (H : StokesSetup vmesh pmesh quad overQuad masks bcs sem) :
    ∃ c, 0 ≤ c ∧ ∀ (π : ℕ → ℝ) (r : ℝ), 0 ≤ r → (∀ j < sem.numP, |π j| ≤ r) → ‖gradCoord sem π‖ ≤ c * r := by
  have hv := H.valid
  let T : ℕ → EuclideanSpace ℝ (Fin sem.numV × Fin d) →L[ℝ] ℝ := fun j =>
    LinearMap.toContinuousLinearMap ((LinearMap.proj (R := ℝ) (φ := fun _ : ℕ => ℝ) j).comp ((DLin sem).comp (massCoordInv sem)))
  refine ⟨∑ j ∈ Finset.range sem.numP, ‖T j‖, Finset.sum_nonneg fun _ _ => norm_nonneg _, fun π r hr hπ => ?_⟩
  obtain ⟨γ, hγ⟩ : ∃ γ, γ = sem.Q 1 1 (sem.Dt π) := ⟨_, rfl⟩
  have hγT : γ ∈ TSpace sem := by rw [hγ]; exact Q_mem hv 1 1 (Dt_mem π)
  have hg : gradCoord sem π = massCoord sem γ := by rw [hγ]; rfl
  rw [hg]
  have h1 : ‖massCoord sem γ‖ ^ 2 = nodeDot sem.numP π (sem.D γ) := by
    rw [← real_inner_self_eq_norm_sq, massCoord_inner H.massPos' hγT.1 H.mask01]
    have e : sem.vDot γ (sem.B γ) = sem.vDot γ (sem.B (sem.Q 1 1 (sem.Dt π))) := by rw [← hγ]
    rw [e, vDot_B_Q H.finite H.mask01 hγT, D_Dt_adjoint hv γ (VSpace_masked hγT.1)]
  have h2 : nodeDot sem.numP π (sem.D γ) ≤ (∑ j ∈ Finset.range sem.numP, ‖T j‖) * r * ‖massCoord sem γ‖ := by
    unfold nodeDot
    rw [Finset.sum_mul, Finset.sum_mul]
    refine Finset.sum_le_sum fun j hj => ?_
    have e1 : T j (massCoord sem γ) = sem.D γ j := by
      change sem.D (massCoordInv sem (massCoord sem γ)) j = _
      rw [massCoordInv_apply H.massPos' (fun j hj => hγT.1 j (Or.inl hj))]
    have e2 := (T j).le_opNorm (massCoord sem γ)
    rw [e1, Real.norm_eq_abs] at e2
    have e3 := hπ j (Finset.mem_range.mp hj)
    calc π j * sem.D γ j ≤ |π j * sem.D γ j| := le_abs_self _
      _ = |π j| * |sem.D γ j| := abs_mul _ _
      _ ≤ r * (‖T j‖ * ‖massCoord sem γ‖) := mul_le_mul e3 e2 (abs_nonneg _) hr
      _ = ‖T j‖ * r * ‖massCoord sem γ‖ := by ring
  rcases (norm_nonneg (massCoord sem γ)).eq_or_lt with h0 | h0
  · rw [← h0]
    exact mul_nonneg (Finset.sum_nonneg fun _ _ => norm_nonneg _) hr
  · rw [← h1, sq] at h2
    exact le_of_mul_le_mul_right h2 h0

/-- The bound of the viscous term. -/
theorem visc_bound (H : StokesSetup vmesh pmesh quad overQuad masks bcs sem) :
    ∃ L, 0 ≤ L ∧ ∀ x : Vel ℝ d, (∀ j, sem.numV ≤ j → x j = 0) →
      ‖massCoord sem (sem.Q 1 1 (sem.A x))‖ ≤ L * ‖massCoord sem x‖ := by
  have hv := H.valid
  let F : Vel ℝ d →ₗ[ℝ] Vel ℝ d :=
    { toFun := fun x => sem.Q 1 1 (sem.A x)
      map_add' := fun x y => by
        have e : sem.A (x + y) = sem.A x + sem.A y := (ALin sem hv.vwf).map_add x y
        have := Q_lin (sem := sem) (sem.A x) (sem.A y) 1 1
        simp only [one_smul] at this
        rw [e, this]
      map_smul' := fun c x => by
        have e : sem.A (c • x) = c • sem.A x := (ALin sem hv.vwf).map_smul c x
        have := Q_lin (sem := sem) (sem.A x) (sem.A x) c 0
        simp only [zero_smul, add_zero] at this
        rw [e, this]
        rfl }
  exact massCoord_bound H.massPos' F

/-- The load in the norm of the mass matrix. -/
theorem load_bound (H : StokesSetup vmesh pmesh quad overQuad masks bcs sem) :
    ∃ L, 0 ≤ L ∧ ∀ x : Vel ℝ d, (∀ j, sem.numV ≤ j → x j = 0) → ‖massCoord sem (sem.Q 1 1 x)‖ ≤ L * ‖massCoord sem x‖ := by
  let F : Vel ℝ d →ₗ[ℝ] Vel ℝ d :=
    { toFun := fun x => sem.Q 1 1 x
      map_add' := fun x y => by
        have := Q_lin (sem := sem) x y 1 1
        simpa only [one_smul] using this
      map_smul' := fun c x => by
        have := Q_lin (sem := sem) x x c 0
        simp only [zero_smul, add_zero] at this
        exact this }
  exact massCoord_bound H.massPos' F

theorem D_eq_sub (u v : Vel ℝ d) : sem.D (u - v) = sem.D u - sem.D v := (DLin sem).map_sub u v

/-- The errors of one step in norms. -/
theorem step_norms (S : StepSetup vmesh pmesh quad overQuad masks bcs sem low 0 project) (hmu : 0 ≤ mu) (hdt : 0 < dt)
    (hk : 1 ≤ k) {b : Fin (k + 1) → ℝ} (hb : bdfkCoeffs k = some b) (U : Fin k → Vel ℝ d) (older : List (ℕ → ℝ))
    (p2 p1 : ℕ → ℝ) {f : Vel ℝ d} (hf : f ∈ VSpace sem) (ub : Option (Vel ℝ d)) (W : Fin (k + 1) → Vel ℝ d) (W' : Vel ℝ d)
    (q2 q1 q0 : ℕ → ℝ) {fe : Vel ℝ d} (hfe : fe ∈ VSpace sem) (hU : ∀ i : Fin k, U i - W i.castSucc ∈ TSpace sem)
    (hUD : ∀ i, sem.D (U i) = 0)
    (hW : W (Fin.last k) - ub.getD 0 ∈ TSpace sem) (hWD : ∀ i, sem.D (W i) = 0)
    (hτ : sem.masked (W' - (1 / dt) • ∑ i, b i • W i) ∈ TSpace sem)
    (href : ∀ v ∈ TSpace sem, sem.vDot v (sem.B W') + mu * sem.vDot v (sem.A (W (Fin.last k))) =
      sem.vDot v fe + sem.vDot v (sem.Dt q0)) {L : ℝ} (hL : ∀ x : Vel ℝ d, (∀ j, sem.numV ≤ j → x j = 0) →
      ‖massCoord sem (sem.Q 1 1 (sem.A x))‖ ≤ L * ‖massCoord sem x‖) :
    ∃ st, sem.oneStep low (List.ofFn U) (older ++ [p2, p1]) f mu dt k 0 ub none project 0 0 = .ok st ∧
      st.u - W (Fin.last k) ∈ TSpace sem ∧ sem.D st.u = 0 ∧
      ‖b (Fin.last k) • massCoord sem (st.u - W (Fin.last k)) + ∑ i : Fin k, b i.castSucc • massCoord sem (U i - W i.castSucc)‖ ≤
        dt * (‖gradCoord sem (st.p - q0)‖ + mu * L * ‖massCoord sem (st.uStar - W (Fin.last k))‖ +
          ‖massCoord sem (sem.masked (W' - (1 / dt) • ∑ i, b i • W i) + sem.Q 1 1 (f - fe))‖) ∧
      ‖massCoord sem (st.uStar - W (Fin.last k))‖ ≤ ‖massCoord sem (st.u - W (Fin.last k))‖ + dt / b (Fin.last k) *
        (‖gradCoord sem (st.p - q0)‖ + 2 * ‖gradCoord sem (p1 - q1)‖ + ‖gradCoord sem (p2 - q2)‖ +
          ‖gradCoord sem (q0 - (2 : ℝ) • q1 + q2)‖) ∧
      ‖gradCoord sem (st.p - q0)‖ ≤ mu * L * ‖massCoord sem (st.uStar - W (Fin.last k))‖ +
          ‖massCoord sem (sem.masked (W' - (1 / dt) • ∑ i, b i • W i) + sem.Q 1 1 (f - fe))‖ := by
  have H := S.setup
  have hv := H.valid
  obtain ⟨st, hst, heT, hwT, hDu, hmom, hten⟩ :=
    step_error S hmu hdt hk hb U older p2 p1 hf ub W W' q0 hfe hU hW (hWD _) hτ href
  have hbeta := (C37_leading k b hb).2
  refine ⟨st, hst, heT, hDu, ?_⟩
  obtain ⟨τ, hτd⟩ : ∃ τ, τ = sem.masked (W' - (1 / dt) • ∑ i, b i • W i) + sem.Q 1 1 (f - fe) := ⟨_, rfl⟩
  rw [← hτd] at hmom ⊢
  obtain ⟨w, hwd⟩ : ∃ w, w = st.uStar - W (Fin.last k) := ⟨_, rfl⟩
  rw [← hwd] at hmom hten hwT ⊢
  obtain ⟨e, hed⟩ : ∃ e, e = st.u - W (Fin.last k) := ⟨_, rfl⟩
  rw [← hed] at hmom hten heT ⊢
  have hDe : sem.D e = 0 := by rw [hed, D_eq_sub, hDu, hWD, sub_zero]
  -- the equation in coordinates
  have hJ : b (Fin.last k) • massCoord sem e + ∑ i : Fin k, b i.castSucc • massCoord sem (U i - W i.castSucc) =
      dt • (gradCoord sem (st.p - q0) - mu • massCoord sem (sem.Q 1 1 (sem.A w)) + massCoord sem τ) := by
    have := congrArg (massCoord sem) hmom
    rw [map_add, map_smul, map_sum] at this
    simp only [map_smul, map_add, map_sub] at this
    rw [gradCoord, ← this]
    simp only [map_sub]
  have hLw := hL w (fun j hj => hwT.1 j (Or.inl hj))
  have hsm : ‖mu • massCoord sem (sem.Q 1 1 (sem.A w))‖ ≤ mu * L * ‖massCoord sem w‖ := by
    rw [norm_smul, Real.norm_eq_abs, abs_of_nonneg hmu, mul_assoc]
    exact mul_le_mul_of_nonneg_left hLw hmu
  refine ⟨?_, ?_, ?_⟩
  · rw [hJ, norm_smul, Real.norm_eq_abs, abs_of_pos hdt]
    refine mul_le_mul_of_nonneg_left ?_ hdt.le
    refine (norm_add_le _ _).trans (add_le_add ((norm_sub_le _ _).trans (add_le_add le_rfl hsm)) le_rfl)
  · have h1 := congrArg (massCoord sem) hten
    rw [map_sub, map_smul] at h1
    have h2 : st.p - (2 : ℝ) • p1 + p2 = (1 : ℝ) • ((1 : ℝ) • ((1 : ℝ) • (st.p - q0) + (-2 : ℝ) • (p1 - q1)) + (1 : ℝ) • (p2 - q2)) +
        (1 : ℝ) • (q0 - (2 : ℝ) • q1 + q2) := by
      funext j
      simp only [Pi.add_apply, Pi.sub_apply, Pi.smul_apply, smul_eq_mul]
      ring
    have h3 : massCoord sem (sem.Q 1 1 (sem.Dt (st.p - (2 : ℝ) • p1 + p2))) = gradCoord sem (st.p - q0) +
        (-2 : ℝ) • gradCoord sem (p1 - q1) + gradCoord sem (p2 - q2) + gradCoord sem (q0 - (2 : ℝ) • q1 + q2) := by
      change gradCoord sem _ = _
      rw [h2, gradCoord_lin hv, gradCoord_lin hv, gradCoord_lin hv]
      simp only [one_smul]
    rw [h1, h3]
    refine (norm_sub_le _ _).trans (add_le_add le_rfl ?_)
    rw [norm_smul, Real.norm_eq_abs, abs_of_pos (div_pos hdt hbeta)]
    refine mul_le_mul_of_nonneg_left ?_ (div_pos hdt hbeta).le
    refine (norm_add_le _ _).trans (add_le_add ?_ le_rfl)
    refine (norm_add_le _ _).trans (add_le_add ?_ le_rfl)
    refine (norm_add_le _ _).trans (add_le_add le_rfl ?_)
    rw [norm_smul]
    norm_num
  · -- velocities without divergence are orthogonal to gradients
    obtain ⟨γ, hγ⟩ : ∃ γ, γ = sem.Q 1 1 (sem.Dt (st.p - q0)) := ⟨_, rfl⟩
    have hγT : γ ∈ TSpace sem := by rw [hγ]; exact Q_mem hv 1 1 (Dt_mem _)
    have hg : gradCoord sem (st.p - q0) = massCoord sem γ := by rw [hγ]; rfl
    have hort : ∀ x ∈ TSpace sem, sem.D x = 0 → inner ℝ (massCoord sem x) (massCoord sem γ) = 0 := by
      intro x hx hDx
      rw [massCoord_inner H.massPos' hx.1 H.mask01, hγ, vDot_B_Q H.finite H.mask01 hx, ← D_Dt_adjoint hv x (VSpace_masked hx.1), hDx]
      simp [nodeDot]
    have h1 := congrArg (fun z => inner ℝ z (massCoord sem γ)) hJ
    simp only [inner_add_left, inner_smul_left, sum_inner, inner_sub_left, conj_trivial] at h1
    rw [hort e heT hDe, Finset.sum_eq_zero (fun i _ => by
      rw [hort _ (hU i) (by rw [D_eq_sub, hUD, hWD, sub_zero]), mul_zero]), hg, real_inner_self_eq_norm_sq] at h1
    have h2 : ‖massCoord sem γ‖ ^ 2 = mu * inner ℝ (massCoord sem (sem.Q 1 1 (sem.A w))) (massCoord sem γ) -
        inner ℝ (massCoord sem τ) (massCoord sem γ) := by
      have : dt * (‖massCoord sem γ‖ ^ 2 - mu * inner ℝ (massCoord sem (sem.Q 1 1 (sem.A w))) (massCoord sem γ) +
          inner ℝ (massCoord sem τ) (massCoord sem γ)) = 0 := by rw [← h1]; ring
      rcases mul_eq_zero.mp this with h | h
      · exact absurd h hdt.ne'
      · linarith
    have h3 : mu * inner ℝ (massCoord sem (sem.Q 1 1 (sem.A w))) (massCoord sem γ) ≤
        mu * L * ‖massCoord sem w‖ * ‖massCoord sem γ‖ := by
      have := real_inner_le_norm (massCoord sem (sem.Q 1 1 (sem.A w))) (massCoord sem γ)
      have := mul_le_mul_of_nonneg_left (this.trans (mul_le_mul_of_nonneg_right hLw (norm_nonneg _))) hmu
      linarith
    have h4 : - inner ℝ (massCoord sem τ) (massCoord sem γ) ≤ ‖massCoord sem τ‖ * ‖massCoord sem γ‖ :=
      (neg_le_abs _).trans (abs_real_inner_le_norm _ _)
    rw [hg]
    rcases (norm_nonneg (massCoord sem γ)).eq_or_lt with h0 | h0
    · rw [← h0]
      have := (norm_nonneg _).trans hsm
      positivity
    · refine le_of_mul_le_mul_right ?_ h0
      rw [← sq, h2]
      linarith

/-- A run of steps: `U n` and `P n` follow from the values before, step `n` uses the force `F n` and the boundary values
`ub n`. -/
def StokesRun (sem : StokesSEM ℝ d) (low : Nodes1D ℝ) (alpha mu dt : ℝ) (k : ℕ) (project : Bool) (F : ℕ → Vel ℝ d)
    (ub : ℕ → Option (Vel ℝ d)) (older : ℕ → List (ℕ → ℝ)) (U : ℕ → Vel ℝ d) (P : ℕ → ℕ → ℝ) (N : ℕ) : Prop :=
  ∀ n ≤ N, ∃ st, sem.oneStep low (List.ofFn fun i : Fin k => U (n + i)) (older n ++ [P n, P (n + 1)]) (F n) mu dt k alpha
    (ub n) none project 0 0 = .ok st ∧ U (n + k) = st.u ∧ P (n + 2) = st.p

/-- Reference values along a run that satisfy the equations at the times of the steps. -/
structure Reference (sem : StokesSEM ℝ d) (mu dt : ℝ) {k : ℕ} (b : Fin (k + 1) → ℝ) (fe : ℕ → Vel ℝ d)
    (ub : ℕ → Option (Vel ℝ d)) (X X' : ℕ → Vel ℝ d) (q : ℕ → ℕ → ℝ) (N : ℕ) : Prop where
  force : ∀ n ≤ N, fe n ∈ VSpace sem
  boundary : ∀ n ≤ N, X (n + k) - (ub n).getD 0 ∈ TSpace sem
  div : ∀ n ≤ N + k, sem.D (X n) = 0
  defect : ∀ n ≤ N, sem.masked (X' n - (1 / dt) • ∑ i : Fin (k + 1), b i • X (n + i)) ∈ TSpace sem
  momentum : ∀ n ≤ N, ∀ v ∈ TSpace sem, sem.vDot v (sem.B (X' n)) + mu * sem.vDot v (sem.A (X (n + k))) =
    sem.vDot v (fe n) + sem.vDot v (sem.Dt (q (n + 2)))

/-- The norm of the truncation error of step `n`. -/
noncomputable def defectNorm (sem : StokesSEM ℝ d) (dt : ℝ) {k : ℕ} (b : Fin (k + 1) → ℝ) (F fe : ℕ → Vel ℝ d)
    (X X' : ℕ → Vel ℝ d) (n : ℕ) : ℝ :=
  ‖massCoord sem (sem.masked (X' n - (1 / dt) • ∑ i : Fin (k + 1), b i • X (n + i)) + sem.Q 1 1 (F n - fe n))‖

/-- The errors along a run. -/
theorem run_errors (S : StepSetup vmesh pmesh quad overQuad masks bcs sem low 0 project) (hmu : 0 ≤ mu) (hdt : 0 < dt)
    (hk : 1 ≤ k) {b : Fin (k + 1) → ℝ} (hb : bdfkCoeffs k = some b) {ρ : List ℝ} (hρ : ∀ i : Fin (k + 1), b i = ρ.getD i 0)
    {L : ℝ} (hL : ∀ x : Vel ℝ d, (∀ j, sem.numV ≤ j → x j = 0) → ‖massCoord sem (sem.Q 1 1 (sem.A x))‖ ≤ L * ‖massCoord sem x‖)
    {N : ℕ} {U : ℕ → Vel ℝ d} {P : ℕ → ℕ → ℝ} {F fe : ℕ → Vel ℝ d} {ub : ℕ → Option (Vel ℝ d)} {older : ℕ → List (ℕ → ℝ)}
    {X X' : ℕ → Vel ℝ d} {q : ℕ → ℕ → ℝ} (hF : ∀ n ≤ N, F n ∈ VSpace sem) (hR : Reference sem mu dt b fe ub X X' q N)
    (hstart : ∀ i < k, U i - X i ∈ TSpace sem) (hstartD : ∀ i < k, sem.D (U i) = 0)
    (hrun : StokesRun sem low 0 mu dt k project F ub older U P N) :
    (∀ n ≤ N + k, U n - X n ∈ TSpace sem ∧ sem.D (U n) = 0) ∧
    ∃ w : ℕ → ℝ, (∀ j, 0 ≤ w j) ∧ ∀ j ≤ N,
      ‖∑ i ∈ Finset.range (k + 1), ρ.getD i 0 • massCoord sem (U (j + i) - X (j + i))‖ ≤
        dt * (‖gradCoord sem (P (j + 2) - q (j + 2))‖ + mu * L * w j + defectNorm sem dt b F fe X X' j) ∧
      w j ≤ ‖massCoord sem (U (j + k) - X (j + k))‖ + dt / b (Fin.last k) *
        (‖gradCoord sem (P (j + 2) - q (j + 2))‖ + 2 * ‖gradCoord sem (P (j + 1) - q (j + 1))‖ +
          ‖gradCoord sem (P j - q j)‖ + ‖gradCoord sem (q (j + 2) - (2 : ℝ) • q (j + 1) + q j)‖) ∧
      ‖gradCoord sem (P (j + 2) - q (j + 2))‖ ≤ mu * L * w j + defectNorm sem dt b F fe X X' j := by
  -- one step
  have key : ∀ n ≤ N, (∀ i < k, U (n + i) - X (n + i) ∈ TSpace sem ∧ sem.D (U (n + i)) = 0) →
      (U (n + k) - X (n + k) ∈ TSpace sem ∧ sem.D (U (n + k)) = 0) ∧ ∃ w : ℝ, 0 ≤ w ∧
      ‖∑ i ∈ Finset.range (k + 1), ρ.getD i 0 • massCoord sem (U (n + i) - X (n + i))‖ ≤
        dt * (‖gradCoord sem (P (n + 2) - q (n + 2))‖ + mu * L * w + defectNorm sem dt b F fe X X' n) ∧
      w ≤ ‖massCoord sem (U (n + k) - X (n + k))‖ + dt / b (Fin.last k) *
        (‖gradCoord sem (P (n + 2) - q (n + 2))‖ + 2 * ‖gradCoord sem (P (n + 1) - q (n + 1))‖ +
          ‖gradCoord sem (P n - q n)‖ + ‖gradCoord sem (q (n + 2) - (2 : ℝ) • q (n + 1) + q n)‖) ∧
      ‖gradCoord sem (P (n + 2) - q (n + 2))‖ ≤ mu * L * w + defectNorm sem dt b F fe X X' n := by
    intro n hn hprev
    obtain ⟨st, hst, hu, hp⟩ := hrun n hn
    obtain ⟨st', hst', h1, h2, h3, h4, h5⟩ := step_norms S hmu hdt hk hb (fun i : Fin k => U (n + i)) (older n) (P n) (P (n + 1))
      (hF n hn) (ub n) (fun i : Fin (k + 1) => X (n + i)) (X' n) (q n) (q (n + 1)) (q (n + 2)) (hR.force n hn)
      (fun i => (hprev i i.2).1) (fun i => (hprev i i.2).2) (hR.boundary n hn)
      (fun i => hR.div _ (by have := i.2; omega)) (hR.defect n hn) (hR.momentum n hn) hL
    rw [hst, Except.ok.injEq] at hst'
    subst hst'
    simp only [Fin.val_last, Fin.val_castSucc] at h1 h3 h4 h5
    rw [← hu, ← hp] at *
    refine ⟨⟨h1, by first | exact h2 | simpa using h2⟩, _, norm_nonneg (massCoord sem (st.uStar - X (n + k))), ?_, h4, h5⟩
    rw [Finset.sum_range, Fin.sum_univ_castSucc]
    simp only [Fin.val_last, Fin.val_castSucc]
    have e1 : ρ.getD k 0 = b (Fin.last k) := (hρ (Fin.last k)).symm
    have e2 : ∀ i : Fin k, ρ.getD (i : ℕ) 0 = b i.castSucc := fun i => (hρ i.castSucc).symm
    simp only [e1, e2]
    rw [add_comm]
    exact h3
  have hall : ∀ n ≤ N + k, U n - X n ∈ TSpace sem ∧ sem.D (U n) = 0 := by
    intro n
    induction n using Nat.strong_induction_on with
    | _ n ih =>
      intro hn
      by_cases h : n < k
      · exact ⟨hstart n h, hstartD n h⟩
      · obtain ⟨m, rfl⟩ : ∃ m, n = m + k := ⟨n - k, by omega⟩
        exact (key m (by omega) (fun i hi => ih (m + i) (by omega) (by omega))).1
  refine ⟨hall, ?_⟩
  have hch : ∀ j : ℕ, ∃ w : ℝ, 0 ≤ w ∧ (j ≤ N →
      ‖∑ i ∈ Finset.range (k + 1), ρ.getD i 0 • massCoord sem (U (j + i) - X (j + i))‖ ≤
        dt * (‖gradCoord sem (P (j + 2) - q (j + 2))‖ + mu * L * w + defectNorm sem dt b F fe X X' j) ∧
      w ≤ ‖massCoord sem (U (j + k) - X (j + k))‖ + dt / b (Fin.last k) *
        (‖gradCoord sem (P (j + 2) - q (j + 2))‖ + 2 * ‖gradCoord sem (P (j + 1) - q (j + 1))‖ +
          ‖gradCoord sem (P j - q j)‖ + ‖gradCoord sem (q (j + 2) - (2 : ℝ) • q (j + 1) + q j)‖) ∧
      ‖gradCoord sem (P (j + 2) - q (j + 2))‖ ≤ mu * L * w + defectNorm sem dt b F fe X X' j) := by
    intro j
    by_cases hj : j ≤ N
    · obtain ⟨w, hw, h⟩ := (key j hj (fun i hi => hall (j + i) (by omega))).2
      exact ⟨w, hw, fun _ => h⟩
    · exact ⟨0, le_rfl, fun h => absurd h hj⟩
  choose w hw h using hch
  exact ⟨w, hw, h⟩

/-- A step is defined when the boundary values extend to a velocity without divergence. -/
theorem step_defined (S : StepSetup vmesh pmesh quad overQuad masks bcs sem low 0 project) (hmu : 0 ≤ mu) (hdt : 0 < dt)
    (hk : 1 ≤ k) {f : Vel ℝ d} (hf : f ∈ VSpace sem) {ub : Option (Vel ℝ d)} {x : Vel ℝ d} (hx : x - ub.getD 0 ∈ TSpace sem)
    (hxD : sem.D x = 0) (us : Fin k → Vel ℝ d) (older : List (ℕ → ℝ)) (p2 p1 : ℕ → ℝ) :
    ∃ st, sem.oneStep low (List.ofFn us) (older ++ [p2, p1]) f mu dt k 0 ub none project 0 0 = .ok st := by
  have H := S.setup
  have hv := H.valid
  obtain ⟨b, hb, _⟩ := C37_exact (K := ℝ) k hk
  obtain ⟨W, hW⟩ : ∃ W : Fin (k + 1) → Vel ℝ d, W = Fin.snoc us x := ⟨_, rfl⟩
  have h1 : ∀ i : Fin k, W i.castSucc = us i := fun i => by rw [hW, Fin.snoc_castSucc]
  have h2 : W (Fin.last k) = x := by rw [hW, Fin.snoc_last]
  obtain ⟨st, hst, _⟩ := step_error S hmu hdt hk hb us older p2 p1 hf ub W ((1 / dt) • ∑ i, b i • W i) 0
    (fe := sem.B ((1 / dt) • ∑ i, b i • W i) + mu • sem.A x)
    ((VSpace sem).add_mem (B_mem H.massOutside) ((VSpace sem).smul_mem _ (A_mem x)))
    (fun i => by rw [h1, sub_self]; exact (TSpace sem).zero_mem) (by rw [h2]; exact hx) (by rw [h2]; exact hxD)
    (by
      rw [sub_self]
      have : sem.masked (0 : Vel ℝ d) = 0 := by funext j l; simp [StokesSEM.masked]
      rw [this]
      exact (TSpace sem).zero_mem)
    (fun v _ => by
      have : sem.Dt 0 = 0 := (DtLin sem hv.pwf).map_zero
      rw [this, h2, vDot_add_right, vDot_smul_right]
      have h0 : sem.vDot v (0 : Vel ℝ d) = 0 := by simp [StokesSEM.vDot]
      rw [h0, add_zero])
  exact ⟨st, hst⟩

/-- Runs exist. -/
theorem run_exists (S : StepSetup vmesh pmesh quad overQuad masks bcs sem low 0 project) (hmu : 0 ≤ mu) (hdt : 0 < dt)
    (hk : 1 ≤ k) {N : ℕ} {F : ℕ → Vel ℝ d} {ub : ℕ → Option (Vel ℝ d)} (hF : ∀ n ≤ N, F n ∈ VSpace sem)
    (hub : ∀ n ≤ N, ∃ x, x - (ub n).getD 0 ∈ TSpace sem ∧ sem.D x = 0) (u0 : ℕ → Vel ℝ d) (p0 : ℕ → ℕ → ℝ) :
    ∃ U P, (∀ i < k, U i = u0 i) ∧ P 0 = p0 0 ∧ P 1 = p0 1 ∧ StokesRun sem low 0 mu dt k project F ub (fun _ => []) U P N := by
  have step : ∀ n (us : Fin k → Vel ℝ d) (older : List (ℕ → ℝ)) (p2 p1 : ℕ → ℝ), ∃ st : StokesSEM.Step ℝ d, n ≤ N →
      sem.oneStep low (List.ofFn us) (older ++ [p2, p1]) (F n) mu dt k 0 (ub n) none project 0 0 = .ok st := by
    intro n us older p2 p1
    by_cases hn : n ≤ N
    · obtain ⟨x, hx, hxD⟩ := hub n hn
      obtain ⟨st, hst⟩ := step_defined S hmu hdt hk (hF n hn) hx hxD us older p2 p1
      exact ⟨st, fun _ => hst⟩
    · exact ⟨⟨0, 0, 0, 0, 0, 0, 0⟩, fun h => absurd h hn⟩
  choose st hst using step
  -- all values up to a step
  let next : ℕ → (ℕ → Vel ℝ d) × (ℕ → ℕ → ℝ) → (ℕ → Vel ℝ d) × (ℕ → ℕ → ℝ) := fun n s =>
    (Function.update s.1 (n + k) (st n (fun i : Fin k => s.1 (n + i)) [] (s.2 n) (s.2 (n + 1))).u,
      Function.update s.2 (n + 2) (st n (fun i : Fin k => s.1 (n + i)) [] (s.2 n) (s.2 (n + 1))).p)
  let seq : ℕ → (ℕ → Vel ℝ d) × (ℕ → ℕ → ℝ) := fun n => Nat.rec (u0, p0) next n
  have hnext : ∀ n, seq (n + 1) = next n (seq n) := fun n => rfl
  have hstab1 : ∀ n m, m < n + k → ∀ l, (seq (n + l)).1 m = (seq n).1 m := by
    intro n m hm l
    induction l with
    | zero => rfl
    | succ l ih =>
      rw [← add_assoc, hnext, ← ih]
      exact Function.update_of_ne (by omega) _ _
  have hstab2 : ∀ n m, m < n + 2 → ∀ l, (seq (n + l)).2 m = (seq n).2 m := by
    intro n m hm l
    induction l with
    | zero => rfl
    | succ l ih =>
      rw [← add_assoc, hnext, ← ih]
      exact Function.update_of_ne (by omega) _ _
  have hU : ∀ n m, m < n + k → (seq (m + 1)).1 m = (seq n).1 m := by
    intro n m hm
    rcases le_total n (m + 1) with h | h
    · obtain ⟨l, hl⟩ := Nat.exists_eq_add_of_le h
      rw [hl]
      exact hstab1 n m hm l
    · obtain ⟨l, hl⟩ := Nat.exists_eq_add_of_le h
      rw [hl]
      exact (hstab1 (m + 1) m (by omega) l).symm
  have hP : ∀ n m, m < n + 2 → (seq (m + 1)).2 m = (seq n).2 m := by
    intro n m hm
    rcases le_total n (m + 1) with h | h
    · obtain ⟨l, hl⟩ := Nat.exists_eq_add_of_le h
      rw [hl]
      exact hstab2 n m hm l
    · obtain ⟨l, hl⟩ := Nat.exists_eq_add_of_le h
      rw [hl]
      exact (hstab2 (m + 1) m (by omega) l).symm
  refine ⟨fun m => (seq (m + 1)).1 m, fun m => (seq (m + 1)).2 m, fun i hi => hU 0 i (by omega), hP 0 0 (by omega),
    hP 0 1 (by omega), fun n hn => ⟨st n (fun i : Fin k => (seq n).1 (n + i)) [] ((seq n).2 n) ((seq n).2 (n + 1)), ?_, ?_, ?_⟩⟩
  · have e : (fun i : Fin k => (seq (n + i + 1)).1 (n + i)) = fun i : Fin k => (seq n).1 (n + i) :=
      funext fun i => hU n (n + i) (by have := i.2; omega)
    change sem.oneStep low (List.ofFn fun i : Fin k => (seq (n + i + 1)).1 (n + i)) ([] ++ [(seq (n + 1)).2 n, (seq (n + 1 + 1)).2 (n + 1)]) _ _ _ _ _ _ _ _ _ _ = _
    rw [e, hP n n (by omega), hP n (n + 1) (by omega)]
    exact hst n _ [] _ _ hn
  · change (seq (n + k + 1)).1 (n + k) = _
    rw [hU (n + 1) (n + k) (by omega), hnext]
    exact Function.update_self _ _ _
  · change (seq (n + 2 + 1)).2 (n + 2) = _
    rw [hP (n + 1) (n + 2) (by omega), hnext]
    exact Function.update_self _ _ _

end Verif.NS
