import Verif.Props.C104
import Verif.Props.C95

/-!
# C104: the order of the rollouts is not two

Drag and closure are evaluated at the last known velocity, so the errors of rollouts are not of second order whatever
`config.time_order`, unless these terms do not change along the flow.
-/

set_option linter.unusedSectionVars false

namespace Verif.NS

open Verif.Core Verif.Linalg Verif.Spec

variable {d : ℕ} {sem : StokesSEM ℝ d}
  {vmesh pmesh : Mesh ℝ d} {quad overQuad : Quadrature1D ℝ} {masks : List (String × (ℕ → Bool))}
  {bcs : List (String × BCType)} {low : Nodes1D ℝ} {mu dt : ℝ} {k : ℕ} {project : Bool}

/-- Sums of differences along a bounded sequence stay bounded. -/
theorem sum_differences {k : ℕ} {b : Fin (k + 1) → ℝ} (hb : ∑ i, b i = 0) {a : ℕ → ℝ} {A : ℝ} {M : ℕ}
    (ha : ∀ n < M + k, |a n| ≤ A) :
    |∑ n ∈ Finset.range M, ∑ i : Fin (k + 1), b i * a (n + i)| ≤ (∑ i : Fin (k + 1), |b i| * (2 * i)) * A := by
  rw [Finset.sum_comm]
  have h1 : ∑ i : Fin (k + 1), ∑ n ∈ Finset.range M, b i * a (n + i) =
      ∑ i : Fin (k + 1), b i * (∑ n ∈ Finset.range i, a (M + n) - ∑ n ∈ Finset.range i, a n) := by
    have h2 : ∀ i : Fin (k + 1), ∑ n ∈ Finset.range M, b i * a (n + i) =
        b i * (∑ n ∈ Finset.range i, a (M + n) - ∑ n ∈ Finset.range i, a n) + b i * ∑ n ∈ Finset.range M, a n := by
      intro i
      have h3 := Finset.sum_range_add a M i
      have h4 := Finset.sum_range_add a i M
      rw [add_comm (i : ℕ) M, h3] at h4
      have h5 : ∑ n ∈ Finset.range M, a (n + i) = ∑ n ∈ Finset.range M, a (i + n) :=
        Finset.sum_congr rfl fun n _ => by rw [add_comm]
      rw [← Finset.mul_sum, h5, ← mul_add]
      congr 1
      linarith
    rw [Finset.sum_congr rfl fun i _ => h2 i, Finset.sum_add_distrib, ← Finset.sum_mul, hb, zero_mul, add_zero]
  rw [h1, Finset.sum_mul]
  refine (Finset.abs_sum_le_sum_abs _ _).trans (Finset.sum_le_sum fun i _ => ?_)
  rw [abs_mul, mul_assoc]
  refine mul_le_mul_of_nonneg_left ?_ (abs_nonneg _)
  have h6 : ∀ s : ℕ, s ≤ M → |∑ n ∈ Finset.range i, a (s + n)| ≤ i * A := by
    intro s hs
    refine (Finset.abs_sum_le_sum_abs _ _).trans ?_
    refine (Finset.sum_le_sum (g := fun _ => A) fun n hn => ha _ ?_).trans ?_
    · have := i.2
      have := Finset.mem_range.mp hn
      omega
    · rw [Finset.sum_const, Finset.card_range, nsmul_eq_mul]
  have h7 := h6 M le_rfl
  have h8 := h6 0 (Nat.zero_le _)
  simp only [zero_add] at h8
  have := abs_sub (∑ n ∈ Finset.range i, a (M + n)) (∑ n ∈ Finset.range i, a n)
  linarith

/-- The errors along a run, tested with a velocity without divergence. -/
theorem run_tested (S : StepSetup vmesh pmesh quad overQuad masks bcs sem low 0 project) (hmu : 0 ≤ mu) (hdt : 0 < dt)
    (hk : 1 ≤ k) {b : Fin (k + 1) → ℝ} (hb : bdfkCoeffs k = some b)
    {L : ℝ} (hL : ∀ x : Vel ℝ d, (∀ j, sem.numV ≤ j → x j = 0) → ‖massCoord sem (sem.Q 1 1 (sem.A x))‖ ≤ L * ‖massCoord sem x‖)
    (hL0 : 0 ≤ L) {N : ℕ} {U : ℕ → Vel ℝ d} {P : ℕ → ℕ → ℝ} {F fe : ℕ → Vel ℝ d} {ub : ℕ → Option (Vel ℝ d)} {older : ℕ → List (ℕ → ℝ)}
    {X X' : ℕ → Vel ℝ d} {q : ℕ → ℕ → ℝ} (hF : ∀ n ≤ N, F n ∈ VSpace sem) (hR : Reference sem mu dt b fe ub X X' q N)
    (hall : ∀ n ≤ N + k, U n - X n ∈ TSpace sem ∧ sem.D (U n) = 0)
    (hrun : StokesRun sem low 0 mu dt k project F ub older U P N) {x : Vel ℝ d} (hx : x ∈ TSpace sem) (hxD : sem.D x = 0) :
    ∀ n ≤ N, |∑ i : Fin (k + 1), b i * inner ℝ (massCoord sem x) (massCoord sem (U (n + i) - X (n + i))) -
        dt * sem.vDot x (F n - fe n)| ≤
      dt * (‖massCoord sem x‖ * (mu * L * (‖massCoord sem (U (n + k) - X (n + k))‖ + dt / b (Fin.last k) *
        (‖gradCoord sem (P (n + 2) - q (n + 2))‖ + 2 * ‖gradCoord sem (P (n + 1) - q (n + 1))‖ +
          ‖gradCoord sem (P n - q n)‖ + ‖gradCoord sem (q (n + 2) - (2 : ℝ) • q (n + 1) + q n)‖)) +
        ‖massCoord sem (sem.masked (X' n - (1 / dt) • ∑ i : Fin (k + 1), b i • X (n + i)))‖)) := by
  intro n hn
  have H := S.setup
  have hv := H.valid
  have hbeta := (C37_leading k b hb).2
  obtain ⟨st, hst, hu, hp⟩ := hrun n hn
  obtain ⟨st', hst', _, hwT, _, hmom, hten⟩ := step_error S hmu hdt hk hb (fun i : Fin k => U (n + i)) (older n) (P n) (P (n + 1))
    (hF n hn) (ub n) (fun i : Fin (k + 1) => X (n + i)) (X' n) (q (n + 2)) (hR.force n hn)
    (fun i => (hall (n + i) (by have := i.2; omega)).1) (hR.boundary n hn)
    (hR.div _ (by simp only [Fin.val_last]; omega)) (hR.defect n hn) (hR.momentum n hn)
  rw [hst, Except.ok.injEq] at hst'
  subst hst'
  simp only [Fin.val_last, Fin.val_castSucc] at hmom hten hwT
  rw [← hu, ← hp] at hmom hten
  obtain ⟨τ, hτd⟩ : ∃ τ, τ = sem.masked (X' n - (1 / dt) • ∑ i : Fin (k + 1), b i • X (n + i)) := ⟨_, rfl⟩
  rw [← hτd] at hmom ⊢
  obtain ⟨w, hwd⟩ : ∃ w, w = st.uStar - X (n + k) := ⟨_, rfl⟩
  rw [← hwd] at hmom hten hwT
  -- the equation in coordinates
  have hJ : ∑ i : Fin (k + 1), b i • massCoord sem (U (n + i) - X (n + i)) =
      dt • (gradCoord sem (P (n + 2) - q (n + 2)) - mu • massCoord sem (sem.Q 1 1 (sem.A w)) +
        (massCoord sem τ + massCoord sem (sem.Q 1 1 (F n - fe n)))) := by
    have := congrArg (massCoord sem) hmom
    rw [map_add, map_smul, map_sum] at this
    simp only [map_smul, map_add, map_sub] at this
    rw [Fin.sum_univ_castSucc, gradCoord, add_comm]
    simp only [Fin.val_last, Fin.val_castSucc, map_sub]
    exact this
  have hort : inner ℝ (massCoord sem x) (gradCoord sem (P (n + 2) - q (n + 2))) = 0 := by
    unfold gradCoord
    rw [massCoord_inner H.massPos' hx.1 H.mask01, vDot_B_Q H.finite H.mask01 hx, ← D_Dt_adjoint hv x (VSpace_masked hx.1), hxD]
    simp [nodeDot]
  have hload : inner ℝ (massCoord sem x) (massCoord sem (sem.Q 1 1 (F n - fe n))) = sem.vDot x (F n - fe n) := by
    rw [massCoord_inner H.massPos' hx.1 H.mask01, vDot_B_Q H.finite H.mask01 hx]
  have h1 := congrArg (fun z => inner ℝ (massCoord sem x) z) hJ
  simp only [inner_add_right, inner_smul_right, inner_sum, inner_sub_right, hort, hload] at h1
  have hLw := hL w (fun j hj => hwT.1 j (Or.inl hj))
  have hw : ‖massCoord sem w‖ ≤ ‖massCoord sem (U (n + k) - X (n + k))‖ + dt / b (Fin.last k) *
        (‖gradCoord sem (P (n + 2) - q (n + 2))‖ + 2 * ‖gradCoord sem (P (n + 1) - q (n + 1))‖ +
          ‖gradCoord sem (P n - q n)‖ + ‖gradCoord sem (q (n + 2) - (2 : ℝ) • q (n + 1) + q n)‖) := by
    have h1 := congrArg (massCoord sem) hten
    rw [map_sub, map_smul] at h1
    have h2 : P (n + 2) - (2 : ℝ) • P (n + 1) + P n = (1 : ℝ) • ((1 : ℝ) • ((1 : ℝ) • (P (n + 2) - q (n + 2)) +
        (-2 : ℝ) • (P (n + 1) - q (n + 1))) + (1 : ℝ) • (P n - q n)) +
        (1 : ℝ) • (q (n + 2) - (2 : ℝ) • q (n + 1) + q n) := by
      funext j
      simp only [Pi.add_apply, Pi.sub_apply, Pi.smul_apply, smul_eq_mul]
      ring
    have h3 : massCoord sem (sem.Q 1 1 (sem.Dt (P (n + 2) - (2 : ℝ) • P (n + 1) + P n))) = gradCoord sem (P (n + 2) - q (n + 2)) +
        (-2 : ℝ) • gradCoord sem (P (n + 1) - q (n + 1)) + gradCoord sem (P n - q n) +
        gradCoord sem (q (n + 2) - (2 : ℝ) • q (n + 1) + q n) := by
      change gradCoord sem _ = _
      rw [h2, gradCoord_lin hv, gradCoord_lin hv, gradCoord_lin hv]
      simp only [one_smul]
    rw [h1, h3]
    refine (norm_sub_le _ _).trans (add_le_add le_rfl ?_)
    rw [norm_smul, Real.norm_eq_abs, abs_of_pos (div_pos hdt hbeta)]
    refine mul_le_mul_of_nonneg_left ?_ (div_pos hdt hbeta).le
    refine (norm_add_le _ _).trans (add_le_add ?_ le_rfl)
    refine (norm_add_le _ _).trans (add_le_add ?_ le_rfl)
    refine (norm_add_le _ _).trans (add_le_add le_rfl ?_)
    rw [norm_smul]
    norm_num
  have h2 : ∑ i : Fin (k + 1), b i * inner ℝ (massCoord sem x) (massCoord sem (U (n + i) - X (n + i))) -
      dt * sem.vDot x (F n - fe n) = dt * (inner ℝ (massCoord sem x) (massCoord sem τ) -
        mu * inner ℝ (massCoord sem x) (massCoord sem (sem.Q 1 1 (sem.A w)))) := by
    rw [h1]
    ring
  rw [h2, abs_mul, abs_of_pos hdt]
  refine mul_le_mul_of_nonneg_left ?_ hdt.le
  refine (abs_sub _ _).trans ?_
  have h3 := abs_real_inner_le_norm (massCoord sem x) (massCoord sem τ)
  have h4 : ∀ B, ‖massCoord sem w‖ ≤ B →
      |mu * inner ℝ (massCoord sem x) (massCoord sem (sem.Q 1 1 (sem.A w)))| ≤ ‖massCoord sem x‖ * (mu * L * B) := by
    intro B hB
    rw [abs_mul, abs_of_nonneg hmu]
    have h5 := (abs_real_inner_le_norm (massCoord sem x) (massCoord sem (sem.Q 1 1 (sem.A w)))).trans
      (mul_le_mul_of_nonneg_left (hLw.trans (mul_le_mul_of_nonneg_left hB hL0)) (norm_nonneg _))
    refine (mul_le_mul_of_nonneg_left h5 hmu).trans (le_of_eq ?_)
    ring
  have h5 := h4 _ hw
  rw [mul_add]
  linarith

end Verif.NS

namespace Verif.Niles

open Verif.Core Verif.NS Verif.Linalg Verif.Spec

variable {sem : StokesSEM ℝ 2}
  {vmesh pmesh : Mesh ℝ 2} {quad overQuad : Quadrature1D ℝ} {masks : List (String × (ℕ → Bool))}
  {bcs : List (String × BCType)} {low : Nodes1D ℝ} {wave : ℝ → ℝ} {c : SolverConfig ℝ} {net : Closure ℝ}
  {Φ : Vel ℝ 2 → Vel ℝ 2} {T : ℝ} {u : ℝ → Vel ℝ 2} {p : ℝ → ℕ → ℝ}

theorem sampled_u {dt : ℝ} {n i : ℕ} (hi : i < n) : (sampled u p dt n).u.getD i 0 = u (i * dt) := by
  rw [List.getD_eq_getElem _ _ (by simpa [sampled] using hi)]
  simp [sampled]

theorem sampled_p {dt : ℝ} {n i : ℕ} (hi : i < n) : (sampled u p dt n).p.getD i 0 = p (i * dt) := by
  rw [List.getD_eq_getElem _ _ (by simpa [sampled] using hi)]
  simp [sampled]

set_option maxHeartbeats 2000000 in
/-- Rollouts of second order have lagged terms that do not change, up to a gradient. -/
theorem lagged_constant (S : StepSetup vmesh pmesh quad overQuad masks bcs sem low 0 true) {K : ℕ} (hk : c.timeOrder = K + 1)
    (hK : 1 ≤ K) (hK5 : K ≤ 5) (hRe : 0 < c.reynolds) (halpha : c.alpha = 0) (hatol : c.atol = 0)
    (hΦ : ClosureIs c vmesh net Φ) (hL : LipschitzOnBounded vmesh Φ) (hflow : NSFlow vmesh pmesh masks bcs sem wave c Φ T u p)
    (hu : ∀ j l, ContDiff ℝ (K + 2) (fun t => u t j l)) (hp : ∀ j, ContDiff ℝ 2 (fun t => p t j))
    (hconv : RolloutConvergence vmesh pmesh masks bcs sem low wave c net T u p 2) {t1 : ℝ} (ht1 : 0 < t1) (ht1T : t1 ≤ T)
    {x : Vel ℝ 2} (hx : x ∈ TSpace sem) (hxD : sem.D x = 0) :
    sem.vDot x (lagged sem wave c.drag Φ (u 0)) = sem.vDot x (lagged sem wave c.drag Φ (u t1)) := by
  have H := S.setup
  have hv := H.valid
  have hT : 0 < T := by linarith
  obtain ⟨_, _, hvm, hpm, _, _, _⟩ := H.fields
  have hnum : sem.numV = vmesh.numNodes := by unfold StokesSEM.numV; rw [hvm]
  have hu1 : ∀ j l, ContDiff ℝ 1 (fun t => u t j l) := fun j l => (hu j l).of_le (by exact_mod_cast (by omega : 1 ≤ K + 2))
  obtain ⟨e, he, _⟩ := extk_exists (K := ℝ) K hK
  obtain ⟨b, hb, _⟩ := C37_exact (K := ℝ) (K + 1) (by omega)
  have hbeta := (C37_leading (K + 1) b hb).2
  obtain ⟨ML, hML0, hML⟩ := lagged_trunc (wave := wave) (drag := c.drag) H hL hu1 T
  obtain ⟨C1, dt1, δ1, hC1, hdt1, hdt11, hδ1, hrunc⟩ := nsRun_conv (c := c) S hK hK5 hRe hT hflow he hu hp le_rfl (by omega)
    (lagged_lip H hL c.drag) ⟨ML, hML0, fun t dt hdt _ ht hT' => by
      have := hML t ⟨ht, by linarith⟩ (t + dt) ⟨by linarith, hT'⟩
      rwa [show |t - (t + dt)| = dt ^ 1 by rw [pow_one, sub_add_cancel_left, abs_neg, abs_of_pos hdt]] at this⟩
  obtain ⟨C2, dt2, δ2, hC2, hdt2, hδ2, hroll2⟩ := hconv
  obtain ⟨A', M', hA'0, hM'0, hrest⟩ := load_rest H hK he hflow.velocity
    (fun j l => (hu j l).of_le (by exact_mod_cast Nat.le_succ (K + 1))) (lagged_lip (wave := wave) H hL c.drag)
  obtain ⟨LQ, hLQ0, hLQ⟩ := load_bound H
  obtain ⟨L, hL0, hLv⟩ := visc_bound H
  obtain ⟨M1, hM1, hdef⟩ := defect_bound (vmesh := vmesh) (k := K + 1) H (by omega) hb (by exact_mod_cast hu) T
  obtain ⟨M2, hM2, hpre⟩ := pressure_bound (k := K + 1) H (by omega) hp T
  obtain ⟨a, ha, _, ha2⟩ := massCoord_bound_entries (sem := sem) H.massPos'
  have hmu := (one_div_pos.mpr hRe).le
  obtain ⟨nx, hnx⟩ : ∃ nx, nx = ‖massCoord sem x‖ := ⟨_, rfl⟩
  have hnx0 : 0 ≤ nx := by rw [hnx]; positivity
  -- the constants
  obtain ⟨A, hA⟩ : ∃ A, A = a * C2 := ⟨_, rfl⟩
  have hA0 : 0 < A := by rw [hA]; positivity
  obtain ⟨B1, hB1⟩ : ∃ B1, B1 = nx * (1 / c.reynolds * L * (A + 1 / b (Fin.last (K + 1)) * (4 * C1 + M2)) + M1) := ⟨_, rfl⟩
  have hB10 : 0 ≤ B1 := by rw [hB1]; positivity
  obtain ⟨B2, hB2⟩ : ∃ B2, B2 = nx * (LQ * (A' * ((K + 1 : ℕ) * A) + M')) := ⟨_, rfl⟩
  have hB20 : 0 ≤ B2 := by rw [hB2]; positivity
  obtain ⟨B3, hB3⟩ : ∃ B3, B3 = (∑ i : Fin (K + 1 + 1), |b i| * (2 * (i : ℕ))) * (nx * A) := ⟨_, rfl⟩
  obtain ⟨B4, hB4⟩ : ∃ B4, B4 = nx * (LQ * (ML * K)) := ⟨_, rfl⟩
  obtain ⟨B, hBd⟩ : ∃ B, B = B3 + t1 * (B1 + B2) + B4 := ⟨_, rfl⟩
  -- tests of loads
  have htest : ∀ y ∈ VSpace sem, |sem.vDot x y| ≤ nx * (LQ * ‖massCoord sem y‖) := by
    intro y hy
    have h1 : inner ℝ (massCoord sem x) (massCoord sem (sem.Q 1 1 y)) = sem.vDot x y := by
      rw [massCoord_inner H.massPos' hx.1 H.mask01, vDot_B_Q H.finite H.mask01 hx]
    rw [← h1, hnx]
    exact (abs_real_inner_le_norm _ _).trans (mul_le_mul_of_nonneg_left (hLQ y fun j hj => hy j (Or.inl hj)) (norm_nonneg _))
  have hGm : ∀ y, lagged sem wave c.drag Φ y ∈ VSpace sem := fun y => B_mem H.massOutside
  -- one time step
  have key : ∀ (dt : ℝ) (N : ℕ), 0 < dt → dt ≤ min dt1 (min dt2 (min 1 (1 / A))) → ((N : ℝ) + (K + 1 : ℕ)) * dt = t1 →
      |sem.vDot x (lagged sem wave c.drag Φ (u 0) - lagged sem wave c.drag Φ (u t1))| ≤ B * dt := by
    intro dt N hdt hdt' hN
    have hdta := hdt'.trans (min_le_left _ _)
    have hdtb := (hdt'.trans (min_le_right _ _)).trans (min_le_left _ _)
    have hdtc := ((hdt'.trans (min_le_right _ _)).trans (min_le_right _ _)).trans (min_le_left _ _)
    have hdtd := ((hdt'.trans (min_le_right _ _)).trans (min_le_right _ _)).trans (min_le_right _ _)
    have htime : ∀ n : ℕ, n ≤ N + (K + 1) → (n : ℝ) * dt ∈ Set.Icc 0 T := by
      intro n hn
      refine ⟨by positivity, le_trans ?_ (hN.le.trans ht1T)⟩
      have : (n : ℝ) ≤ N + (K + 1 : ℕ) := by exact_mod_cast hn
      nlinarith
    have htime' : ∀ n ≤ N, ((n : ℝ) + (K + 1 : ℕ)) * dt ≤ T := by
      intro n hn
      have := (htime (n + (K + 1)) (by omega)).2
      push_cast at this ⊢
      exact this
    obtain ⟨ex, hex⟩ : ∃ ex, ex = sampled u p dt (K + 1 + (N + 1)) := ⟨_, rfl⟩
    have hget : ∀ i < K + 1 + (N + 1), ex.u.getD i 0 = u (i * dt) := fun i hi => hex ▸ sampled_u hi
    have hgetp : ∀ i < K + 1 + (N + 1), ex.p.getD i 0 = p (i * dt) := fun i hi => hex ▸ sampled_p hi
    obtain ⟨preds, targets, kl0, klp, hroll⟩ := rollout_exists (c := { c with dt := dt }) (wave := wave) S hk hK hRe hdt halpha hatol hΦ
      (N + 1) ex (by rw [hex, sampled, List.length_ofFn]; exact (congrArg (· + (N + 1)) hk).le)
      (by rw [hex, sampled, List.length_ofFn]; exact hk.le.trans (Nat.le_add_right _ _))
    have herr := hroll2 dt (N + 1) ex 0 0 preds targets kl0 klp hdt hdtb
      (by rw [hk]; push_cast at hN ⊢; linarith) le_rfl le_rfl hδ2.le (by simpa using hδ2.le)
      (fun i hi => by
        rw [hget i (by omega)]
        exact ⟨hflow.velocity _ (htime i (by omega)), hflow.divergence _ (htime i (by omega)), fun j _ l => by simp⟩)
      (fun i hi _ j _ => by rw [hgetp i (by omega)]; simp) hroll
    obtain ⟨U, P, older, hU0, hU1, hP0, _, _, hrun⟩ := rollout_run (c := { c with dt := dt }) (vmesh := vmesh) (Φ := Φ) hvm hk hK
      halpha hatol he hΦ hroll
    have hP0' : ∀ m < 2, P m = p ((m + (K + 1 : ℕ) - 2) * dt) := by
      intro m hm
      rw [hP0 m hm, hgetp _ (by omega)]
      congr 2
      rw [Nat.cast_sub (by omega)]
      push_cast
      ring
    obtain ⟨hall, hgr⟩ := hrunc dt N U P older 0 0 hdt hdta (hN.le.trans ht1T) le_rfl le_rfl hδ1.le (by simpa using hδ1.le)
      (fun i hi => by
        rw [hU0 i hi, hget i (by omega)]
        exact ⟨hflow.velocity _ (htime i (by omega)), hflow.divergence _ (htime i (by omega)), fun j _ l => by simp⟩)
      (fun m hm j _ => by rw [hP0' m hm]; simp) hrun
    -- errors of the velocities and of the pressures
    have hE : ∀ m ≤ N + (K + 1), ‖massCoord sem (U m - u (m * dt))‖ ≤ A * dt ^ 2 := by
      intro m hm
      by_cases hmk : m < K + 1
      · rw [hU0 m hmk, hget m (by omega), sub_self, map_zero, norm_zero]
        positivity
      · obtain ⟨i, rfl⟩ : ∃ i, m = K + 1 + i := ⟨m - (K + 1), by omega⟩
        rw [hU1 i (by omega), hA, mul_assoc]
        refine ha2 _ _ (fun j hj l => ?_) (by positivity)
        have := herr i (by omega) j (by omega) l
        rw [hk] at this
        simpa using this
    have hg : ∀ m ≤ N + 2, ‖gradCoord sem (P m - p ((m + (K + 1 : ℕ) - 2) * dt))‖ ≤ C1 * dt := by
      intro m hm
      by_cases hm2 : m < 2
      · rw [hP0' m hm2, sub_self]
        have : gradCoord sem (0 : ℕ → ℝ) = 0 := by
          have := gradCoord_lin hv 0 0 0 0
          simpa using this
        rw [this, norm_zero]
        positivity
      · obtain ⟨i, rfl⟩ : ∃ i, m = i + 2 := ⟨m - 2, by omega⟩
        have := (hgr i (by omega)).2
        rw [show (((i + 2 : ℕ) : ℝ) + (K + 1 : ℕ) - 2) * dt = (i + (K + 1 : ℕ)) * dt by push_cast; ring]
        simpa using this
    have hR := (hflow.stokes H).reference H hT (fun j l => (hu1 j l).differentiable (by norm_num)) hdt b (hN.le.trans ht1T)
    have htst := run_tested S hmu hdt (by omega) hb hLv hL0 (fun n _ => nsLoad_mem H n) hR hall hrun hx hxD
    rw [← hnx] at htst
    have hpow : dt ^ (K + 1) ≤ dt ^ 2 := pow_le_pow_of_le_one hdt.le hdtc (by omega)
    have hpow3 : dt ^ 3 ≤ dt ^ 2 := pow_le_pow_of_le_one hdt.le hdtc (by norm_num)
    have hstep : ∀ n ≤ N, |∑ i : Fin (K + 1 + 1), b i * inner ℝ (massCoord sem x) (massCoord sem (U (n + i) - u ((n + i : ℕ) * dt))) -
        dt * sem.vDot x (lagged sem wave c.drag Φ (u ((n + K : ℕ) * dt)) - lagged sem wave c.drag Φ (u ((n + K + 1 : ℕ) * dt)))| ≤
        dt * ((B1 + B2) * dt ^ 2) := by
      intro n hn
      have h1 := htst n hn
      have h2 := hE (n + (K + 1)) (by omega)
      have h3 := hg (n + 2) (by omega)
      have h4 := hg (n + 1) (by omega)
      have h5 := hg n (by omega)
      have h6 := hpre dt n hdt hdtc (htime' n hn)
      have h7 := hdef dt n hdt (htime' n hn)
      have h8 : dt * (nx * (1 / c.reynolds * L * (‖massCoord sem (U (n + (K + 1)) - u ((n + (K + 1) : ℕ) * dt))‖ + dt / b (Fin.last (K + 1)) *
          (‖gradCoord sem (P (n + 2) - p ((((n + 2 : ℕ) : ℝ) + (K + 1 : ℕ) - 2) * dt))‖ +
            2 * ‖gradCoord sem (P (n + 1) - p ((((n + 1 : ℕ) : ℝ) + (K + 1 : ℕ) - 2) * dt))‖ +
            ‖gradCoord sem (P n - p (((n : ℝ) + (K + 1 : ℕ) - 2) * dt))‖ +
            ‖gradCoord sem (p ((((n + 2 : ℕ) : ℝ) + (K + 1 : ℕ) - 2) * dt) - (2 : ℝ) • p ((((n + 1 : ℕ) : ℝ) + (K + 1 : ℕ) - 2) * dt) +
              p (((n : ℝ) + (K + 1 : ℕ) - 2) * dt))‖)) +
          ‖massCoord sem (sem.masked (timeDeriv vmesh u ((n + (K + 1 : ℕ)) * dt) -
            (1 / dt) • ∑ i : Fin (K + 1 + 1), b i • u (((n + i : ℕ) : ℝ) * dt)))‖)) ≤ dt * (B1 * dt ^ 2) := by
        refine mul_le_mul_of_nonneg_left ?_ hdt.le
        rw [hB1, mul_assoc nx]
        refine mul_le_mul_of_nonneg_left ?_ hnx0
        rw [add_mul _ M1]
        refine add_le_add ?_ (h7.trans (mul_le_mul_of_nonneg_left hpow hM1))
        rw [mul_assoc (1 / c.reynolds * L)]
        refine mul_le_mul_of_nonneg_left ?_ (by positivity)
        rw [add_mul A]
        refine add_le_add h2 ?_
        have h9 := add_le_add (add_le_add (add_le_add h3 (mul_le_mul_of_nonneg_left h4 (by norm_num : (0 : ℝ) ≤ 2))) h5) h6
        refine (mul_le_mul_of_nonneg_left h9 (div_pos hdt hbeta).le).trans ?_
        have h10 : dt / b (Fin.last (K + 1)) * (C1 * dt + 2 * (C1 * dt) + C1 * dt + M2 * dt ^ 2) =
          1 / b (Fin.last (K + 1)) * (4 * C1 * dt ^ 2 + M2 * dt ^ 3) := by ring
        rw [h10, mul_assoc (1 / b (Fin.last (K + 1)))]
        refine mul_le_mul_of_nonneg_left ?_ (by positivity)
        rw [add_mul (4 * C1)]
        exact add_le_add le_rfl (mul_le_mul_of_nonneg_left hpow3 hM2)
      have h11 := h1.trans h8
      -- the rest of the load
      have hsm : ∀ i < K + 1, U (n + i) - u ((n + i : ℕ) * dt) ∈ TSpace sem ∧ ‖massCoord sem (U (n + i) - u ((n + i : ℕ) * dt))‖ ≤ 1 := by
        intro i hi
        refine ⟨(hall (n + i) (by omega)).1, (hE (n + i) (by omega)).trans ?_⟩
        have h13 : A * dt ≤ 1 := by
          rw [le_div_iff₀ hA0] at hdtd
          linarith
        have h14 : A * dt * dt ≤ 1 * 1 := mul_le_mul h13 hdtc hdt.le zero_le_one
        rw [pow_two, ← mul_assoc]
        linarith
      have h12 := hrest dt n U hdt (htime' n hn) hsm
      have h15 : ∑ i ∈ Finset.range (K + 1), ‖massCoord sem (U (n + i) - u ((n + i : ℕ) * dt))‖ ≤ (K + 1 : ℕ) * (A * dt ^ 2) := by
        refine (Finset.sum_le_sum (g := fun _ => A * dt ^ 2) fun i hi => hE _ ?_).trans ?_
        · have := Finset.mem_range.mp hi
          omega
        · rw [Finset.sum_const, Finset.card_range, nsmul_eq_mul]
      obtain ⟨rest, hrestd⟩ : ∃ rest, rest = -(∑ i : Fin (K + 1), e i • sem.C (U (n + i))) + lagged sem wave c.drag Φ (U (n + K)) -
          (-sem.C (u ((n + (K + 1 : ℕ)) * dt)) + lagged sem wave c.drag Φ (u ((n + (K + 1 : ℕ)) * dt))) -
          (lagged sem wave c.drag Φ (u ((n + K : ℕ) * dt)) - lagged sem wave c.drag Φ (u ((n + (K + 1 : ℕ)) * dt))) := ⟨_, rfl⟩
      rw [← hrestd] at h12
      have hrm : rest ∈ VSpace sem := by
        rw [hrestd]
        exact (VSpace sem).sub_mem ((VSpace sem).sub_mem (nsLoad_mem H n)
          ((VSpace sem).add_mem ((VSpace sem).neg_mem (C_mem _)) (hGm _))) ((VSpace sem).sub_mem (hGm _) (hGm _))
      have h16 : |sem.vDot x rest| ≤ B2 * dt ^ 2 := by
        refine (htest rest hrm).trans ?_
        rw [hB2, mul_assoc nx, mul_assoc LQ]
        refine mul_le_mul_of_nonneg_left (mul_le_mul_of_nonneg_left (h12.trans ?_) hLQ0) hnx0
        rw [add_mul, mul_assoc A', mul_assoc _ A]
        exact add_le_add (mul_le_mul_of_nonneg_left h15 hA'0) (mul_le_mul_of_nonneg_left hpow hM'0)
      have hcast : ((n : ℝ) + (K + 1 : ℕ)) * dt = ((n + K + 1 : ℕ) : ℝ) * dt := by push_cast; ring
      have h17 : sem.vDot x (nsLoad sem wave c.drag Φ e U n -
          (-sem.C (u ((n + (K + 1 : ℕ)) * dt)) + lagged sem wave c.drag Φ (u ((n + (K + 1 : ℕ)) * dt)))) =
          sem.vDot x rest + sem.vDot x (lagged sem wave c.drag Φ (u ((n + K : ℕ) * dt)) - lagged sem wave c.drag Φ (u ((n + K + 1 : ℕ) * dt))) := by
        rw [← vDot_add, hrestd, hcast, sub_add_cancel]
        rfl
      rw [h17] at h11
      have h18 : |dt * sem.vDot x rest| ≤ dt * (B2 * dt ^ 2) := by
        rw [abs_mul, abs_of_pos hdt]
        exact mul_le_mul_of_nonneg_left h16 hdt.le
      rw [abs_le] at h11 h18 ⊢
      constructor
      · nlinarith [h11.1, h18.1]
      · nlinarith [h11.2, h18.2]
    -- the sum over all steps
    obtain ⟨g, hgd⟩ : ∃ g : ℕ → ℝ, g = fun n : ℕ => sem.vDot x (lagged sem wave c.drag Φ (u ((n : ℝ) * dt))) := ⟨_, rfl⟩
    obtain ⟨er, her⟩ : ∃ er : ℕ → ℝ, er = fun n : ℕ => inner ℝ (massCoord sem x) (massCoord sem (U n - u ((n : ℝ) * dt))) := ⟨_, rfl⟩
    have hsum : |∑ n ∈ Finset.range (N + 1), (∑ i : Fin (K + 1 + 1), b i * er (n + i) - dt * (g (n + K) - g (n + 1 + K)))| ≤
        (N + 1 : ℕ) * (dt * ((B1 + B2) * dt ^ 2)) := by
      refine (Finset.abs_sum_le_sum_abs _ _).trans ?_
      refine (Finset.sum_le_sum (g := fun _ => dt * ((B1 + B2) * dt ^ 2)) fun n hn => ?_).trans ?_
      · have hn' := hstep n (by have := Finset.mem_range.mp hn; omega)
        rw [vDot_sub] at hn'
        rw [her, hgd, show n + 1 + K = n + K + 1 by ring]
        exact hn'
      · rw [Finset.sum_const, Finset.card_range, nsmul_eq_mul]
    have htel : ∀ M : ℕ, ∑ n ∈ Finset.range M, (g (n + K) - g (n + 1 + K)) = g K - g (M + K) := by
      intro M
      have := Finset.sum_range_sub' (fun n => g (n + K)) M
      simpa using this
    rw [Finset.sum_sub_distrib, ← Finset.mul_sum, htel] at hsum
    have hb0 : ∑ i, b i = 0 := by
      have := bdf_moments (k := K + 1) (by omega) hb 0 (Nat.zero_le _)
      simpa using this
    have hera : ∀ n < N + 1 + (K + 1), |er n| ≤ nx * (A * dt ^ 2) := by
      intro n hn
      rw [her, hnx]
      exact (abs_real_inner_le_norm _ _).trans (mul_le_mul_of_nonneg_left (hE n (by omega)) (norm_nonneg _))
    have hdif := sum_differences hb0 hera
    have hdif' : |∑ n ∈ Finset.range (N + 1), ∑ i : Fin (K + 1 + 1), b i * er (n + i)| ≤ dt * (B3 * dt) := by
      refine hdif.trans (le_of_eq ?_)
      rw [hB3]
      ring
    have hcount : ((N + 1 : ℕ) : ℝ) * dt ≤ t1 := by
      rw [← hN]
      refine mul_le_mul_of_nonneg_right ?_ hdt.le
      push_cast
      have : (0 : ℝ) ≤ K := by positivity
      linarith
    have h20 : |dt * (g K - g (N + 1 + K))| ≤ dt * ((B3 + t1 * (B1 + B2)) * dt) := by
      have h21 : ((N + 1 : ℕ) : ℝ) * (dt * ((B1 + B2) * dt ^ 2)) ≤ dt * (t1 * (B1 + B2) * dt) := by
        have h22 := mul_le_mul_of_nonneg_right hcount (show 0 ≤ dt * ((B1 + B2) * dt) by positivity)
        linarith [show ((N + 1 : ℕ) : ℝ) * (dt * ((B1 + B2) * dt ^ 2)) = ((N + 1 : ℕ) : ℝ) * dt * (dt * ((B1 + B2) * dt)) by ring,
          show dt * (t1 * (B1 + B2) * dt) = t1 * (dt * ((B1 + B2) * dt)) by ring]
      have h23 := hsum.trans h21
      rw [abs_le] at h23 hdif' ⊢
      have h24 : dt * ((B3 + t1 * (B1 + B2)) * dt) = dt * (B3 * dt) + dt * (t1 * (B1 + B2) * dt) := by ring
      rw [h24]
      constructor
      · linarith [h23.2, hdif'.1]
      · linarith [h23.1, hdif'.2]
    rw [abs_mul, abs_of_pos hdt] at h20
    have h25 := le_of_mul_le_mul_left h20 hdt
    have h26 : |sem.vDot x (lagged sem wave c.drag Φ (u 0) - lagged sem wave c.drag Φ (u ((K : ℝ) * dt)))| ≤ B4 * dt := by
      refine (htest _ ((VSpace sem).sub_mem (hGm _) (hGm _))).trans ?_
      have h27 := hML 0 ⟨le_rfl, hT.le⟩ (K * dt) (htime K (by omega))
      rw [zero_sub, abs_neg, abs_of_nonneg (by positivity)] at h27
      rw [hB4, mul_assoc nx, mul_assoc LQ, mul_assoc ML]
      exact mul_le_mul_of_nonneg_left (mul_le_mul_of_nonneg_left h27 hLQ0) hnx0
    have h28 : g (N + 1 + K) = sem.vDot x (lagged sem wave c.drag Φ (u t1)) := by
      rw [hgd]
      simp only
      rw [← hN]
      push_cast
      ring_nf
    have h29 : g K = sem.vDot x (lagged sem wave c.drag Φ (u ((K : ℝ) * dt))) := by rw [hgd]
    rw [vDot_sub, ← h29] at h26
    rw [h28] at h25
    rw [vDot_sub, hBd]
    rw [abs_le] at h25 h26 ⊢
    have h30 : (B3 + t1 * (B1 + B2) + B4) * dt = (B3 + t1 * (B1 + B2)) * dt + B4 * dt := by ring
    rw [h30]
    exact ⟨by linarith [h25.1, h26.1], by linarith [h25.2, h26.2]⟩
  -- small time steps
  by_contra hne
  obtain ⟨D, hD⟩ : ∃ D, D = |sem.vDot x (lagged sem wave c.drag Φ (u 0) - lagged sem wave c.drag Φ (u t1))| := ⟨_, rfl⟩
  have hDpos : 0 < D := by
    rw [hD, abs_pos, vDot_sub]
    exact sub_ne_zero.mpr hne
  rw [← hD] at key
  obtain ⟨η, hη⟩ : ∃ η, η = min (min dt1 (min dt2 (min 1 (1 / A)))) (D / (2 * (|B| + 1))) := ⟨_, rfl⟩
  have hBp : 0 < |B| + 1 := by positivity
  have hηp : 0 < η := by
    rw [hη]
    refine lt_min (lt_min hdt1 (lt_min hdt2 (lt_min one_pos (by positivity)))) (by positivity)
  obtain ⟨N, hNb⟩ := exists_nat_gt (t1 / η)
  have hNp : (0 : ℝ) < (N : ℝ) + (K + 1 : ℕ) := by positivity
  have hle : t1 / ((N : ℝ) + (K + 1 : ℕ)) ≤ η := by
    rw [div_le_iff₀ hNp]
    rw [div_lt_iff₀ hηp] at hNb
    have : (0 : ℝ) ≤ (K + 1 : ℕ) := by positivity
    nlinarith
  have hfin := key (t1 / ((N : ℝ) + (K + 1 : ℕ))) N (div_pos ht1 hNp) (hle.trans (hη ▸ min_le_left _ _)) (mul_div_cancel₀ _ hNp.ne')
  have hle2 : t1 / ((N : ℝ) + (K + 1 : ℕ)) ≤ D / (2 * (|B| + 1)) := hle.trans (hη ▸ min_le_right _ _)
  have h31 : B * (t1 / ((N : ℝ) + (K + 1 : ℕ))) ≤ (|B| + 1) * (D / (2 * (|B| + 1))) :=
    mul_le_mul (by linarith [le_abs_self B]) hle2 (div_pos ht1 hNp).le hBp.le
  have h32 : (|B| + 1) * (D / (2 * (|B| + 1))) = D / 2 := by field_simp
  linarith

/-- Drag and closure make the errors larger than second order: when these terms change along the flow by more than a gradient,
seen with a test velocity without divergence, there is no convergence of order 2, for no `config.time_order`. -/
theorem C104_violated (S : StepSetup vmesh pmesh quad overQuad masks bcs sem low 0 true) (hk : 2 ≤ c.timeOrder)
    (hk6 : c.timeOrder ≤ 6) (hRe : 0 < c.reynolds) (halpha : c.alpha = 0) (hatol : c.atol = 0)
    (hΦ : ClosureIs c vmesh net Φ) (hL : LipschitzOnBounded vmesh Φ) (hflow : NSFlow vmesh pmesh masks bcs sem wave c Φ T u p)
    (hu : ∀ j l, ContDiff ℝ (c.timeOrder + 1) (fun t => u t j l)) (hp : ∀ j, ContDiff ℝ 2 (fun t => p t j))
    {t1 : ℝ} (ht1 : 0 < t1) (ht1T : t1 ≤ T) {v : Vel ℝ 2} (hv : HasBoundary vmesh masks bcs none v) (hvD : ∀ j, sem.D v j = 0)
    (hne : vMassForm sem.vspace (vGather vmesh (fun j l => Φ (u 0) j l - c.drag * u 0 j l)) (vGather vmesh v) ≠
      vMassForm sem.vspace (vGather vmesh (fun j l => Φ (u t1) j l - c.drag * u t1 j l)) (vGather vmesh v)) :
    ¬ RolloutConvergence vmesh pmesh masks bcs sem low wave c net T u p 2 := by
  intro hconv
  obtain ⟨K, hK⟩ : ∃ K, c.timeOrder = K + 1 := ⟨c.timeOrder - 1, by omega⟩
  have H := S.setup
  obtain ⟨_, _, hvm, hpm, _, _, _⟩ := H.fields
  have hnum : sem.numV = vmesh.numNodes := by unfold StokesSEM.numV; rw [hvm]
  have hvT := (mem_TSpace_iff H v).mpr hv
  have h1 := lagged_constant S hK (by omega) (by omega) hRe halpha hatol hΦ hL hflow
    (fun j l => (hu j l).of_le (by rw [hK]; exact_mod_cast le_rfl)) hp hconv ht1 ht1T hvT (funext hvD)
  have h2 : ∀ y, sem.vDot v (lagged sem wave c.drag Φ y) =
      vMassForm sem.vspace (vGather vmesh (fun j l => Φ y j l - c.drag * y j l)) (vGather vmesh v) +
        ∑ j ∈ Finset.range vmesh.numNodes, ∑ l, sem.massDiag j l * (v j l * (if l = 0 then wave (vmesh.coords j 1) else 0)) := by
    intro y
    unfold lagged
    rw [B_dot H.valid (VSpace_masked hvT.1), massForm_eq H, hnum, hvm, ← Finset.sum_add_distrib]
    refine Finset.sum_congr rfl fun j _ => ?_
    rw [← Finset.sum_add_distrib]
    refine Finset.sum_congr rfl fun l _ => ?_
    unfold kolmogorov
    ring
  rw [h2, h2] at h1
  exact hne (add_right_cancel h1)

/-- With drag, and without a closure that depends on the velocity, the order is two only for velocities at rest. -/
theorem C104_violated_drag (S : StepSetup vmesh pmesh quad overQuad masks bcs sem low 0 true) (hk : 2 ≤ c.timeOrder)
    (hk6 : c.timeOrder ≤ 6) (hRe : 0 < c.reynolds) (halpha : c.alpha = 0) (hatol : c.atol = 0) (hdrag : c.drag ≠ 0)
    {φ : Vel ℝ 2} (hΦ : ClosureIs c vmesh net (fun _ => φ)) (hflow : NSFlow vmesh pmesh masks bcs sem wave c (fun _ => φ) T u p)
    (hu : ∀ j l, ContDiff ℝ (c.timeOrder + 1) (fun t => u t j l)) (hp : ∀ j, ContDiff ℝ 2 (fun t => p t j))
    {t1 : ℝ} (ht1 : 0 < t1) (ht1T : t1 ≤ T) (hne : u t1 ≠ u 0) :
    ¬ RolloutConvergence vmesh pmesh masks bcs sem low wave c net T u p 2 := by
  have H := S.setup
  obtain ⟨_, _, hvm, hpm, _, _, _⟩ := H.fields
  have hnum : sem.numV = vmesh.numNodes := by unfold StokesSEM.numV; rw [hvm]
  have hT0 : (0 : ℝ) ∈ Set.Icc 0 T := ⟨le_rfl, by linarith⟩
  have hT1 : t1 ∈ Set.Icc 0 T := ⟨ht1.le, ht1T⟩
  have hx : u t1 - u 0 ∈ TSpace sem := sub_mem_TSpace H (hflow.velocity _ hT1) (hflow.velocity _ hT0)
  refine C104_violated S hk hk6 hRe halpha hatol hΦ (fun R => ⟨0, le_rfl, fun x y _ _ r _ _ j _ l => by simp⟩) hflow hu hp ht1 ht1T
    ((mem_TSpace_iff H _).mp hx) (fun j => ?_) ?_
  · have h1 : sem.D (u t1 - u 0) = sem.D (u t1) - sem.D (u 0) := (DLin sem).map_sub _ _
    rw [h1, Pi.sub_apply, hflow.divergence _ hT1, hflow.divergence _ hT0, sub_zero]
  · rw [massForm_eq H, massForm_eq H, ← sub_ne_zero, ← Finset.sum_sub_distrib]
    have h2 : ∀ j ∈ Finset.range vmesh.numNodes,
        (∑ l, sem.massDiag j l * ((u t1 - u 0) j l * (φ j l - c.drag * u 0 j l)) -
          ∑ l, sem.massDiag j l * ((u t1 - u 0) j l * (φ j l - c.drag * u t1 j l))) =
        c.drag * ∑ l, sem.massDiag j l * ((u t1 - u 0) j l * (u t1 - u 0) j l) := by
      intro j _
      rw [← Finset.sum_sub_distrib, Finset.mul_sum]
      refine Finset.sum_congr rfl fun l _ => ?_
      simp only [Pi.sub_apply]
      ring
    rw [Finset.sum_congr rfl h2, ← Finset.mul_sum, ← hnum, ← B_dot H.valid (VSpace_masked hx.1), ← massCoord_inner H.massPos' hx.1 H.mask01,
      real_inner_self_eq_norm_sq]
    refine mul_ne_zero hdrag (pow_ne_zero 2 (norm_ne_zero_iff.mpr fun h0 => hne ?_))
    have h3 : u t1 - u 0 = 0 := by
      funext j l
      by_cases hj : j < sem.numV
      · obtain ⟨a, _, ha, _⟩ := massCoord_bound_entries (sem := sem) H.massPos'
        have := ha (u t1 - u 0) j hj l
        rw [h0, norm_zero, mul_zero] at this
        exact abs_nonpos_iff.mp this
      · exact congrFun (hx.1 j (Or.inl (by omega))) l
    exact sub_eq_zero.mp h3

open MvPolynomial in
/-- On the periodic square a constant velocity decays with the drag. -/
theorem decay_flow {cs : CubeStokes 2} (hcs : cubeStokes 2 2 3 2 0 1 [0, 1] [] = .ok cs) (c : SolverConfig ℝ) (T : ℝ) :
    StepSetup cs.vmesh cs.pmesh cs.quad cs.overQuad cs.masks [] cs.sem cs.low 0 true ∧
    NSFlow cs.vmesh cs.pmesh cs.masks [] cs.sem (fun _ => 0) c (fun _ => 0) T
      (fun t => nodal cs.vmesh (fun _ => C (Real.exp (-c.drag * t)))) (fun _ => 0) := by
  have hn : 1 ≤ 2 := by norm_num
  have hp : 3 ≤ 3 := le_rfl
  have hab : (0 : ℝ) < 1 := one_pos
  have hb : CubeBCs 2 [0, 1] [] := Or.inr rfl
  obtain ⟨vnode, pnode, l, h⟩ := cubeStokes_of hn hn hp hab hb hcs
  have H := h.setup hn hb
  have hval := H.valid
  obtain ⟨_, _, hvm, hpm, _, _, _⟩ := H.fields
  have hnum : cs.sem.numV = cs.vmesh.numNodes := by unfold StokesSEM.numV; rw [hvm]
  have hS := h.stepSetup hn hp hab hb 0 true (fun _ => Or.inr fun k => by fin_cases k <;> simp)
  have hvj : ∀ t, ∀ j < cs.vmesh.numNodes, ∀ l, nodal cs.vmesh (fun _ : Fin 2 => C (Real.exp (-c.drag * t))) j l = Real.exp (-c.drag * t) :=
    fun t j hj l => by simp [nodal, hj]
  have hv : ∀ t, nodal cs.vmesh (fun _ : Fin 2 => C (Real.exp (-c.drag * t))) ∈ TSpace cs.sem := by
    intro t
    refine (mem_TSpace_iff H _).mpr ⟨fun j hj => ?_, fun i hi j hj _ => ?_, fun j _ hD => ?_⟩
    · funext l; simp [nodal, not_lt.mpr hj]
    · funext l; rw [hvj t i hi, hvj t j hj]
    · obtain ⟨g, m, hg, _⟩ := hD
      simp at hg
  refine ⟨hS, fun t _ => (mem_TSpace_iff H _).mp (hv t), fun t _ j => ?_, fun t _ x hx => ?_⟩
  · rw [h.div_zero hn hp hb (fun k i => by simp) (by simp)]
    rfl
  · have hxT := (mem_TSpace_iff H x).mpr hx
    have hx0 := ((H.mem_VSpace x).mp hxT.1).1
    have hV := fun k : Fin 2 => h.vcube.cells.exists_field (fun j => x j k)
    choose V hV using hV
    have hA := A_dot hval (VSpace_masked hxT.1) (nodal cs.vmesh (fun _ : Fin 2 => C (Real.exp (-c.drag * t))))
    rw [hvm, h.stiff_dot hn hp hb hxT hV (fun k i => by simp)] at hA
    have hC := C_dot H (nodal cs.vmesh (fun _ : Fin 2 => C (Real.exp (-c.drag * t)))) x hx0
    have hC' := h.conv_dot hn hb hxT hV (U := fun _ : Fin 2 => C (Real.exp (-c.drag * t))) (fun k i => by simp) (fun k i => by simp) (by norm_num)
    unfold StokesSEM.vDot at hC'
    rw [← hnum, hC'] at hC
    have h0 : cs.sem.Dt (0 : ℕ → ℝ) = 0 := (DtLin cs.sem hval.pwf).map_zero
    have h1 := Dt_dot hval x (VSpace_masked hxT.1) 0
    rw [hvm, hpm, h0, vDot_zero_right] at h1
    rw [← h1, ← hA, ← hC]
    have hder : (fun (j : ℕ) (l : Fin 2) => deriv (fun s => nodal cs.vmesh (fun _ : Fin 2 => C (Real.exp (-c.drag * s))) j l) t) =
        fun j l => (0 : Vel ℝ 2) j l + ((if l = 0 then 0 else 0) - c.drag * nodal cs.vmesh (fun _ : Fin 2 => C (Real.exp (-c.drag * t))) j l) := by
      funext j l
      by_cases hj : j < cs.vmesh.numNodes
      · simp only [hvj _ j hj]
        have : HasDerivAt (fun s => Real.exp (-c.drag * s)) (Real.exp (-c.drag * t) * (-c.drag * 1)) t :=
          ((hasDerivAt_id t).const_mul (-c.drag)).exp
        rw [this.deriv]
        simp
        ring
      · simp [nodal, hj]
    rw [hder]
    simp

/-- The hypotheses of `C104_partial` and of `C104_violated_drag` hold for a constant velocity that decays with the drag, on the
periodic square: rollouts have the order 1 and not the order 2. -/
example : ∃ (cs : CubeStokes 2) (c : SolverConfig ℝ) (u : ℝ → Vel ℝ 2), cubeStokes 2 2 3 2 0 1 [0, 1] [] = .ok cs ∧ c.timeOrder = 3 ∧
    RolloutConvergence cs.vmesh cs.pmesh cs.masks [] cs.sem cs.low (fun _ => 0) c zeroNet 1 u (fun _ => 0) 1 ∧
    ¬ RolloutConvergence cs.vmesh cs.pmesh cs.masks [] cs.sem cs.low (fun _ => 0) c zeroNet 1 u (fun _ => 0) 2 := by
  obtain ⟨cs, hcs⟩ := C92_create (over := 2) (n := 2) (d := 2) (p := 3) (a := 0) (b := 1) (by norm_num) (by norm_num)
    (by norm_num) (by norm_num) [0, 1] (bcs := []) (Or.inr rfl)
  let c : SolverConfig ℝ := ⟨3, 20000, 1 / 1000, 0, 1 / 25, 0, cs.vmesh.numElements, cs.vmesh.nodesPerElem * 2, false⟩
  obtain ⟨S, hflow⟩ := decay_flow hcs c 1
  have hΦ : ClosureIs c cs.vmesh zeroNet (fun _ => 0) := by
    intro i v
    obtain ⟨f, r, hf, rfl⟩ := zeroNet_closure (c := c) (mesh := cs.vmesh) rfl ⟨rfl, rfl, by simp [c]⟩ i v
    exact ⟨r, hf⟩
  have hL : LipschitzOnBounded cs.vmesh (fun _ => 0) := fun R => ⟨0, le_rfl, fun x y _ _ r _ _ j _ l => by simp⟩
  have hu : ∀ n : ℕ, ∀ (j : ℕ) (l : Fin 2), ContDiff ℝ n
      (fun t => nodal cs.vmesh (fun _ : Fin 2 => MvPolynomial.C (Real.exp (-c.drag * t))) j l) := by
    intro n j l
    by_cases hj : j < cs.vmesh.numNodes
    · simp only [nodal, hj, if_true, MvPolynomial.eval_C]
      exact (contDiff_const.mul contDiff_id).exp
    · simp only [nodal, hj, if_false]
      exact contDiff_const
  refine ⟨cs, c, fun t => nodal cs.vmesh (fun _ : Fin 2 => MvPolynomial.C (Real.exp (-c.drag * t))), hcs, rfl, ?_, ?_⟩
  · exact C104_partial (K := 2) S rfl (by norm_num) (by norm_num) (by norm_num [c]) rfl rfl one_pos hΦ hL hflow
      (fun j l => by exact_mod_cast hu 4 j l) (fun j => contDiff_const)
  · refine C104_violated_drag S (by norm_num [c]) (by norm_num [c]) (by norm_num [c]) rfl rfl (by norm_num [c]) hΦ hflow
      (fun j l => by exact_mod_cast hu 4 j l) (fun j => contDiff_const) one_pos le_rfl fun h => ?_
    obtain ⟨vnode, pnode, l, hc⟩ := cubeStokes_of (n := 2) (d := 2) (p := 3) (by norm_num) (by norm_num) le_rfl one_pos (Or.inr rfl) hcs
    have hj : 0 < cs.vmesh.numNodes := by
      have := hc.vcube.cells.lt 0 (Nat.pow_pos (by norm_num)) 0 (by unfold Mesh.nodesPerElem; exact Nat.pow_pos hc.vcube.cells.numPos)
      omega
    have := congrFun (congrFun h 0) 0
    simp only [nodal, hj, if_true, MvPolynomial.eval_C, mul_zero, Real.exp_zero, mul_one, Real.exp_eq_one_iff] at this
    norm_num [c] at this

end Verif.Niles
