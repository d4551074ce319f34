import Verif.Props.C103
import Verif.Lemmas.NSConv

/-!
# Convergence of steps with explicit terms

The load of a step may depend on the velocities before it, Lipschitz continuously near the exact ones.
-/

set_option linter.unusedSectionVars false

namespace Verif.NS

open Verif.Core Verif.Linalg Verif.Spec

/-- Error bounds that keep the errors small justify the local Lipschitz bound they were derived from. -/
theorem bootstrap {V : Type} [NormedAddCommGroup V] [NormedSpace ℝ V] {ρ : List ℝ} {k : ℕ} {lam Lam b dt : ℝ} {N : ℕ}
    {eps Gam del the : ℝ} {e : ℕ → V} {w g θ : ℕ → ℝ} {A : ℝ} (hA : A ≤ 1) (heps : eps ≤ 1)
    (h : ∀ n ≤ N, StepErrors V ρ k lam Lam b dt n eps Gam del the e w g θ → ‖e (n + k)‖ ≤ A)
    (w0 : ∀ j, 0 ≤ w j) (g0 : ∀ j, 0 ≤ g j) (θ0 : ∀ j, 0 ≤ θ j) (start : ∀ i < k, ‖e i‖ ≤ eps)
    (startg : g 0 ≤ Gam ∧ g 1 ≤ Gam)
    (step : ∀ j ≤ N, ‖∑ i ∈ Finset.range (k + 1), ρ.getD i 0 • e (j + i)‖ ≤ dt * (g (j + 2) + lam * w j + θ j))
    (tent : ∀ j ≤ N, w j ≤ ‖e (j + k)‖ + dt / b * (g (j + 2) + 2 * g (j + 1) + g j + del))
    (pres : ∀ j ≤ N, g (j + 2) ≤ lam * w j + θ j)
    (trunc : ∀ j ≤ N, (∀ i < k, ‖e (j + i)‖ ≤ 1) → θ j ≤ Lam * ∑ i ∈ Finset.range k, ‖e (j + i)‖ + the) :
    StepErrors V ρ k lam Lam b dt N eps Gam del the e w g θ := by
  have key : ∀ n ≤ N, (∀ m < n + k, ‖e m‖ ≤ 1) → StepErrors V ρ k lam Lam b dt n eps Gam del the e w g θ := by
    intro n hn hm
    exact ⟨w0, g0, θ0, start, startg, fun j hj => step j (hj.trans hn), fun j hj => tent j (hj.trans hn),
      fun j hj => pres j (hj.trans hn), fun j hj => trunc j (hj.trans hn) fun i hi => hm _ (by omega)⟩
  have hall : ∀ n ≤ N, ∀ m < n + k, ‖e m‖ ≤ 1 := by
    intro n
    induction n with
    | zero => intro _ m hm; exact (start m (by omega)).trans heps
    | succ n ih =>
      intro hn m hm
      by_cases hlt : m < n + k
      · exact ih (by omega) m hlt
      · have : m = n + k := by omega
        subst this
        exact (h n (by omega) (key n (by omega) (ih (by omega)))).trans hA
  exact key N le_rfl (hall N le_rfl)

variable {d : ℕ} {sem : StokesSEM ℝ d}
  {vmesh pmesh : Mesh ℝ d} {quad overQuad : Quadrature1D ℝ} {masks : List (String × (ℕ → Bool))}
  {bcs : List (String × BCType)} {low : Nodes1D ℝ} {mu : ℝ} {k : ℕ} {project : Bool}
  {T : ℝ} {ub : ℝ → Option (Vel ℝ d)} {f u : ℝ → Vel ℝ d} {p : ℝ → ℕ → ℝ}

theorem explicit_conv (S : StepSetup vmesh pmesh quad overQuad masks bcs sem low 0 project) (hmu : 0 ≤ mu) (hk : 1 ≤ k)
    (hk6 : k ≤ 6) (hT : 0 < T) (hflow : StokesFlow vmesh pmesh masks bcs sem mu T ub f u p)
    (hu : ∀ j l, ContDiff ℝ (k + 1) (fun t => u t j l)) (hp : ∀ j, ContDiff ℝ 2 (fun t => p t j)) {Lam : ℝ} (hLam : 0 ≤ Lam) :
    ∃ C dt0 δ, 0 < C ∧ 0 < dt0 ∧ dt0 ≤ 1 ∧ 0 < δ ∧ ∀ (dt : ℝ) (N : ℕ) (U : ℕ → Vel ℝ d) (P : ℕ → ℕ → ℝ) (F : ℕ → Vel ℝ d)
      (older : ℕ → List (ℕ → ℝ)) (ε Γ the : ℝ), 0 < dt → dt ≤ dt0 → (N + k) * dt ≤ T → 0 ≤ Γ → 0 ≤ the → 0 ≤ ε →
      ε ≤ δ → dt ^ 2 * Γ ≤ δ → the ≤ δ →
      (∀ i < k, HasBoundary vmesh masks bcs (ub (i * dt)) (U i) ∧ (∀ j, sem.D (U i) j = 0) ∧
        ∀ j < vmesh.numNodes, ∀ l, |U i j l - u (i * dt) j l| ≤ ε) →
      (∀ m < 2, ∀ j < pmesh.numNodes, |P m j - p ((m + k - 2) * dt) j| ≤ Γ) →
      (∀ n ≤ N, F n ∈ VSpace sem) →
      (∀ n ≤ N, (∀ i < k, U (n + i) - u ((n + i : ℕ) * dt) ∈ TSpace sem ∧ ‖massCoord sem (U (n + i) - u ((n + i : ℕ) * dt))‖ ≤ 1) →
        ‖massCoord sem (sem.Q 1 1 (F n - f ((n + k) * dt)))‖ ≤
          Lam * ∑ i ∈ Finset.range k, ‖massCoord sem (U (n + i) - u ((n + i : ℕ) * dt))‖ + the) →
      StokesRun sem low 0 mu dt k project F (fun n => ub ((n + k) * dt)) older U P N →
      (∀ n ≤ N + k, U n - u (n * dt) ∈ TSpace sem ∧ sem.D (U n) = 0) ∧
      ∀ n ≤ N, ‖massCoord sem (U (n + k) - u ((n + k : ℕ) * dt))‖ ≤ C * (ε + dt ^ 2 * Γ + dt ^ min k 3 + the) ∧
        ‖gradCoord sem (P (n + 2) - p ((n + k) * dt))‖ ≤ C * (ε + dt * Γ + dt ^ min k 3 + the) := by
  have H := S.setup
  have hv := H.valid
  obtain ⟨_, _, hvm, hpm, _, _, _⟩ := H.fields
  have hnum : sem.numV = vmesh.numNodes := by unfold StokesSEM.numV; rw [hvm]
  have hnumP : sem.numP = pmesh.numNodes := by unfold StokesSEM.numP; rw [hpm]
  obtain ⟨b, hb, _⟩ := C37_exact (K := ℝ) k hk
  have hbeta := (C37_leading k b hb).2
  obtain ⟨ρ, hst, hρ⟩ := bdf_stable hk hk6 hb
  obtain ⟨L, hL0, hL⟩ := visc_bound H
  obtain ⟨C1, dt1, hC1, hdt1, hconv⟩ := time_conv hst (lam := mu * L) (Lam := Lam) (b := b (Fin.last k)) (T := T)
    (mul_nonneg hmu hL0) hLam hbeta hT.le
  obtain ⟨M1, hM1, hdef⟩ := defect_bound (vmesh := vmesh) H hk hb hu T
  obtain ⟨M2, hM2, hpre⟩ := pressure_bound (k := k) H hk hp T
  obtain ⟨c, hc, hc1, hc2⟩ := massCoord_bound_entries (sem := sem) H.massPos'
  obtain ⟨g, hg, hg1⟩ := gradCoord_bound H
  obtain ⟨Q, hQ⟩ : ∃ Q, Q = c + g + M2 + M1 + 1 := ⟨_, rfl⟩
  have hQ0 : 0 < Q := by rw [hQ]; positivity
  obtain ⟨C, hCd⟩ : ∃ C, C = C1 * (2 * Q) := ⟨_, rfl⟩
  have hC0 : 0 < C := by rw [hCd]; positivity
  refine ⟨C, min (min dt1 1) (1 / (2 * C)), min (1 / (6 * C)) (1 / Q), hC0, by positivity,
    (min_le_left _ _).trans (min_le_right _ _), by positivity, ?_⟩
  intro dt N U P F older ε Γ the hdt hdt0 hN hΓ hthe0 hε hεδ hΓδ htheδ hU hP hF hload hrun
  have hdt1' := (hdt0.trans (min_le_left _ _)).trans (min_le_left _ _)
  have hdt2' := (hdt0.trans (min_le_left _ _)).trans (min_le_right _ _)
  have hdt3' := hdt0.trans (min_le_right _ _)
  have htime : ∀ n : ℕ, n ≤ N + k → (n : ℝ) * dt ∈ Set.Icc 0 T := by
    intro n hn
    refine ⟨by positivity, le_trans ?_ hN⟩
    have : (n : ℝ) ≤ N + k := by exact_mod_cast hn
    nlinarith
  have hR := hflow.reference H hT (fun j l => (hu j l).differentiable (by simp)) hdt b hN
  obtain ⟨hall, w, hw, herr⟩ := run_errors S hmu hdt hk hb hρ hL hF hR
    (fun i hi => sub_mem_TSpace H (hU i hi).1 (hflow.velocity _ (htime i (by omega))))
    (fun i hi => funext (hU i hi).2.1) hrun
  refine ⟨hall, ?_⟩
  have hdel : 0 ≤ M2 * dt ^ 2 := by positivity
  have hthe : 0 ≤ M1 * dt ^ k + the := by positivity
  have hkR : (1 : ℝ) ≤ k := by exact_mod_cast hk
  have hb' := div_pos hdt hbeta
  have hnN : ∀ m ≤ N, ((m : ℝ) + k) * dt ≤ T := by
    intro m hm
    have := (htime (m + k) (by omega)).2
    push_cast at this
    exact this
  -- powers of the time step
  obtain ⟨m, hm⟩ : ∃ m, m = dt ^ min k 3 := ⟨_, rfl⟩
  have hm0 : 0 ≤ m := by rw [hm]; positivity
  have hp3 : dt ^ 3 ≤ m := by rw [hm]; exact pow_le_pow_of_le_one hdt.le hdt2' (min_le_right _ _)
  have hpk : dt ^ k ≤ m := by rw [hm]; exact pow_le_pow_of_le_one hdt.le hdt2' (min_le_left _ _)
  have hm1 : m ≤ dt := by
    have := pow_le_pow_of_le_one hdt.le hdt2' (show 1 ≤ min k 3 by omega)
    rwa [pow_one, ← hm] at this
  have hQc : c ≤ Q := by rw [hQ]; linarith
  have hQg : g ≤ Q := by rw [hQ]; linarith
  have hQ2 : M2 ≤ Q := by rw [hQ]; linarith
  have hQ1 : M1 ≤ Q := by rw [hQ]; linarith
  have hQ3 : 1 ≤ Q := by rw [hQ]; linarith
  have hrest : dt * (M2 * dt ^ 2) + (M1 * dt ^ k + the) ≤ 2 * (Q * (m + the)) := by
    have h1 : M2 * dt ^ 3 ≤ Q * m := mul_le_mul hQ2 hp3 (by positivity) hQ0.le
    have h2 : M1 * dt ^ k ≤ Q * m := mul_le_mul hQ1 hpk (by positivity) hQ0.le
    have h3 : dt * (M2 * dt ^ 2) = M2 * dt ^ 3 := by ring
    have h4 : the ≤ Q * the := le_mul_of_one_le_left hthe0 hQ3
    have h5 : 0 ≤ Q * the := by positivity
    rw [mul_add]
    linarith
  have hεQ : c * ε ≤ Q * ε := mul_le_mul_of_nonneg_right hQc hε
  have hfin : ∀ s : ℝ, 0 ≤ s → C1 * (c * ε + s * (g * Γ) + dt * (M2 * dt ^ 2) + (M1 * dt ^ k + the)) ≤
      C * (ε + s * Γ + m + the) := by
    intro s hs
    have h1 : s * (g * Γ) ≤ Q * (s * Γ) := by
      have := mul_le_mul_of_nonneg_right hQg (mul_nonneg hs hΓ)
      linarith
    have h2 : 0 ≤ Q * ε := by positivity
    have h3 : 0 ≤ Q * (s * Γ) := by positivity
    rw [hCd, mul_assoc]
    refine mul_le_mul_of_nonneg_left ?_ hC1.le
    linarith
  have hone : C * (ε + dt ^ 2 * Γ + m + the) ≤ 1 := by
    have h1 : ε + dt ^ 2 * Γ + m + the ≤ 1 / (6 * C) + 1 / (6 * C) + 1 / (2 * C) + 1 / (6 * C) :=
      add_le_add (add_le_add (add_le_add (hεδ.trans (min_le_left _ _)) (hΓδ.trans (min_le_left _ _))) (hm1.trans hdt3'))
        (htheδ.trans (min_le_left _ _))
    have h2 := mul_le_mul_of_nonneg_left h1 hC0.le
    have h3 : C * (1 / (6 * C) + 1 / (6 * C) + 1 / (2 * C) + 1 / (6 * C)) = 1 := by field_simp; norm_num
    linarith
  have hE : StepErrors (EuclideanSpace ℝ (Fin sem.numV × Fin d)) ρ k (mu * L) Lam (b (Fin.last k)) dt N (c * ε) (g * Γ)
      (M2 * dt ^ 2) (M1 * dt ^ k + the) (fun n => massCoord sem (U n - u (n * dt))) w
      (fun m => ‖gradCoord sem (P m - p ((m + k - 2) * dt))‖)
      (fun n => defectNorm sem dt b F (fun n => f ((n + k) * dt)) (fun n => u (n * dt))
        (fun n => timeDeriv vmesh u ((n + k) * dt)) n) := by
    refine bootstrap (A := C * (ε + dt ^ 2 * Γ + m + the)) hone ?_ (fun n hn hE => ?_) hw (fun _ => norm_nonneg _)
      (fun _ => norm_nonneg _) (fun i hi => ?_) ⟨?_, ?_⟩ (fun m hm => (herr m hm).1)
      (fun m hm => (herr m hm).2.1.trans ?_) (fun m hm => (herr m hm).2.2) (fun m hm hsm => ?_)
    · have := mul_le_mul_of_nonneg_left (hεδ.trans (min_le_right _ _)) hQ0.le
      rw [mul_one_div_cancel hQ0.ne'] at this
      linarith
    · exact (hconv _ dt n (c * ε) (g * Γ) (M2 * dt ^ 2) (M1 * dt ^ k + the) _ _ _ _ hdt hdt1' (htime n (by omega)).2
        (by positivity) (by positivity) hdel hthe hE).1.trans (hfin (dt ^ 2) (by positivity))
    · exact hc2 _ _ (fun j hj l => (hU i hi).2.2 j (by omega) l) hε
    · exact hg1 _ _ hΓ (fun j hj => by simpa using hP 0 (by omega) j (by omega))
    · exact hg1 _ _ hΓ (fun j hj => by simpa using hP 1 (by omega) j (by omega))
    · refine add_le_add le_rfl (mul_le_mul_of_nonneg_left (add_le_add le_rfl ?_) hb'.le)
      exact hpre dt m hdt hdt2' (hnN m hm)
    · have h1 := hload m hm fun i hi => ⟨(hall (m + i) (by omega)).1, hsm i hi⟩
      have h2 := hdef dt m hdt (hnN m hm)
      unfold defectNorm
      rw [map_add]
      refine (norm_add_le _ _).trans ?_
      linarith
  intro n hn
  obtain ⟨hr1, hr2⟩ := hconv _ dt n (c * ε) (g * Γ) (M2 * dt ^ 2) (M1 * dt ^ k + the) _ _ _ _ hdt hdt1' (htime n (by omega)).2
    (by positivity) (by positivity) hdel hthe (hE.mono hn)
  rw [← hm]
  refine ⟨hr1.trans (hfin (dt ^ 2) (by positivity)), ?_⟩
  have h2 := hr2.trans (hfin dt hdt.le)
  rw [show (((n + 2 : ℕ) : ℝ) + k - 2) * dt = (n + k) * dt by push_cast; ring] at h2
  exact h2

end Verif.NS
