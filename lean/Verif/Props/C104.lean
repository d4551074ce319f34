import Verif.Lemmas.NSTime
import Verif.Props.C72

/-!
# C104: convergence of the rollouts of niles/train.py in time

On a fixed mesh the predictions of a rollout (exact solves, no filter) converge to the solution of the semi-discrete
Navier-Stokes equations with the closure term. The backward differences and the extrapolated advection have the order
`config.time_order`, but drag and closure are evaluated at the last known velocity, so the order is one.
-/

set_option linter.unusedSectionVars false

namespace Verif.Niles

open Verif.Core Verif.NS Verif.Linalg Verif.Spec

variable {sem : StokesSEM ℝ 2}
  {vmesh pmesh : Mesh ℝ 2} {quad overQuad : Quadrature1D ℝ} {masks : List (String × (ℕ → Bool))}
  {bcs : List (String × BCType)} {low : Nodes1D ℝ} {wave : ℝ → ℝ} {c : SolverConfig ℝ} {net : Closure ℝ}

/-- Velocity `u`, pressure `p` solve the semi-discrete Navier-Stokes equations on `[0, T]` with the closure term `Φ`, the
Kolmogorov forcing and the drag. -/
structure NSFlow (vmesh pmesh : Mesh ℝ 2) (masks : List (String × (ℕ → Bool))) (bcs : List (String × BCType))
    (sem : StokesSEM ℝ 2) (wave : ℝ → ℝ) (c : SolverConfig ℝ) (Φ : Vel ℝ 2 → Vel ℝ 2) (T : ℝ) (u : ℝ → Vel ℝ 2)
    (p : ℝ → ℕ → ℝ) : Prop where
  velocity : ∀ t ∈ Set.Icc 0 T, HasBoundary vmesh masks bcs none (u t)
  divergence : ∀ t ∈ Set.Icc 0 T, ∀ j, sem.D (u t) j = 0
  momentum : ∀ t ∈ Set.Icc 0 T, ∀ v, HasBoundary vmesh masks bcs none v →
    vMassForm sem.vspace (vGather vmesh (fun j l => deriv (fun s => u s j l) t)) (vGather vmesh v) +
      (1 / c.reynolds) * vStiffForm sem.vspace (vGather vmesh (u t)) (vGather vmesh v) +
      vConvForm sem.overint (vGather vmesh (u t)) (vGather vmesh v) =
    vMassForm sem.vspace
        (vGather vmesh (fun j l => Φ (u t) j l + ((if l = 0 then wave (vmesh.coords j 1) else 0) - c.drag * u t j l)))
        (vGather vmesh v) +
      integrate sem.vspace (fun m q => divFn sem.vspace (vGather vmesh v) m q * scalarFn sem.pspace (pmesh.gather (p t)) m q)

/-- The closure network computes the nodal term `Φ u` from the velocity `u`, in every step the same. -/
def ClosureIs (c : SolverConfig ℝ) (mesh : Mesh ℝ 2) (net : Closure ℝ) (Φ : Vel ℝ 2 → Vel ℝ 2) : Prop :=
  ∀ i u, ∃ q, closureTerm c mesh net i u = .ok (Φ u, q)

/-- `Φ` is Lipschitz continuous on bounded sets, in the maximum norm over the nodes. -/
def LipschitzOnBounded (mesh : Mesh ℝ 2) (Φ : Vel ℝ 2 → Vel ℝ 2) : Prop :=
  ∀ R, ∃ L, 0 ≤ L ∧ ∀ x y : Vel ℝ 2, (∀ j < mesh.numNodes, ∀ l, |x j l| ≤ R) → (∀ j < mesh.numNodes, ∀ l, |y j l| ≤ R) →
    ∀ r, 0 ≤ r → (∀ j < mesh.numNodes, ∀ l, |x j l - y j l| ≤ r) → ∀ j < mesh.numNodes, ∀ l, |Φ x j l - Φ y j l| ≤ L * r

/-- Convergence of order `r` of rollouts to the flow `u`, `p`: from starting values with errors `ε` and `Γ`, small enough, every
prediction at the time `t` has an error of at most `C (ε + dt² Γ + dt ^ r)` at the nodes, with `C` independent of the time step
and of the number of steps. -/
def RolloutConvergence (vmesh pmesh : Mesh ℝ 2) (masks : List (String × (ℕ → Bool))) (bcs : List (String × BCType))
    (sem : StokesSEM ℝ 2) (low : Nodes1D ℝ) (wave : ℝ → ℝ) (c : SolverConfig ℝ) (net : Closure ℝ) (T : ℝ) (u : ℝ → Vel ℝ 2)
    (p : ℝ → ℕ → ℝ) (r : ℕ) : Prop :=
  ∃ C dt0 δ, 0 < C ∧ 0 < dt0 ∧ 0 < δ ∧ ∀ (dt : ℝ) (n : ℕ) (ex : Example ℝ) (ε Γ : ℝ) (preds targets : List (Vel ℝ 2)) (kl0 klp : ℝ),
    0 < dt → dt ≤ dt0 → (n + c.timeOrder - 1) * dt ≤ T → 0 ≤ ε → 0 ≤ Γ → ε ≤ δ → dt ^ 2 * Γ ≤ δ →
    (∀ i < c.timeOrder, HasBoundary vmesh masks bcs none (ex.u.getD i 0) ∧ (∀ j, sem.D (ex.u.getD i 0) j = 0) ∧
      ∀ j < vmesh.numNodes, ∀ l, |ex.u.getD i 0 j l - u (i * dt) j l| ≤ ε) →
    (∀ i < c.timeOrder, c.timeOrder ≤ i + 2 → ∀ j < pmesh.numNodes, |ex.p.getD i 0 j - p (i * dt) j| ≤ Γ) →
    rollout low wave { c with dt := dt } sem net n ex = .ok (preds, targets, kl0, klp) →
    ∀ i < n, ∀ j < vmesh.numNodes, ∀ l,
      |preds.getD i 0 j l - u ((c.timeOrder + i : ℕ) * dt) j l| ≤ C * (ε + dt ^ 2 * Γ + dt ^ r)

/-- The terms evaluated at the last velocity. -/
noncomputable def lagged (sem : StokesSEM ℝ 2) (wave : ℝ → ℝ) (drag : ℝ) (Φ : Vel ℝ 2 → Vel ℝ 2) (u : Vel ℝ 2) : Vel ℝ 2 :=
  sem.B fun j l => Φ u j l + kolmogorov wave drag (sem.vspace.mesh.coords j) (u j) l

variable {Φ : Vel ℝ 2 → Vel ℝ 2} {T : ℝ} {u : ℝ → Vel ℝ 2} {p : ℝ → ℕ → ℝ}

/-- The flow solves the Stokes equations with the load of all other terms. -/
theorem NSFlow.stokes (H : StokesSetup vmesh pmesh quad overQuad masks bcs sem)
    (h : NSFlow vmesh pmesh masks bcs sem wave c Φ T u p) :
    StokesFlow vmesh pmesh masks bcs sem (1 / c.reynolds) T (fun _ => none)
      (fun t => -sem.C (u t) + lagged sem wave c.drag Φ (u t)) u p := by
  have hv := H.valid
  obtain ⟨_, _, hvm, _, hmask, _, _⟩ := H.fields
  have hnum : sem.numV = vmesh.numNodes := by unfold StokesSEM.numV; rw [hvm]
  have hmem : ∀ t, -sem.C (u t) + lagged sem wave c.drag Φ (u t) ∈ VSpace sem := fun t =>
    (VSpace sem).add_mem ((VSpace sem).neg_mem (C_mem _)) (B_mem H.massOutside)
  refine ⟨h.velocity, fun t _ => ⟨fun j _ => rfl, fun i _ j _ _ => rfl⟩, fun t _ => ?_, h.divergence, fun t ht v hvB => ?_⟩
  · have := (H.mem_VSpace _).mp (hmem t)
    exact ⟨this.1, this.2⟩
  · have h1 := h.momentum t ht v hvB
    have hvT := (mem_TSpace_iff H v).mpr hvB
    have hv0 := ((H.mem_VSpace v).mp hvT.1).1
    rw [massForm_eq H (fun j l => Φ (u t) j l + _)] at h1
    have hB := B_dot hv (VSpace_masked hvT.1)
      (fun j l => Φ (u t) j l + kolmogorov wave c.drag (sem.vspace.mesh.coords j) (u t j) l)
    have hC := C_dot H (u t) v hv0
    have hsplit : ∑ j ∈ Finset.range vmesh.numNodes, ∑ l, v j l * (-sem.C (u t) + lagged sem wave c.drag Φ (u t)) j l =
        -(∑ j ∈ Finset.range vmesh.numNodes, ∑ l, v j l * sem.C (u t) j l) +
          sem.vDot v (lagged sem wave c.drag Φ (u t)) := by
      unfold StokesSEM.vDot
      rw [hnum, ← Finset.sum_neg_distrib, ← Finset.sum_add_distrib]
      refine Finset.sum_congr rfl fun j _ => ?_
      rw [← Finset.sum_neg_distrib, ← Finset.sum_add_distrib]
      refine Finset.sum_congr rfl fun l _ => ?_
      simp only [Pi.add_apply, Pi.neg_apply]
      ring
    rw [hsplit, hC]
    unfold lagged
    rw [hB, hnum, hvm]
    unfold kolmogorov
    linear_combination h1

/-- The step of a rollout as a Stokes step. -/
theorem solveStep_stokes {K : ℕ} (hk : c.timeOrder = K + 1) (halpha : c.alpha = 0) (hatol : c.atol = 0) {e : Fin (K + 1) → ℝ}
    (he : extkCoeffs K = some e) (U : Fin (K + 1) → Vel ℝ 2) {ps : List (ℕ → ℝ)} {u' cu : Vel ℝ 2} {p' : ℕ → ℝ}
    (h : solveStep low wave c sem (List.ofFn U) ps (List.ofFn (fun i => sem.C (U i))) (Φ (U (Fin.last K))) = .ok (u', p', cu)) :
    ∃ st, sem.oneStep low (List.ofFn U) ps (-(∑ i, e i • sem.C (U i)) + lagged sem wave c.drag Φ (U (Fin.last K)))
      (1 / c.reynolds) c.dt (K + 1) 0 none none true 0 0 = .ok st ∧ u' = st.u ∧ p' = st.p := by
  have hlast : (List.ofFn U).getLast? = some (U (Fin.last K)) := by
    rw [List.getLast?_eq_getElem?, List.length_ofFn, List.getElem?_ofFn]
    simp [Fin.last]
  unfold solveStep at h
  rw [hk, Nat.add_sub_cancel, extAdvection_ofFn K e he] at h
  simp only [hlast, halpha, hatol] at h
  split at h
  · cases h
  · have e1 : (fun q l => -∑ i, e i * sem.C (U i) q l + sem.B (fun q k => Φ (U (Fin.last K)) q k +
        kolmogorov wave c.drag (sem.vspace.mesh.coords q) (U (Fin.last K) q) k) q l) =
        -(∑ i, e i • sem.C (U i)) + lagged sem wave c.drag Φ (U (Fin.last K)) := by
      funext q l
      simp [lagged, Finset.sum_apply]
    rw [e1] at h
    split at h
    · cases h
    · rename_i st hst
      simp only [Except.ok.injEq, Prod.mk.injEq] at h
      exact ⟨st, hst, h.1.symm, h.2.1.symm⟩

/-- A rollout as a run of Stokes steps. -/
theorem rollout_run {K : ℕ} (hvm : sem.vspace.mesh = vmesh) (hk : c.timeOrder = K + 1) (hK : 1 ≤ K) (halpha : c.alpha = 0)
    (hatol : c.atol = 0) {e : Fin (K + 1) → ℝ} (he : extkCoeffs K = some e) (hΦ : ClosureIs c vmesh net Φ) {n : ℕ} {ex : Example ℝ}
    {preds targets : List (Vel ℝ 2)} {kl0 klp : ℝ}
    (h : rollout low wave c sem net (n + 1) ex = .ok (preds, targets, kl0, klp)) :
    ∃ (U : ℕ → Vel ℝ 2) (P : ℕ → ℕ → ℝ) (older : ℕ → List (ℕ → ℝ)),
      (∀ i < K + 1, U i = ex.u.getD i 0) ∧ (∀ i < n + 1, U (K + 1 + i) = preds.getD i 0) ∧
      (∀ m < 2, P m = ex.p.getD (m + K - 1) 0) ∧ targets = (ex.u.drop (K + 1)).take (n + 1) ∧ K + 1 + (n + 1) ≤ ex.u.length ∧
      StokesRun sem low 0 (1 / c.reynolds) c.dt (K + 1) true
        (fun m => -(∑ i : Fin (K + 1), e i • sem.C (U (m + i))) + lagged sem wave c.drag Φ (U (m + K))) (fun _ => none) older U P n := by
  have hlen : K + 1 ≤ ex.u.length ∧ K + 1 ≤ ex.p.length ∧ K + 1 + (n + 1) ≤ ex.u.length ∧
      targets = (ex.u.drop (K + 1)).take (n + 1) := by
    have h' := h
    unfold rollout at h'
    split at h'
    · cases h'
    · rename_i h0
      push Not at h0
      simp only at h'
      split at h'
      · cases h'
      · split at h'
        · cases h'
        · rename_i h2
          simp only [Except.ok.injEq, Prod.mk.injEq] at h'
          rw [hk] at h0 h2 h'
          exact ⟨h0.1, h0.2, by omega, h'.2.1.symm⟩
  obtain ⟨hl1, _, _, P, fs, q0, qp, hP, _, _, hall⟩ := C72_window (by omega) h
  simp only [hk] at hall
  obtain ⟨W, hW⟩ : ∃ W, W = ex.u.take (K + 1) ++ preds := ⟨_, rfl⟩
  obtain ⟨PW, hPW⟩ : ∃ PW, PW = ex.p.take (K + 1) ++ P := ⟨_, rfl⟩
  rw [← hW, ← hPW] at hall
  have hWl : W.length = K + 1 + (n + 1) := by rw [hW, List.length_append, List.length_take]; omega
  have hPl : PW.length = K + 1 + (n + 1) := by rw [hPW, List.length_append, List.length_take]; omega
  refine ⟨fun m => W.getD m 0, fun m => PW.getD (m + K - 1) 0, fun m => ((PW.drop m).take (K + 1)).take (K - 1),
    fun i hi => ?_, fun i hi => ?_, fun m hm => ?_, hlen.2.2.2, hlen.2.2.1, fun m hm => ?_⟩
  · simp only [hW]
    rw [List.getD_eq_getElem?_getD, List.getElem?_append_left (by rw [List.length_take]; omega), List.getElem?_take_of_lt hi,
      List.getD_eq_getElem?_getD]
  · simp only [hW]
    rw [List.getD_eq_getElem?_getD, List.getElem?_append_right (by rw [List.length_take]; omega), List.getD_eq_getElem?_getD]
    congr 2
    rw [List.length_take]
    omega
  · simp only [hPW]
    rw [List.getD_eq_getElem?_getD, List.getElem?_append_left (by rw [List.length_take]; omega), List.getElem?_take_of_lt (by omega),
      List.getD_eq_getElem?_getD]
  · obtain ⟨hcl, cu, hso⟩ := hall m (by omega)
    have hwin : ((W.drop m).take (K + 1)) = List.ofFn (fun j : Fin (K + 1) => W.getD (m + j) 0) := by
      apply List.ext_getElem
      · simp; omega
      · intro j h1 h2
        rw [List.getElem_ofFn, List.getElem_take, List.getElem_drop, List.getD_eq_getElem]
    have hpwin : (PW.drop m).take (K + 1) = ((PW.drop m).take (K + 1)).take (K - 1) ++ [PW.getD (m + K - 1) 0, PW.getD (m + 1 + K - 1) 0] := by
      apply List.ext_getElem
      · simp; omega
      · intro i h1 h3
        simp only [List.length_take, List.length_drop] at h1
        by_cases hi : i < K - 1
        · rw [List.getElem_append_left (by simp; omega)]
          simp only [List.getElem_take]
        · rw [List.getElem_append_right (by simp; omega)]
          have hmin : (((PW.drop m).take (K + 1)).take (K - 1)).length = K - 1 := by simp; omega
          have hi2 : i = K - 1 ∨ i = K := by omega
          rcases hi2 with rfl | rfl
          · simp only [hmin, Nat.sub_self, List.getElem_cons_zero, List.getElem_take, List.getElem_drop]
            rw [List.getD_eq_getElem _ _ (by omega)]
            congr 1
            omega
          · have : i - (i - 1) = 1 := by omega
            simp only [hmin, this, List.getElem_cons_succ, List.getElem_cons_zero, List.getElem_take, List.getElem_drop]
            rw [List.getD_eq_getElem _ _ (by omega)]
            congr 1
            omega
    have hf : fs m = Φ (W.getD (m + K) 0) := by
      obtain ⟨q, hq⟩ := hΦ m (W.getD (m + K) 0)
      rw [hvm, show m + (K + 1) - 1 = m + K by omega, hq] at hcl
      simp only [Except.ok.injEq, Prod.mk.injEq] at hcl
      exact hcl.1.symm
    rw [hwin, hf, List.map_ofFn] at hso
    obtain ⟨st, hst, h1, h2⟩ := solveStep_stokes (Φ := Φ) hk halpha hatol he (fun j : Fin (K + 1) => W.getD (m + j) 0) hso
    refine ⟨st, ?_, h1, ?_⟩
    · rw [← hpwin]
      exact hst
    · have : m + 2 + K - 1 = m + (K + 1) := by omega
      simp only [this]
      exact h2

/-- The lagged terms are Lipschitz continuous on bounded sets. -/
theorem lagged_lip (H : StokesSetup vmesh pmesh quad overQuad masks bcs sem) (hL : LipschitzOnBounded vmesh Φ) (drag R : ℝ) :
    ∃ L, 0 ≤ L ∧ ∀ x y : Vel ℝ 2, ‖massCoord sem x‖ ≤ R → ‖massCoord sem y‖ ≤ R →
      ‖massCoord sem (lagged sem wave drag Φ x - lagged sem wave drag Φ y)‖ ≤ L * ‖massCoord sem (x - y)‖ := by
  obtain ⟨_, _, hvm, _⟩ := H.fields
  have hnum : sem.numV = vmesh.numNodes := by unfold StokesSEM.numV; rw [hvm]
  obtain ⟨c, hc, hc1, hc2⟩ := massCoord_bound_entries (sem := sem) H.massPos'
  obtain ⟨L, hL0, hL⟩ := hL (c * R)
  obtain ⟨D, hD⟩ : ∃ D, D = ∑ j ∈ Finset.range sem.numV, ∑ l, |sem.massDiag j l| := ⟨_, rfl⟩
  have hD0 : 0 ≤ D := by rw [hD]; positivity
  refine ⟨c * (D * (L + |drag|) * c), by positivity, fun x y hx hy => ?_⟩
  have hr : 0 ≤ c * ‖massCoord sem (x - y)‖ := by positivity
  rw [show c * (D * (L + |drag|) * c) * ‖massCoord sem (x - y)‖ = c * (D * (L + |drag|) * (c * ‖massCoord sem (x - y)‖)) by ring]
  have hxy : ∀ j < sem.numV, ∀ l, |x j l - y j l| ≤ c * ‖massCoord sem (x - y)‖ := fun j hj l => hc1 (x - y) j hj l
  refine hc2 _ _ (fun j hj l => ?_) (by positivity)
  have h1 := hL x y (fun j hj l => (hc1 x j (by omega) l).trans (mul_le_mul_of_nonneg_left hx hc.le))
    (fun j hj l => (hc1 y j (by omega) l).trans (mul_le_mul_of_nonneg_left hy hc.le)) _ hr
    (fun j hj l => hxy j (by omega) l) j (by omega) l
  have h2 : (lagged sem wave drag Φ x - lagged sem wave drag Φ y) j l =
      sem.mask j * (sem.massDiag j l * ((Φ x j l - Φ y j l) - drag * (x j l - y j l))) := by
    simp only [lagged, StokesSEM.B, kolmogorov, Pi.sub_apply]
    ring
  have hDj : |sem.massDiag j l| ≤ D := by
    rw [hD]
    refine le_trans ?_ (Finset.single_le_sum (f := fun j => ∑ l, |sem.massDiag j l|)
      (fun _ _ => Finset.sum_nonneg fun _ _ => abs_nonneg _) (Finset.mem_range.mpr hj))
    exact Finset.single_le_sum (f := fun l => |sem.massDiag j l|) (fun _ _ => abs_nonneg _) (Finset.mem_univ l)
  have h3 : |(Φ x j l - Φ y j l) - drag * (x j l - y j l)| ≤ (L + |drag|) * (c * ‖massCoord sem (x - y)‖) := by
    refine (abs_sub _ _).trans ?_
    rw [abs_mul, add_mul]
    exact add_le_add h1 (mul_le_mul_of_nonneg_left (hxy j hj l) (abs_nonneg _))
  have h4 : |sem.massDiag j l * ((Φ x j l - Φ y j l) - drag * (x j l - y j l))| ≤ D * (L + |drag|) * (c * ‖massCoord sem (x - y)‖) := by
    rw [abs_mul, mul_assoc]
    exact mul_le_mul hDj h3 (abs_nonneg _) hD0
  rw [h2]
  rcases H.mask01 j with h0 | h0
  · rw [h0, zero_mul, abs_zero]
    positivity
  · rw [h0, one_mul]
    exact h4

/-- The error of the extrapolated advection term of the flow. -/
theorem advection_trunc (H : StokesSetup vmesh pmesh quad overQuad masks bcs sem) {K : ℕ} (hK : 1 ≤ K) {e : Fin (K + 1) → ℝ}
    (he : extkCoeffs K = some e) (hu : ∀ j l, ContDiff ℝ (K + 1) (fun t => u t j l)) (T : ℝ) :
    ∃ M, 0 ≤ M ∧ ∀ (dt : ℝ) (n : ℕ), 0 < dt → (n + (K + 1 : ℕ)) * dt ≤ T →
      ‖massCoord sem (∑ i : Fin (K + 1), e i • sem.C (u (((n + i : ℕ) : ℝ) * dt)) - sem.C (u ((n + (K + 1 : ℕ)) * dt)))‖ ≤
        M * dt ^ (K + 1) := by
  have htr := fun j l => ext_trunc hK he (fun t => sem.C (u t) j l) (C_contDiff H hu j l) 0 T
  choose M hM htr using htr
  obtain ⟨c, hc, _, hc2⟩ := massCoord_bound_entries (sem := sem) H.massPos'
  obtain ⟨R, hR⟩ : ∃ R, R = ∑ j ∈ Finset.range sem.numV, ∑ l, M j l := ⟨_, rfl⟩
  have hR0 : 0 ≤ R := by rw [hR]; exact Finset.sum_nonneg fun _ _ => Finset.sum_nonneg fun _ _ => hM _ _
  refine ⟨c * R, mul_nonneg hc.le hR0, fun dt n hdt hn => ?_⟩
  rw [mul_assoc]
  refine hc2 _ _ (fun j hj l => ?_) (by positivity)
  have h1 := htr j l (n * dt) dt hdt.le (by positivity) (by push_cast at hn; linarith)
  have hMR : M j l ≤ R := by
    rw [hR]
    refine le_trans ?_ (Finset.single_le_sum (f := fun j => ∑ l, M j l) (fun _ _ => Finset.sum_nonneg fun _ _ => hM _ _)
      (Finset.mem_range.mpr hj))
    exact Finset.single_le_sum (f := fun l => M j l) (fun _ _ => hM _ _) (Finset.mem_univ l)
  have e1 : (n * dt + (K + 1) * dt) = ((n : ℝ) + (K + 1 : ℕ)) * dt := by push_cast; ring
  have e2 : ∑ i : Fin (K + 1), e i * sem.C (u (n * dt + (i : ℕ) * dt)) j l =
      ∑ i : Fin (K + 1), e i * sem.C (u (((n + i : ℕ) : ℝ) * dt)) j l := by
    refine Finset.sum_congr rfl fun i _ => ?_
    rw [show (n : ℝ) * dt + (i : ℕ) * dt = ((n + i : ℕ) : ℝ) * dt by push_cast; ring]
  rw [e1, e2] at h1
  have e3 : (∑ i : Fin (K + 1), e i • sem.C (u (((n + i : ℕ) : ℝ) * dt)) - sem.C (u ((n + (K + 1 : ℕ)) * dt))) j l =
      ∑ i : Fin (K + 1), e i * sem.C (u (((n + i : ℕ) : ℝ) * dt)) j l - sem.C (u ((n + (K + 1 : ℕ)) * dt)) j l := by
    simp [Finset.sum_apply]
  rw [e3]
  exact h1.trans (mul_le_mul_of_nonneg_right hMR (by positivity))

/-- The velocity of a flow is bounded. -/
theorem flow_bounded (hu : ∀ j l, Continuous (fun t => u t j l)) (T : ℝ) :
    ∃ R, 0 ≤ R ∧ ∀ t ∈ Set.Icc 0 T, ‖massCoord sem (u t)‖ ≤ R := by
  have hc : Continuous fun t => massCoord sem (u t) :=
    (PiLp.continuous_toLp 2 _).comp (continuous_pi fun i => continuous_const.mul (hu i.1 i.2))
  obtain ⟨R, hR⟩ := (isCompact_Icc (a := (0 : ℝ)) (b := T)).exists_bound_of_continuousOn hc.continuousOn
  exact ⟨max R 0, le_max_right _ _, fun t ht => (hR t ht).trans (le_max_left _ _)⟩

/-- The load of a step, apart from the change of the lagged terms of the flow over the step. -/
theorem load_rest (H : StokesSetup vmesh pmesh quad overQuad masks bcs sem) {K : ℕ} (hK : 1 ≤ K) {e : Fin (K + 1) → ℝ}
    (he : extkCoeffs K = some e) (hvel : ∀ t ∈ Set.Icc 0 T, HasBoundary vmesh masks bcs none (u t))
    (hu : ∀ j l, ContDiff ℝ (K + 1) (fun t => u t j l)) {G : Vel ℝ 2 → Vel ℝ 2}
    (hlip : ∀ R, ∃ L, 0 ≤ L ∧ ∀ x y : Vel ℝ 2, ‖massCoord sem x‖ ≤ R → ‖massCoord sem y‖ ≤ R →
      ‖massCoord sem (G x - G y)‖ ≤ L * ‖massCoord sem (x - y)‖) :
    ∃ A M, 0 ≤ A ∧ 0 ≤ M ∧ ∀ (dt : ℝ) (n : ℕ) (U : ℕ → Vel ℝ 2), 0 < dt → ((n : ℝ) + (K + 1 : ℕ)) * dt ≤ T →
      (∀ i < K + 1, U (n + i) - u ((n + i : ℕ) * dt) ∈ TSpace sem ∧ ‖massCoord sem (U (n + i) - u ((n + i : ℕ) * dt))‖ ≤ 1) →
      ‖massCoord sem (-(∑ i : Fin (K + 1), e i • sem.C (U (n + i))) + G (U (n + K)) -
          (-sem.C (u ((n + (K + 1 : ℕ)) * dt)) + G (u ((n + (K + 1 : ℕ)) * dt))) -
          (G (u ((n + K : ℕ) * dt)) - G (u ((n + (K + 1 : ℕ)) * dt))))‖ ≤
        A * ∑ i ∈ Finset.range (K + 1), ‖massCoord sem (U (n + i) - u ((n + i : ℕ) * dt))‖ + M * dt ^ (K + 1) := by
  obtain ⟨_, _, hvm, hpm, _, _, _⟩ := H.fields
  have hnum : sem.numV = vmesh.numNodes := by unfold StokesSEM.numV; rw [hvm]
  obtain ⟨R, hR0, hR⟩ := flow_bounded (sem := sem) (fun j l => (hu j l).continuous) T
  obtain ⟨LC, hLC0, hLC⟩ := C_lip H (R + 1)
  obtain ⟨LG, hLG0, hLG⟩ := hlip (R + 1)
  obtain ⟨ME, hME0, hME⟩ := advection_trunc H hK he hu T
  obtain ⟨Es, hEs⟩ : ∃ E, E = ∑ i : Fin (K + 1), |e i| := ⟨_, rfl⟩
  have hE0 : 0 ≤ Es := by rw [hEs]; positivity
  refine ⟨Es * LC + LG, ME, by positivity, hME0, fun dt n U hdt hnT hsm => ?_⟩
  have htime : ∀ i < K + 1, ((n + i : ℕ) : ℝ) * dt ∈ Set.Icc 0 T := by
    intro i hi
    refine ⟨by positivity, le_trans ?_ hnT⟩
    have : ((n + i : ℕ) : ℝ) ≤ n + (K + 1 : ℕ) := by exact_mod_cast (by omega)
    nlinarith
  have hus : ∀ i < K + 1, ‖massCoord sem (u ((n + i : ℕ) * dt))‖ ≤ R := fun i hi => hR _ (htime _ hi)
  have hUs : ∀ i < K + 1, ‖massCoord sem (U (n + i))‖ ≤ R + 1 := by
    intro i hi
    have h1 := norm_add_le (massCoord sem (U (n + i) - u ((n + i : ℕ) * dt))) (massCoord sem (u ((n + i : ℕ) * dt)))
    rw [← map_add, sub_add_cancel] at h1
    linarith [hus i hi, (hsm i hi).2]
  have hout : ∀ i < K + 1, ∀ j, sem.numV ≤ j → u ((n + i : ℕ) * dt) j = 0 := fun i hi j hj =>
    (hvel _ (htime _ hi)).outside j (by omega)
  have hUout : ∀ i < K + 1, ∀ j, sem.numV ≤ j → U (n + i) j = 0 := by
    intro i hi j hj
    have h1 := (hsm i hi).1.1 j (Or.inl hj)
    rw [Pi.sub_apply, hout i hi j hj, sub_zero] at h1
    exact h1
  have hA : ‖massCoord sem (∑ i : Fin (K + 1), e i • (sem.C (U (n + i)) - sem.C (u ((n + i : ℕ) * dt))))‖ ≤
      Es * LC * ∑ i ∈ Finset.range (K + 1), ‖massCoord sem (U (n + i) - u ((n + i : ℕ) * dt))‖ := by
    rw [map_sum]
    refine (norm_sum_le _ _).trans ?_
    rw [Finset.sum_range, hEs, Finset.sum_mul, Finset.sum_mul]
    refine Finset.sum_le_sum fun i _ => ?_
    rw [map_smul, norm_smul, Real.norm_eq_abs, mul_assoc]
    refine mul_le_mul_of_nonneg_left ?_ (abs_nonneg _)
    refine (hLC _ _ (hUout i i.2) (hout i i.2) (hUs i i.2) ((hus i i.2).trans (by linarith))).trans ?_
    refine mul_le_mul_of_nonneg_left ?_ hLC0
    exact Finset.single_le_sum (f := fun i : Fin (K + 1) => ‖massCoord sem (U (n + i) - u ((n + i : ℕ) * dt))‖)
      (fun _ _ => norm_nonneg _) (Finset.mem_univ i)
  have hB := hME dt n hdt hnT
  have hG : ‖massCoord sem (G (U (n + K)) - G (u ((n + K : ℕ) * dt)))‖ ≤
      LG * ∑ i ∈ Finset.range (K + 1), ‖massCoord sem (U (n + i) - u ((n + i : ℕ) * dt))‖ := by
    refine (hLG _ _ (hUs K (by omega)) ((hus K (by omega)).trans (by linarith))).trans (mul_le_mul_of_nonneg_left ?_ hLG0)
    exact Finset.single_le_sum (f := fun i => ‖massCoord sem (U (n + i) - u ((n + i : ℕ) * dt))‖)
      (fun _ _ => norm_nonneg _) (Finset.mem_range.mpr (Nat.lt_succ_self K))
  obtain ⟨t, ht⟩ : ∃ t, t = ((n : ℝ) + (K + 1 : ℕ)) * dt := ⟨_, rfl⟩
  rw [← ht] at hB ⊢
  have hsplit : -(∑ i : Fin (K + 1), e i • sem.C (U (n + i))) + G (U (n + K)) - (-sem.C (u t) + G (u t)) -
      (G (u ((n + K : ℕ) * dt)) - G (u t)) =
      -(∑ i : Fin (K + 1), e i • (sem.C (U (n + i)) - sem.C (u ((n + i : ℕ) * dt)))) -
        (∑ i : Fin (K + 1), e i • sem.C (u (((n + i : ℕ) : ℝ) * dt)) - sem.C (u t)) +
        (G (U (n + K)) - G (u ((n + K : ℕ) * dt))) := by
    simp only [smul_sub, Finset.sum_sub_distrib]
    abel
  rw [hsplit, map_add, map_sub, map_neg]
  refine (norm_add_le _ _).trans ((add_le_add ((norm_sub_le _ _).trans (add_le_add (le_of_eq (norm_neg _)) le_rfl)) le_rfl).trans ?_)
  linarith

/-- The load of the steps of a rollout. -/
noncomputable def nsLoad (sem : StokesSEM ℝ 2) (wave : ℝ → ℝ) (drag : ℝ) (Φ : Vel ℝ 2 → Vel ℝ 2) {K : ℕ} (e : Fin (K + 1) → ℝ)
    (U : ℕ → Vel ℝ 2) (m : ℕ) : Vel ℝ 2 :=
  -(∑ i : Fin (K + 1), e i • sem.C (U (m + i))) + lagged sem wave drag Φ (U (m + K))

theorem nsLoad_mem (H : StokesSetup vmesh pmesh quad overQuad masks bcs sem) {drag : ℝ} {K : ℕ} {e : Fin (K + 1) → ℝ}
    {U : ℕ → Vel ℝ 2} (m : ℕ) : nsLoad sem wave drag Φ e U m ∈ VSpace sem :=
  (VSpace sem).add_mem ((VSpace sem).neg_mem ((VSpace sem).sum_mem fun i _ => (VSpace sem).smul_mem _ (C_mem _)))
    (B_mem H.massOutside)

/-- Convergence of the order of the lagged terms, at most `min(k, 3)`. -/
theorem nsRun_conv (S : StepSetup vmesh pmesh quad overQuad masks bcs sem low 0 true) {K : ℕ}
    (hK : 1 ≤ K) (hK5 : K ≤ 5) (hRe : 0 < c.reynolds) (hT : 0 < T)
    (hflow : NSFlow vmesh pmesh masks bcs sem wave c Φ T u p) {e : Fin (K + 1) → ℝ} (he : extkCoeffs K = some e)
    (hu : ∀ j l, ContDiff ℝ (K + 2) (fun t => u t j l)) (hp : ∀ j, ContDiff ℝ 2 (fun t => p t j)) {r : ℕ} (hr1 : 1 ≤ r)
    (hr : r ≤ min (K + 1) 3)
    (hlip : ∀ R, ∃ L, 0 ≤ L ∧ ∀ x y : Vel ℝ 2, ‖massCoord sem x‖ ≤ R → ‖massCoord sem y‖ ≤ R →
      ‖massCoord sem (lagged sem wave c.drag Φ x - lagged sem wave c.drag Φ y)‖ ≤ L * ‖massCoord sem (x - y)‖)
    (hlag : ∃ M, 0 ≤ M ∧ ∀ t dt, 0 < dt → dt ≤ 1 → 0 ≤ t → t + dt ≤ T →
      ‖massCoord sem (lagged sem wave c.drag Φ (u t) - lagged sem wave c.drag Φ (u (t + dt)))‖ ≤ M * dt ^ r) :
    ∃ C dt0 δ, 0 < C ∧ 0 < dt0 ∧ dt0 ≤ 1 ∧ 0 < δ ∧ ∀ (dt : ℝ) (N : ℕ) (U : ℕ → Vel ℝ 2) (P : ℕ → ℕ → ℝ)
      (older : ℕ → List (ℕ → ℝ)) (ε Γ : ℝ), 0 < dt → dt ≤ dt0 → (N + (K + 1 : ℕ)) * dt ≤ T → 0 ≤ Γ → 0 ≤ ε →
      ε ≤ δ → dt ^ 2 * Γ ≤ δ →
      (∀ i < K + 1, HasBoundary vmesh masks bcs none (U i) ∧ (∀ j, sem.D (U i) j = 0) ∧
        ∀ j < vmesh.numNodes, ∀ l, |U i j l - u (i * dt) j l| ≤ ε) →
      (∀ m < 2, ∀ j < pmesh.numNodes, |P m j - p ((m + (K + 1 : ℕ) - 2) * dt) j| ≤ Γ) →
      StokesRun sem low 0 (1 / c.reynolds) dt (K + 1) true (nsLoad sem wave c.drag Φ e U) (fun _ => none) older U P N →
      (∀ n ≤ N + (K + 1), U n - u (n * dt) ∈ TSpace sem ∧ sem.D (U n) = 0) ∧
      ∀ n ≤ N, ‖massCoord sem (U (n + (K + 1)) - u ((n + (K + 1) : ℕ) * dt))‖ ≤ C * (ε + dt ^ 2 * Γ + dt ^ r) ∧
        ‖gradCoord sem (P (n + 2) - p ((n + (K + 1 : ℕ)) * dt))‖ ≤ C * (ε + dt * Γ + dt ^ r) := by
  have H := S.setup
  obtain ⟨_, _, hvm, hpm, _, _, _⟩ := H.fields
  obtain ⟨A, M, hA0, hM0, hrest⟩ := load_rest H hK he hflow.velocity
    (fun j l => (hu j l).of_le (by exact_mod_cast Nat.le_succ (K + 1))) hlip
  obtain ⟨LQ, hLQ0, hLQ⟩ := load_bound H
  obtain ⟨ML, hML0, hML⟩ := hlag
  obtain ⟨Q, hQ⟩ : ∃ Q, Q = LQ * (M + ML) := ⟨_, rfl⟩
  have hQ0 : 0 ≤ Q := by rw [hQ]; positivity
  obtain ⟨C, dt0, δ, hC, hdt0, hdt01, hδ, hconv⟩ := explicit_conv (k := K + 1) S (one_div_pos.mpr hRe).le (by omega) (by omega) hT
    (hflow.stokes H) (by exact_mod_cast hu) hp (Lam := LQ * A) (by positivity)
  refine ⟨C * (2 + Q), min dt0 (δ / (Q + 1)), δ, by positivity, by positivity, (min_le_left _ _).trans hdt01, hδ, ?_⟩
  intro dt N U P older ε Γ hdt hdt' hN hΓ hε hεδ hΓδ hsu hsp hrun
  have hdta := hdt'.trans (min_le_left _ _)
  have hdt1 := hdta.trans hdt01
  have hdtb := hdt'.trans (min_le_right _ _)
  have hpow : dt ^ (K + 1) ≤ dt ^ r := pow_le_pow_of_le_one hdt.le hdt1 (hr.trans (min_le_left _ _))
  have hpow3 : dt ^ min (K + 1) 3 ≤ dt ^ r := pow_le_pow_of_le_one hdt.le hdt1 hr
  have hpow1 : dt ^ r ≤ dt := by simpa using pow_le_pow_of_le_one hdt.le hdt1 hr1
  have hr0 : 0 ≤ dt ^ r := by positivity
  have hthe : Q * dt ^ r ≤ δ := by
    have h1 : (Q + 1) * dt ≤ δ := by rw [mul_comm]; exact (le_div_iff₀ (by positivity)).mp hdtb
    have h2 := mul_le_mul_of_nonneg_left hpow1 hQ0
    linarith
  have hload : ∀ n ≤ N, (∀ i < K + 1, U (n + i) - u ((n + i : ℕ) * dt) ∈ TSpace sem ∧
      ‖massCoord sem (U (n + i) - u ((n + i : ℕ) * dt))‖ ≤ 1) →
      ‖massCoord sem (sem.Q 1 1 (nsLoad sem wave c.drag Φ e U n -
        (-sem.C (u ((n + (K + 1 : ℕ)) * dt)) + lagged sem wave c.drag Φ (u ((n + (K + 1 : ℕ)) * dt)))))‖ ≤
      LQ * A * ∑ i ∈ Finset.range (K + 1), ‖massCoord sem (U (n + i) - u ((n + i : ℕ) * dt))‖ + Q * dt ^ r := by
    intro n hn hsm
    have hnT : ((n : ℝ) + (K + 1 : ℕ)) * dt ≤ T := by
      have : (n : ℝ) ≤ N := by exact_mod_cast hn
      nlinarith
    have h1 := hrest dt n U hdt hnT hsm
    have h2 := hML ((n + K : ℕ) * dt) dt hdt hdt1 (by positivity) (by push_cast at hnT ⊢; linarith)
    rw [show ((n + K : ℕ) : ℝ) * dt + dt = ((n : ℝ) + (K + 1 : ℕ)) * dt by push_cast; ring] at h2
    refine (hLQ _ fun j hj => ((VSpace sem).sub_mem (nsLoad_mem H n)
      ((VSpace sem).add_mem ((VSpace sem).neg_mem (C_mem _)) (B_mem H.massOutside))) j (Or.inl hj)).trans ?_
    have h3 := norm_add_le (massCoord sem (nsLoad sem wave c.drag Φ e U n -
        (-sem.C (u ((n + (K + 1 : ℕ)) * dt)) + lagged sem wave c.drag Φ (u ((n + (K + 1 : ℕ)) * dt))) -
        (lagged sem wave c.drag Φ (u ((n + K : ℕ) * dt)) - lagged sem wave c.drag Φ (u ((n + (K + 1 : ℕ)) * dt)))))
      (massCoord sem (lagged sem wave c.drag Φ (u ((n + K : ℕ) * dt)) - lagged sem wave c.drag Φ (u ((n + (K + 1 : ℕ)) * dt))))
    rw [← map_add, sub_add_cancel] at h3
    have h4 := mul_le_mul_of_nonneg_left (h3.trans (add_le_add h1 h2)) hLQ0
    refine h4.trans ?_
    have h5 := mul_le_mul_of_nonneg_left (mul_le_mul_of_nonneg_left hpow hM0) hLQ0
    rw [hQ]
    linarith
  obtain ⟨hall, key⟩ := hconv dt N U P (nsLoad sem wave c.drag Φ e U) older ε Γ (Q * dt ^ r) hdt hdta hN hΓ (by positivity) hε hεδ hΓδ hthe
    hsu hsp (fun n _ => nsLoad_mem H n) hload hrun
  refine ⟨hall, fun n hn => ⟨(key n hn).1.trans ?_, (key n hn).2.trans ?_⟩⟩
  · rw [mul_assoc C]
    refine mul_le_mul_of_nonneg_left ?_ hC.le
    have h3 : 0 ≤ dt ^ 2 * Γ := by positivity
    have h4 := mul_nonneg hQ0 hε
    have h5 := mul_nonneg hQ0 h3
    linarith
  · rw [mul_assoc C]
    refine mul_le_mul_of_nonneg_left ?_ hC.le
    have h3 : 0 ≤ dt * Γ := by positivity
    have h4 := mul_nonneg hQ0 hε
    have h5 := mul_nonneg hQ0 h3
    linarith

theorem rollout_conv (S : StepSetup vmesh pmesh quad overQuad masks bcs sem low 0 true) {K : ℕ} (hk : c.timeOrder = K + 1)
    (hK : 1 ≤ K) (hK5 : K ≤ 5) (hRe : 0 < c.reynolds) (halpha : c.alpha = 0) (hatol : c.atol = 0) (hT : 0 < T)
    (hΦ : ClosureIs c vmesh net Φ) (hflow : NSFlow vmesh pmesh masks bcs sem wave c Φ T u p)
    (hu : ∀ j l, ContDiff ℝ (K + 2) (fun t => u t j l)) (hp : ∀ j, ContDiff ℝ 2 (fun t => p t j)) {r : ℕ} (hr1 : 1 ≤ r)
    (hr : r ≤ min (K + 1) 3)
    (hlip : ∀ R, ∃ L, 0 ≤ L ∧ ∀ x y : Vel ℝ 2, ‖massCoord sem x‖ ≤ R → ‖massCoord sem y‖ ≤ R →
      ‖massCoord sem (lagged sem wave c.drag Φ x - lagged sem wave c.drag Φ y)‖ ≤ L * ‖massCoord sem (x - y)‖)
    (hlag : ∃ M, 0 ≤ M ∧ ∀ t dt, 0 < dt → dt ≤ 1 → 0 ≤ t → t + dt ≤ T →
      ‖massCoord sem (lagged sem wave c.drag Φ (u t) - lagged sem wave c.drag Φ (u (t + dt)))‖ ≤ M * dt ^ r) :
    RolloutConvergence vmesh pmesh masks bcs sem low wave c net T u p r := by
  have H := S.setup
  obtain ⟨_, _, hvm, hpm, _, _, _⟩ := H.fields
  have hnum : sem.numV = vmesh.numNodes := by unfold StokesSEM.numV; rw [hvm]
  obtain ⟨e, he, _⟩ := extk_exists (K := ℝ) K hK
  obtain ⟨C, dt0, δ, hC, hdt0, _, hδ, hconv⟩ := nsRun_conv (c := c) S hK hK5 hRe hT hflow he hu hp hr1 hr hlip hlag
  obtain ⟨a, ha, ha1, _⟩ := massCoord_bound_entries (sem := sem) H.massPos'
  refine ⟨a * C, dt0, δ, by positivity, by positivity, hδ, ?_⟩
  intro dt n ex ε Γ preds targets kl0 klp hdt hdt' hn hε hΓ hεδ hΓδ hsu hsp hroll i hi j hj l
  obtain ⟨N, rfl⟩ : ∃ N, n = N + 1 := ⟨n - 1, by omega⟩
  rw [hk] at hn hsu hsp
  have hN : ((N : ℝ) + (K + 1 : ℕ)) * dt ≤ T := by
    refine le_trans (le_of_eq ?_) hn
    push_cast
    ring
  obtain ⟨U, P, older, hU0, hU1, hP0, _, _, hrun⟩ := rollout_run (c := { c with dt := dt }) (vmesh := vmesh) (Φ := Φ) hvm hk hK
    halpha hatol he hΦ hroll
  obtain ⟨_, key⟩ := hconv dt N U P older ε Γ hdt hdt' hN hΓ hε hεδ hΓδ (fun i hi => by rw [hU0 i hi]; exact hsu i hi)
    (fun m hm j hj => by
      have h1 := hsp (m + K - 1) (by omega) (by omega) j hj
      rw [hP0 m hm]
      have : ((m + K - 1 : ℕ) : ℝ) = (m : ℝ) + (K + 1 : ℕ) - 2 := by
        rw [Nat.cast_sub (by omega)]
        push_cast
        ring
      rw [← this]
      exact h1) hrun
  have h1 := ha1 (U (i + (K + 1)) - u ((i + (K + 1) : ℕ) * dt)) j (by omega) l
  have h2 := h1.trans (mul_le_mul_of_nonneg_left (key i (by omega)).1 ha.le)
  rw [add_comm i, hU1 i hi, ← mul_assoc] at h2
  rw [hk]
  exact h2

/-- The velocity of a flow is Lipschitz continuous in time. -/
theorem flow_lip (H : StokesSetup vmesh pmesh quad overQuad masks bcs sem) (hu : ∀ j l, ContDiff ℝ 1 (fun t => u t j l)) (T : ℝ) :
    ∃ L, 0 ≤ L ∧ ∀ s ∈ Set.Icc 0 T, ∀ t ∈ Set.Icc 0 T, ‖massCoord sem (u s - u t)‖ ≤ L * |s - t| := by
  obtain ⟨c, hc, _, hc2⟩ := massCoord_bound_entries (sem := sem) H.massPos'
  have h := fun j l => (isCompact_Icc (a := (0 : ℝ)) (b := T)).exists_bound_of_continuousOn
    ((hu j l).continuous_deriv le_rfl).continuousOn
  choose M hM using h
  obtain ⟨R, hR⟩ : ∃ R, R = ∑ j ∈ Finset.range sem.numV, ∑ l, |M j l| := ⟨_, rfl⟩
  have hR0 : 0 ≤ R := by rw [hR]; positivity
  refine ⟨c * R, by positivity, fun s hs t ht => ?_⟩
  rw [mul_assoc]
  refine hc2 _ _ (fun j hj l => ?_) (by positivity)
  have hMR : |M j l| ≤ R := by
    rw [hR]
    refine le_trans ?_ (Finset.single_le_sum (f := fun j => ∑ l, |M j l|) (fun _ _ => Finset.sum_nonneg fun _ _ => abs_nonneg _)
      (Finset.mem_range.mpr hj))
    exact Finset.single_le_sum (f := fun l => |M j l|) (fun _ _ => abs_nonneg _) (Finset.mem_univ l)
  have h1 := (convex_Icc (0 : ℝ) T).norm_image_sub_le_of_norm_deriv_le (f := fun t => u t j l) (C := R)
    (fun x _ => (hu j l).differentiable (by norm_num) x) (fun x hx => (hM j l x hx).trans ((le_abs_self _).trans hMR)) ht hs
  exact h1

theorem lagged_trunc (H : StokesSetup vmesh pmesh quad overQuad masks bcs sem) (hL : LipschitzOnBounded vmesh Φ) {drag : ℝ}
    (hu : ∀ j l, ContDiff ℝ 1 (fun t => u t j l)) (T : ℝ) :
    ∃ M, 0 ≤ M ∧ ∀ s ∈ Set.Icc 0 T, ∀ t ∈ Set.Icc 0 T,
      ‖massCoord sem (lagged sem wave drag Φ (u s) - lagged sem wave drag Φ (u t))‖ ≤ M * |s - t| := by
  obtain ⟨R, hR0, hR⟩ := flow_bounded (sem := sem) (fun j l => (hu j l).continuous) T
  obtain ⟨L1, hL1, h1⟩ := lagged_lip (wave := wave) H hL drag R
  obtain ⟨L2, hL2, h2⟩ := flow_lip H hu T
  refine ⟨L1 * L2, by positivity, fun s hs t ht => ?_⟩
  rw [mul_assoc]
  exact (h1 _ _ (hR s hs) (hR t ht)).trans (mul_le_mul_of_nonneg_left (h2 s hs t ht) hL1)

/-- Rollouts converge with order one. Missing: the order `config.time_order`, which is false (`C104_violated`), the filter, other
orders and solves with tolerances. -/
theorem C104_partial (S : StepSetup vmesh pmesh quad overQuad masks bcs sem low 0 true) {K : ℕ} (hk : c.timeOrder = K + 1)
    (hK : 1 ≤ K) (hK5 : K ≤ 5) (hRe : 0 < c.reynolds) (halpha : c.alpha = 0) (hatol : c.atol = 0) (hT : 0 < T)
    (hΦ : ClosureIs c vmesh net Φ) (hL : LipschitzOnBounded vmesh Φ) (hflow : NSFlow vmesh pmesh masks bcs sem wave c Φ T u p)
    (hu : ∀ j l, ContDiff ℝ (K + 2) (fun t => u t j l)) (hp : ∀ j, ContDiff ℝ 2 (fun t => p t j)) :
    RolloutConvergence vmesh pmesh masks bcs sem low wave c net T u p 1 := by
  have H := S.setup
  have hu1 : ∀ j l, ContDiff ℝ 1 (fun t => u t j l) := fun j l => (hu j l).of_le (by exact_mod_cast (by omega : 1 ≤ K + 2))
  refine rollout_conv S hk hK hK5 hRe halpha hatol hT hΦ hflow hu hp le_rfl (by omega) (lagged_lip H hL c.drag) ?_
  obtain ⟨M, hM, h⟩ := lagged_trunc (wave := wave) (drag := c.drag) H hL hu1 T
  refine ⟨M, hM, fun t dt hdt _ ht hT' => ?_⟩
  have := h t ⟨ht, by linarith⟩ (t + dt) ⟨by linarith, hT'⟩
  rwa [show |t - (t + dt)| = dt ^ 1 by rw [pow_one, sub_add_cancel_left, abs_neg, abs_of_pos hdt]] at this

/-- Without drag and with a constant closure term the order is `min(config.time_order, 3)`. -/
theorem C104_order (S : StepSetup vmesh pmesh quad overQuad masks bcs sem low 0 true) {K : ℕ} (hk : c.timeOrder = K + 1)
    (hK : 1 ≤ K) (hK5 : K ≤ 5) (hRe : 0 < c.reynolds) (halpha : c.alpha = 0) (hatol : c.atol = 0) (hT : 0 < T)
    (hΦ : ClosureIs c vmesh net Φ) (hdrag : c.drag = 0) (hconst : ∀ x y, Φ x = Φ y)
    (hflow : NSFlow vmesh pmesh masks bcs sem wave c Φ T u p)
    (hu : ∀ j l, ContDiff ℝ (K + 2) (fun t => u t j l)) (hp : ∀ j, ContDiff ℝ 2 (fun t => p t j)) :
    RolloutConvergence vmesh pmesh masks bcs sem low wave c net T u p (min (K + 1) 3) := by
  have hG : ∀ x y, lagged sem wave c.drag Φ x - lagged sem wave c.drag Φ y = 0 := by
    intro x y
    funext j l
    simp [lagged, StokesSEM.B, kolmogorov, hdrag, hconst x y]
  refine rollout_conv S hk hK hK5 hRe halpha hatol hT hΦ hflow hu hp (by omega) le_rfl (fun R => ⟨0, le_rfl, fun x y _ _ => ?_⟩)
    ⟨0, le_rfl, fun t dt _ _ _ _ => ?_⟩
  · rw [hG, map_zero, norm_zero, zero_mul]
  · rw [hG, map_zero, norm_zero, zero_mul]

/-- Rollouts exist from every window that is long enough. -/
theorem rollout_exists (S : StepSetup vmesh pmesh quad overQuad masks bcs sem low 0 true) {K : ℕ} (hk : c.timeOrder = K + 1)
    (hK : 1 ≤ K) (hRe : 0 < c.reynolds) (hdt : 0 < c.dt) (halpha : c.alpha = 0) (hatol : c.atol = 0)
    (hΦ : ClosureIs c vmesh net Φ) (n : ℕ) (ex : Example ℝ) (hu : c.timeOrder + n ≤ ex.u.length) (hp : c.timeOrder ≤ ex.p.length) :
    ∃ preds targets kl0 klp, rollout low wave c sem net n ex = .ok (preds, targets, kl0, klp) := by
  obtain ⟨_, _, hvm, _⟩ := S.setup.fields
  obtain ⟨⟨s, preds⟩, hs⟩ := scanBody_ok (wave := wave) S K hk hK hRe hdt halpha hatol
    (fun i u => by rw [hvm]; obtain ⟨q, hq⟩ := hΦ i u; exact ⟨_, hq⟩) n
    ⟨0, ex.u.take c.timeOrder, ex.p.take c.timeOrder, (ex.u.take c.timeOrder).map sem.C, 0, 0⟩
    (by simp; omega) (by simp; omega) rfl
  refine ⟨preds, (ex.u.drop c.timeOrder).take n, s.klQ0, s.klPath, ?_⟩
  unfold rollout
  rw [if_neg (by omega)]
  simp only [hs]
  rw [if_neg (by omega)]

/-- The window sampled from a flow. -/
noncomputable def sampled (u : ℝ → Vel ℝ 2) (p : ℝ → ℕ → ℝ) (dt : ℝ) (n : ℕ) : Example ℝ :=
  ⟨List.ofFn fun i : Fin n => u (i * dt), List.ofFn fun i : Fin n => p (i * dt)⟩

/-- Rollouts from windows that are sampled from a flow succeed, and the loss of every frame decreases with the time step. -/
theorem C104_loss (S : StepSetup vmesh pmesh quad overQuad masks bcs sem low 0 true) {K : ℕ} (hk : c.timeOrder = K + 1)
    (hK : 1 ≤ K) (hRe : 0 < c.reynolds) (halpha : c.alpha = 0) (hatol : c.atol = 0) (hΦ : ClosureIs c vmesh net Φ)
    (hflow : NSFlow vmesh pmesh masks bcs sem wave c Φ T u p) {r : ℕ}
    (hconv : RolloutConvergence vmesh pmesh masks bcs sem low wave c net T u p r) :
    ∃ C dt0, 0 < C ∧ 0 < dt0 ∧ ∀ (dt : ℝ) (n : ℕ), 0 < dt → dt ≤ dt0 → (n + c.timeOrder - 1) * dt ≤ T →
      ∃ preds targets kl0 klp, rollout low wave { c with dt := dt } sem net n (sampled u p dt (c.timeOrder + n)) =
          .ok (preds, targets, kl0, klp) ∧
        ∀ i < n, frameLoss sem (preds.getD i 0) (targets.getD i 0) ≤ C * dt ^ (2 * r) := by
  obtain ⟨_, _, hvm, hpm, _, _, _⟩ := S.setup.fields
  have hnum : sem.numV = vmesh.numNodes := by unfold StokesSEM.numV; rw [hvm]
  obtain ⟨C, dt0, δ, hC, hdt0, hδ, h⟩ := hconv
  refine ⟨sem.numV * C ^ 2 + 1, dt0, by positivity, hdt0, fun dt n hdt hdt' hn => ?_⟩
  obtain ⟨preds, targets, kl0, klp, hroll⟩ := rollout_exists (c := { c with dt := dt }) (wave := wave) S hk hK hRe hdt halpha hatol hΦ n
    (sampled u p dt (c.timeOrder + n)) (by simp [sampled]) (by simp [sampled])
  refine ⟨preds, targets, kl0, klp, hroll, fun i hi => ?_⟩
  have hget : ∀ i < c.timeOrder + n, (sampled u p dt (c.timeOrder + n)).u.getD i 0 = u (i * dt) := by
    intro i hi
    rw [List.getD_eq_getElem _ _ (by simpa [sampled] using hi)]
    simp [sampled]
  have hgetp : ∀ i < c.timeOrder + n, (sampled u p dt (c.timeOrder + n)).p.getD i 0 = p (i * dt) := by
    intro i hi
    rw [List.getD_eq_getElem _ _ (by simpa [sampled] using hi)]
    simp [sampled]
  have htime : ∀ i < c.timeOrder + n, (i : ℝ) * dt ∈ Set.Icc 0 T := by
    intro i hi
    refine ⟨by positivity, le_trans ?_ hn⟩
    have : (i : ℝ) + 1 ≤ c.timeOrder + n := by exact_mod_cast hi
    nlinarith
  have key := h dt n (sampled u p dt (c.timeOrder + n)) 0 0 preds targets kl0 klp hdt hdt' hn le_rfl le_rfl hδ.le (by simpa using hδ.le)
    (fun i hi => by
      rw [hget i (by omega)]
      exact ⟨hflow.velocity _ (htime i (by omega)), hflow.divergence _ (htime i (by omega)), fun j _ l => by simp⟩)
    (fun i hi _ j _ => by rw [hgetp i (by omega)]; simp) hroll i hi
  have htar : targets.getD i 0 = u ((c.timeOrder + i : ℕ) * dt) := by
    obtain ⟨_, _, h1, _⟩ := C72_window (c := { c with dt := dt }) (by simp only; omega) hroll
    rw [List.getD_eq_getElem?_getD, h1 i hi, ← List.getD_eq_getElem?_getD]
    exact hget (c.timeOrder + i) (by omega)
  rw [htar]
  unfold frameLoss
  have h1 : ∀ j ∈ Finset.range sem.numV, ∑ l : Fin 2, (1 / 2) * (preds.getD i 0 j l - u ((c.timeOrder + i : ℕ) * dt) j l) ^ 2 ≤
      C ^ 2 * dt ^ (2 * r) := by
    intro j hj
    have h2 : ∀ l, (preds.getD i 0 j l - u ((c.timeOrder + i : ℕ) * dt) j l) ^ 2 ≤ C ^ 2 * dt ^ (2 * r) := by
      intro l
      have h3 := key j (by rw [← hnum]; exact Finset.mem_range.mp hj) l
      simp only [mul_zero, add_zero, zero_add] at h3
      rw [← sq_abs]
      refine (pow_le_pow_left₀ (abs_nonneg _) h3 2).trans (le_of_eq ?_)
      ring
    rw [Fin.sum_univ_two]
    linarith [h2 0, h2 1]
  refine (Finset.sum_le_sum h1).trans ?_
  rw [Finset.sum_const, Finset.card_range, nsmul_eq_mul]
  have : 0 ≤ dt ^ (2 * r) := by positivity
  linarith

end Verif.Niles
