import Verif.Lemmas.StokesConv
import Verif.Lemmas.TimeTrunc
import Verif.Lemmas.CubeMass
import Verif.Props.C62

/-!
# C103: convergence of the Stokes steps in time

On a fixed mesh the velocities computed by repeated calls of `stokes_one_step` with exact solves and without the filter
converge to the solution of the semi-discrete Stokes equations: the error is of the order of the error of the starting values
plus `dt ^ min(k, 3)`, where `k` is the order of the backward differences (the pressure is extrapolated linearly whatever
`k`). This holds for `k ≤ 6`; with `k = 7`, or with the filter, there is no convergence.
-/

set_option linter.unusedSectionVars false

namespace Verif.NS

open Verif.Core Verif.Linalg Verif.Spec

variable {d : ℕ} {sem : StokesSEM ℝ d}
  {vmesh pmesh : Mesh ℝ d} {quad overQuad : Quadrature1D ℝ} {masks : List (String × (ℕ → Bool))}
  {bcs : List (String × BCType)} {low : Nodes1D ℝ} {mu : ℝ} {k : ℕ} {project : Bool}

/-- A velocity that lives on the nodes, agrees on copies and takes the given boundary values. -/
structure HasBoundary (vmesh : Mesh ℝ d) (masks : List (String × (ℕ → Bool))) (bcs : List (String × BCType))
    (ub : Option (Vel ℝ d)) (u : Vel ℝ d) : Prop where
  outside : ∀ j, vmesh.numNodes ≤ j → u j = 0
  copies : ∀ i < vmesh.numNodes, ∀ j < vmesh.numNodes, SameNode vmesh i j → u i = u j
  dirichlet : ∀ j < vmesh.numNodes, DirichletNode masks bcs j → u j = ub.getD 0 j

/-- Velocity `u`, pressure `p` solve the semi-discrete Stokes equations on `[0, T]` with the load `f` and the boundary
values `ub`. -/
structure StokesFlow (vmesh pmesh : Mesh ℝ d) (masks : List (String × (ℕ → Bool))) (bcs : List (String × BCType))
    (sem : StokesSEM ℝ d) (mu T : ℝ) (ub : ℝ → Option (Vel ℝ d)) (f u : ℝ → Vel ℝ d) (p : ℝ → ℕ → ℝ) : Prop where
  velocity : ∀ t ∈ Set.Icc 0 T, HasBoundary vmesh masks bcs (ub t) (u t)
  lift : ∀ t ∈ Set.Icc 0 T, (∀ j, vmesh.numNodes ≤ j → (ub t).getD 0 j = 0) ∧
    ∀ i < vmesh.numNodes, ∀ j < vmesh.numNodes, SameNode vmesh i j → (ub t).getD 0 i = (ub t).getD 0 j
  load : ∀ t ∈ Set.Icc 0 T, (∀ j, DirichletNode masks bcs j → f t j = 0) ∧ ∀ j, vmesh.numNodes ≤ j → f t j = 0
  divergence : ∀ t ∈ Set.Icc 0 T, ∀ j, sem.D (u t) j = 0
  momentum : ∀ t ∈ Set.Icc 0 T, ∀ v, HasBoundary vmesh masks bcs none v →
    vMassForm sem.vspace (vGather vmesh (fun j l => deriv (fun s => u s j l) t)) (vGather vmesh v) +
      mu * vStiffForm sem.vspace (vGather vmesh (u t)) (vGather vmesh v) =
    ∑ j ∈ Finset.range vmesh.numNodes, ∑ l, v j l * f t j l +
      integrate sem.vspace (fun m q => divFn sem.vspace (vGather vmesh v) m q * scalarFn sem.pspace (pmesh.gather (p t)) m q)

theorem mem_TSpace_iff (H : StokesSetup vmesh pmesh quad overQuad masks bcs sem) (v : Vel ℝ d) :
    v ∈ TSpace sem ↔ HasBoundary vmesh masks bcs none v := by
  obtain ⟨_, _, hvm, _⟩ := H.fields
  constructor
  · intro h
    obtain ⟨h1, h2⟩ := (H.mem_VSpace v).mp h.1
    refine ⟨h2, fun i hi j hj hs => ?_, fun j _ hD => h1 j hD⟩
    funext l
    have := h.2 l
    rw [hvm] at this
    exact this i hi j hj hs
  · intro h
    refine ⟨(H.mem_VSpace v).mpr ⟨fun j hj => ?_, h.outside⟩, fun l => ?_⟩
    · by_cases hlt : j < vmesh.numNodes
      · exact h.dirichlet j hlt hj
      · exact h.outside j (not_lt.mp hlt)
    · rw [hvm]
      intro i hi j hj hs
      exact congrFun (h.copies i hi j hj hs) l

/-- The difference of two velocities with the same boundary values. -/
theorem sub_mem_TSpace (H : StokesSetup vmesh pmesh quad overQuad masks bcs sem) {ub : Option (Vel ℝ d)} {u v : Vel ℝ d}
    (hu : HasBoundary vmesh masks bcs ub u) (hv : HasBoundary vmesh masks bcs ub v) : u - v ∈ TSpace sem := by
  refine (mem_TSpace_iff H _).mpr ⟨fun j hj => ?_, fun i hi j hj hs => ?_, fun j hj hD => ?_⟩
  · rw [Pi.sub_apply, hu.outside j hj, hv.outside j hj, sub_zero]
  · rw [Pi.sub_apply, Pi.sub_apply, hu.copies i hi j hj hs, hv.copies i hi j hj hs]
  · rw [Pi.sub_apply, hu.dirichlet j hj hD, hv.dirichlet j hj hD, sub_self]
    rfl

variable {T : ℝ} {ub : ℝ → Option (Vel ℝ d)} {f u : ℝ → Vel ℝ d} {p : ℝ → ℕ → ℝ}

/-- The time derivative on the nodes. -/
noncomputable def timeDeriv (vmesh : Mesh ℝ d) (u : ℝ → Vel ℝ d) (t : ℝ) : Vel ℝ d :=
  fun j l => if j < vmesh.numNodes then deriv (fun s => u s j l) t else 0

/-- Copies have the same time derivative. -/
theorem deriv_copies (hT : 0 < T) {g h : ℝ → ℝ} (hg : Differentiable ℝ g) (hh : Differentiable ℝ h)
    (he : ∀ t ∈ Set.Icc 0 T, g t = h t) {t : ℝ} (ht : t ∈ Set.Icc 0 T) : deriv g t = deriv h t := by
  have hU := uniqueDiffOn_Icc hT t ht
  rw [← (hg t).derivWithin hU, ← (hh t).derivWithin hU]
  exact derivWithin_congr he (he t ht)

theorem bdf_stable (hk : 1 ≤ k) (hk6 : k ≤ 6) {b : Fin (k + 1) → ℝ} (hb : bdfkCoeffs k = some b) :
    ∃ ρ, Stable ρ k ∧ ∀ i : Fin (k + 1), b i = ρ.getD i 0 := by
  interval_cases k
  · exact ⟨_, bdf_stable_1, bdf_values_1 hb⟩
  · exact ⟨_, bdf_stable_2, bdf_values_2 hb⟩
  · exact ⟨_, bdf_stable_3, bdf_values_3 hb⟩
  · exact ⟨_, bdf_stable_4, bdf_values_4 hb⟩
  · exact ⟨_, bdf_stable_5, bdf_values_5 hb⟩
  · exact ⟨_, bdf_stable_6, bdf_values_6 hb⟩

/-- The solution is a reference for the steps. -/
theorem StokesFlow.reference (H : StokesSetup vmesh pmesh quad overQuad masks bcs sem)
    (h : StokesFlow vmesh pmesh masks bcs sem mu T ub f u p) (hT : 0 < T) (hu : ∀ j l, Differentiable ℝ (fun t => u t j l))
    {dt : ℝ} (hdt : 0 < dt) (b : Fin (k + 1) → ℝ) {N : ℕ} (hN : (N + k) * dt ≤ T) :
    Reference sem mu dt b (fun n => f ((n + k) * dt)) (fun n => ub ((n + k) * dt)) (fun n => u (n * dt))
      (fun n => timeDeriv vmesh u ((n + k) * dt)) (fun m => p ((m + k - 2) * dt)) N := by
  have hv := H.valid
  obtain ⟨_, _, hvm, hpm, _, _, _⟩ := H.fields
  have htime : ∀ n : ℕ, n ≤ N + k → (n : ℝ) * dt ∈ Set.Icc 0 T := by
    intro n hn
    refine ⟨by positivity, le_trans ?_ hN⟩
    have : (n : ℝ) ≤ N + k := by exact_mod_cast hn
    nlinarith
  have htime' : ∀ n ≤ N, ((n : ℝ) + k) * dt ∈ Set.Icc 0 T := by
    intro n hn
    have := htime (n + k) (by omega)
    push_cast at this
    exact this
  have hcop : ∀ t ∈ Set.Icc 0 T, ∀ i < vmesh.numNodes, ∀ j < vmesh.numNodes, SameNode vmesh i j →
      timeDeriv vmesh u t i = timeDeriv vmesh u t j := by
    intro t ht i hi j hj hs
    funext l
    simp only [timeDeriv, if_pos hi, if_pos hj]
    exact deriv_copies hT (hu i l) (hu j l) (fun s hs' => congrFun ((h.velocity s hs').copies i hi j hj hs) l) ht
  refine ⟨fun n hn => (H.mem_VSpace _).mpr (h.load _ (htime' n hn)), fun n hn => ?_, fun n hn => ?_, fun n hn => ?_,
    fun n hn v hvT => ?_⟩
  · have h1 := h.velocity _ (htime' n hn)
    have h2 := h.lift _ (htime' n hn)
    simp only [Nat.cast_add]
    exact sub_mem_TSpace H h1 ⟨h2.1, h2.2, fun j _ _ => rfl⟩
  · funext j
    exact h.divergence _ (htime n hn) j
  · refine (mem_TSpace_iff H _).mpr ⟨fun j hj => ?_, fun i hi j hj hs => ?_, fun j hj hD => ?_⟩
    · funext l
      have e : ∀ i : Fin (k + 1), u (((n + i : ℕ) : ℝ) * dt) j = 0 := fun i =>
        (h.velocity _ (htime (n + i) (by have := i.2; omega))).outside j hj
      simp only [StokesSEM.masked, Pi.sub_apply, Pi.smul_apply, Finset.sum_apply, e, timeDeriv, if_neg (not_lt.mpr hj)]
      simp
    · funext l
      have e : ∀ m : Fin (k + 1), u (((n + m : ℕ) : ℝ) * dt) i = u (((n + m : ℕ) : ℝ) * dt) j := fun m =>
        (h.velocity _ (htime (n + m) (by have := m.2; omega))).copies i hi j hj hs
      have hm : sem.mask i = sem.mask j := by
        have := hv.maskCont
        rw [hvm] at this
        exact this i hi j hj hs
      simp only [StokesSEM.masked, Pi.sub_apply, Pi.smul_apply, Finset.sum_apply, hm,
        congrFun (hcop _ (htime' n hn) i hi j hj hs) l, e]
    · funext l
      obtain ⟨_, _, _, _, hmask, _, _⟩ := H.fields
      simp [StokesSEM.masked, (hmask j).1 hD]
  · have hvB := (mem_TSpace_iff H v).mp hvT
    have h1 := h.momentum _ (htime' n hn) v hvB
    have hvM := VSpace_masked hvT.1
    have hnum : sem.numV = vmesh.numNodes := by unfold StokesSEM.numV; rw [hvm]
    rw [massForm_eq H] at h1
    rw [B_dot hv hvM, A_dot hv hvM, Dt_dot hv v hvM, hvm, hpm]
    have e1 : ∑ j ∈ Finset.range sem.numV, ∑ l, sem.massDiag j l * (v j l * timeDeriv vmesh u ((n + k) * dt) j l) =
        ∑ j ∈ Finset.range vmesh.numNodes, ∑ l, sem.massDiag j l * (v j l * deriv (fun s => u s j l) ((n + k) * dt)) := by
      rw [hnum]
      refine Finset.sum_congr rfl fun j hj => Finset.sum_congr rfl fun l _ => ?_
      rw [timeDeriv, if_pos (Finset.mem_range.mp hj)]
    have e2 : sem.vDot v (f ((n + k) * dt)) = ∑ j ∈ Finset.range vmesh.numNodes, ∑ l, v j l * f ((n + k) * dt) j l := by
      unfold StokesSEM.vDot
      rw [hnum]
    have e3 : (((n + 2 : ℕ) : ℝ) + k - 2) * dt = (n + k) * dt := by push_cast; ring
    rw [e1, e2, e3]
    simp only [Nat.cast_add]
    exact h1

/-- The truncation error of the backward differences. -/
theorem defect_bound (H : StokesSetup vmesh pmesh quad overQuad masks bcs sem) (hk : 1 ≤ k) {b : Fin (k + 1) → ℝ}
    (hb : bdfkCoeffs k = some b) (hu : ∀ j l, ContDiff ℝ (k + 1) (fun t => u t j l)) (T : ℝ) :
    ∃ M, 0 ≤ M ∧ ∀ (dt : ℝ) (n : ℕ), 0 < dt → (n + k) * dt ≤ T →
      ‖massCoord sem (sem.masked (timeDeriv vmesh u ((n + k) * dt) -
        (1 / dt) • ∑ i : Fin (k + 1), b i • u (((n + i : ℕ) : ℝ) * dt)))‖ ≤ M * dt ^ k := by
  obtain ⟨_, _, hvm, _⟩ := H.fields
  have hnum : sem.numV = vmesh.numNodes := by unfold StokesSEM.numV; rw [hvm]
  have htr := fun j l => bdf_trunc hk hb (fun t => u t j l) (hu j l) 0 T
  choose M hM htr using htr
  obtain ⟨c, hc, _, hc2⟩ := massCoord_bound_entries (sem := sem) H.massPos'
  obtain ⟨R, hR⟩ : ∃ R, R = ∑ j ∈ Finset.range vmesh.numNodes, ∑ l, M j l := ⟨_, rfl⟩
  have hR0 : 0 ≤ R := by rw [hR]; exact Finset.sum_nonneg fun _ _ => Finset.sum_nonneg fun _ _ => hM _ _
  refine ⟨c * R, mul_nonneg hc.le hR0, fun dt n hdt hn => ?_⟩
  rw [mul_assoc]
  refine hc2 _ _ (fun j hj l => ?_) (by positivity)
  have hj' : j < vmesh.numNodes := by omega
  have h1 := htr j l (n * dt) dt hdt.le (by positivity) (by linarith)
  have hMR : M j l ≤ R := by
    rw [hR]
    refine le_trans ?_ (Finset.single_le_sum (f := fun j => ∑ l, M j l) (fun _ _ => Finset.sum_nonneg fun _ _ => hM _ _)
      (Finset.mem_range.mpr hj'))
    exact Finset.single_le_sum (f := fun l => M j l) (fun _ _ => hM _ _) (Finset.mem_univ l)
  have e1 : ((n : ℝ) + k) * dt = n * dt + k * dt := by ring
  have e2 : ∑ i : Fin (k + 1), b i * u (n * dt + (i : ℕ) * dt) j l = ∑ i : Fin (k + 1), b i * u (((n + i : ℕ) : ℝ) * dt) j l := by
    refine Finset.sum_congr rfl fun i _ => ?_
    rw [show (n : ℝ) * dt + (i : ℕ) * dt = ((n + i : ℕ) : ℝ) * dt by push_cast; ring]
  rw [e2] at h1
  have e3 : |timeDeriv vmesh u ((n + k) * dt) j l - (1 / dt) * ∑ i : Fin (k + 1), b i * u (((n + i : ℕ) : ℝ) * dt) j l| ≤ R * dt ^ k := by
    rw [timeDeriv, if_pos hj', e1]
    have e4 : deriv (fun s => u s j l) (n * dt + k * dt) - (1 / dt) * ∑ i : Fin (k + 1), b i * u (((n + i : ℕ) : ℝ) * dt) j l =
        -(1 / dt) * (∑ i : Fin (k + 1), b i * u (((n + i : ℕ) : ℝ) * dt) j l - dt * deriv (fun s => u s j l) (n * dt + k * dt)) := by
      field_simp
      ring
    rw [e4, abs_mul, abs_neg, abs_of_pos (by positivity : (0 : ℝ) < 1 / dt)]
    calc 1 / dt * |∑ i : Fin (k + 1), b i * u (((n + i : ℕ) : ℝ) * dt) j l - dt * deriv (fun s => u s j l) (n * dt + k * dt)|
        ≤ 1 / dt * (M j l * dt ^ (k + 1)) := mul_le_mul_of_nonneg_left h1 (by positivity)
      _ = M j l * dt ^ k := by rw [pow_succ]; field_simp
      _ ≤ R * dt ^ k := mul_le_mul_of_nonneg_right hMR (by positivity)
  have e5 : (timeDeriv vmesh u ((n + k) * dt) - (1 / dt) • ∑ i : Fin (k + 1), b i • u (((n + i : ℕ) : ℝ) * dt)) j l =
      timeDeriv vmesh u ((n + k) * dt) j l - (1 / dt) * ∑ i : Fin (k + 1), b i * u (((n + i : ℕ) : ℝ) * dt) j l := by
    simp [Finset.sum_apply]
  simp only [StokesSEM.masked]
  rw [e5]
  rcases H.mask01 j with h0 | h0
  · rw [h0, zero_mul, abs_zero]
    positivity
  · rw [h0, one_mul]
    exact e3

/-- The second differences of the pressure. -/
theorem pressure_bound (H : StokesSetup vmesh pmesh quad overQuad masks bcs sem) (hk : 1 ≤ k)
    (hp : ∀ j, ContDiff ℝ 2 (fun t => p t j)) (T : ℝ) :
    ∃ M, 0 ≤ M ∧ ∀ (dt : ℝ) (n : ℕ), 0 < dt → dt ≤ 1 → (n + k) * dt ≤ T →
      ‖gradCoord sem (p ((((n + 2 : ℕ) : ℝ) + k - 2) * dt) - (2 : ℝ) • p ((((n + 1 : ℕ) : ℝ) + k - 2) * dt) +
        p (((n : ℝ) + k - 2) * dt))‖ ≤ M * dt ^ 2 := by
  have htr := fun j => second_difference (fun t => p t j) (hp j) (-1) T
  choose M hM htr using htr
  obtain ⟨c, hc, hcb⟩ := gradCoord_bound H
  obtain ⟨R, hR⟩ : ∃ R, R = ∑ j ∈ Finset.range sem.numP, M j := ⟨_, rfl⟩
  have hR0 : 0 ≤ R := by rw [hR]; exact Finset.sum_nonneg fun _ _ => hM _
  refine ⟨c * R, mul_nonneg hc hR0, fun dt n hdt hdt1 hn => ?_⟩
  rw [mul_assoc]
  refine hcb _ _ (by positivity) (fun j hj => ?_)
  have hMR : M j ≤ R := by
    rw [hR]
    exact Finset.single_le_sum (f := M) (fun _ _ => hM _) (Finset.mem_range.mpr hj)
  have hk' : (1 : ℝ) ≤ k := by exact_mod_cast hk
  have hn0 : (0 : ℝ) ≤ n := Nat.cast_nonneg n
  have h1 := htr j (((n : ℝ) + k - 2) * dt) dt hdt.le (by nlinarith) (by linarith)
  rw [show ((n : ℝ) + k - 2) * dt + 2 * dt = (((n + 2 : ℕ) : ℝ) + k - 2) * dt by push_cast; ring,
    show ((n : ℝ) + k - 2) * dt + dt = (((n + 1 : ℕ) : ℝ) + k - 2) * dt by push_cast; ring] at h1
  exact h1.trans (mul_le_mul_of_nonneg_right hMR (by positivity))

/-- Convergence in time to the flow `u`, `p`: at the nodes, the errors of velocity and pressure gradient of every run of steps
on `[0, T]` are bounded by the errors `ε` and `Γ` of the starting values and by `dt ^ min(k, 3)`, with a constant that depends
neither on the time step nor on the number of steps. -/
def StokesConvergence (vmesh pmesh : Mesh ℝ d) (masks : List (String × (ℕ → Bool))) (bcs : List (String × BCType))
    (sem : StokesSEM ℝ d) (low : Nodes1D ℝ) (alpha mu T : ℝ) (k : ℕ) (project : Bool) (ub : ℝ → Option (Vel ℝ d))
    (f u : ℝ → Vel ℝ d) (p : ℝ → ℕ → ℝ) : Prop :=
  ∃ C dt0, 0 < C ∧ 0 < dt0 ∧ ∀ (dt : ℝ) (N : ℕ) (U : ℕ → Vel ℝ d) (P : ℕ → ℕ → ℝ) (ε Γ : ℝ), 0 < dt → dt ≤ dt0 →
    (N + k) * dt ≤ T → 0 ≤ Γ →
    (∀ i < k, HasBoundary vmesh masks bcs (ub (i * dt)) (U i) ∧ (∀ j, sem.D (U i) j = 0) ∧
      ∀ j < vmesh.numNodes, ∀ l, |U i j l - u (i * dt) j l| ≤ ε) →
    (∀ m < 2, ∀ j < pmesh.numNodes, |P m j - p ((m + k - 2) * dt) j| ≤ Γ) →
    StokesRun sem low alpha mu dt k project (fun n => f ((n + k) * dt)) (fun n => ub ((n + k) * dt)) (fun _ => []) U P N →
    ∀ n ≤ N, ∀ j < vmesh.numNodes, ∀ l,
      |U (n + k) j l - u ((n + k) * dt) j l| ≤ C * (ε + dt ^ 2 * Γ + dt ^ min k 3) ∧
      |sem.Bi (sem.Dt (fun i => P (n + 2) i - p ((n + k) * dt) i)) j l| ≤ C * (ε + dt * Γ + dt ^ min k 3)

/-- The steps converge with `k ≤ 6`, without the filter and with exact solves. Missing: other orders and the filter, for which
`StokesConvergence` is false (`C103_violated_bdf7`, `C103_violated_filter`), and solves with tolerances. -/
theorem C103_partial (S : StepSetup vmesh pmesh quad overQuad masks bcs sem low 0 project) (hmu : 0 ≤ mu) (hk : 1 ≤ k)
    (hk6 : k ≤ 6) (hT : 0 < T) (hflow : StokesFlow vmesh pmesh masks bcs sem mu T ub f u p)
    (hu : ∀ j l, ContDiff ℝ (k + 1) (fun t => u t j l)) (hp : ∀ j, ContDiff ℝ 2 (fun t => p t j)) :
    StokesConvergence vmesh pmesh masks bcs sem low 0 mu T k project ub f u p := by
  have H := S.setup
  have hv := H.valid
  obtain ⟨_, _, hvm, hpm, _, _, _⟩ := H.fields
  have hnum : sem.numV = vmesh.numNodes := by unfold StokesSEM.numV; rw [hvm]
  have hnumP : sem.numP = pmesh.numNodes := by unfold StokesSEM.numP; rw [hpm]
  obtain ⟨b, hb, _⟩ := C37_exact (K := ℝ) k hk
  have hbeta := (C37_leading k b hb).2
  obtain ⟨ρ, hst, hρ⟩ := bdf_stable hk hk6 hb
  obtain ⟨L, hL0, hL⟩ := visc_bound H
  obtain ⟨C1, dt1, hC1, hdt1, hconv⟩ := time_conv hst (lam := mu * L) (Lam := 0) (b := b (Fin.last k)) (T := T)
    (mul_nonneg hmu hL0) le_rfl hbeta hT.le
  obtain ⟨M1, hM1, hdef⟩ := defect_bound (vmesh := vmesh) H hk hb hu T
  obtain ⟨M2, hM2, hpre⟩ := pressure_bound (k := k) H hk hp T
  obtain ⟨c, hc, hc1, hc2⟩ := massCoord_bound_entries (sem := sem) H.massPos'
  obtain ⟨g, hg, hg1⟩ := gradCoord_bound H
  obtain ⟨Q, hQ⟩ : ∃ Q, Q = c + g + M2 + M1 + 1 := ⟨_, rfl⟩
  have hQ0 : 0 < Q := by rw [hQ]; positivity
  refine ⟨c * (C1 * (2 * Q)), min dt1 1, by positivity, by positivity, fun dt N U P ε Γ hdt hdt0 hN hΓ hU hP hrun n hn j hj l => ?_⟩
  have hdt1' := hdt0.trans (min_le_left _ _)
  have hdt2' := hdt0.trans (min_le_right _ _)
  have hε : 0 ≤ ε := (abs_nonneg _).trans ((hU 0 (by omega)).2.2 j hj l)
  have htime : ∀ n : ℕ, n ≤ N + k → (n : ℝ) * dt ∈ Set.Icc 0 T := by
    intro n hn
    refine ⟨by positivity, le_trans ?_ hN⟩
    have : (n : ℝ) ≤ N + k := by exact_mod_cast hn
    nlinarith
  have hR := hflow.reference H hT (fun j l => (hu j l).differentiable (by simp)) hdt b hN
  obtain ⟨_, w, hw, herr⟩ := run_errors S hmu hdt hk hb hρ hL hR.force hR
    (fun i hi => sub_mem_TSpace H (hU i hi).1 (hflow.velocity _ (htime i (by omega))))
    (fun i hi => funext (hU i hi).2.1) hrun
  have hdel : 0 ≤ M2 * dt ^ 2 := by positivity
  have hthe : 0 ≤ M1 * dt ^ k := by positivity
  have hkR : (1 : ℝ) ≤ k := by exact_mod_cast hk
  have hE : StepErrors (EuclideanSpace ℝ (Fin sem.numV × Fin d)) ρ k (mu * L) 0 (b (Fin.last k)) dt N (c * ε) (g * Γ)
      (M2 * dt ^ 2) (M1 * dt ^ k) (fun n => massCoord sem (U n - u (n * dt))) w
      (fun m => ‖gradCoord sem (P m - p ((m + k - 2) * dt))‖)
      (fun n => defectNorm sem dt b (fun n => f ((n + k) * dt)) (fun n => f ((n + k) * dt)) (fun n => u (n * dt))
        (fun n => timeDeriv vmesh u ((n + k) * dt)) n) := by
    have hb' := div_pos hdt hbeta
    have hnN : ∀ m ≤ N, ((m : ℝ) + k) * dt ≤ T := by
      intro m hm
      have := (htime (m + k) (by omega)).2
      push_cast at this
      exact this
    refine ⟨hw, fun _ => norm_nonneg _, fun _ => norm_nonneg _, fun i hi => ?_, ⟨?_, ?_⟩, fun m hm => (herr m hm).1,
      fun m hm => (herr m hm).2.1.trans ?_, fun m hm => (herr m hm).2.2, fun m hm => ?_⟩
    · exact hc2 _ _ (fun j hj l => (hU i hi).2.2 j (by omega) l) hε
    · exact hg1 _ _ hΓ (fun j hj => by simpa using hP 0 (by omega) j (by omega))
    · exact hg1 _ _ hΓ (fun j hj => by simpa using hP 1 (by omega) j (by omega))
    · refine add_le_add le_rfl (mul_le_mul_of_nonneg_left (add_le_add le_rfl ?_) hb'.le)
      exact hpre dt m hdt hdt2' (hnN m hm)
    · rw [zero_mul, zero_add]
      have : sem.Q 1 1 (0 : Vel ℝ d) = 0 := (QLin sem 1 1).map_zero
      unfold defectNorm
      rw [sub_self, this, add_zero]
      exact hdef dt m hdt (hnN m hm)
  have hnT : (n : ℝ) * dt ≤ T := (htime n (by omega)).2
  obtain ⟨hr1, hr2⟩ := hconv _ dt n (c * ε) (g * Γ) (M2 * dt ^ 2) (M1 * dt ^ k) _ _ _ _ hdt hdt1' hnT (by positivity)
    (by positivity) hdel hthe (hE.mono hn)
  -- powers of the time step
  obtain ⟨m, hm⟩ : ∃ m, m = dt ^ min k 3 := ⟨_, rfl⟩
  have hm0 : 0 ≤ m := by rw [hm]; positivity
  have hp3 : dt ^ 3 ≤ m := by rw [hm]; exact pow_le_pow_of_le_one hdt.le hdt2' (min_le_right _ _)
  have hpk : dt ^ k ≤ m := by rw [hm]; exact pow_le_pow_of_le_one hdt.le hdt2' (min_le_left _ _)
  have hQc : c ≤ Q := by rw [hQ]; linarith
  have hQg : g ≤ Q := by rw [hQ]; linarith
  have hQ2 : M2 ≤ Q := by rw [hQ]; linarith
  have hQ1 : M1 ≤ Q := by rw [hQ]; linarith
  have hrest : dt * (M2 * dt ^ 2) + M1 * dt ^ k ≤ 2 * (Q * m) := by
    have h1 : M2 * dt ^ 3 ≤ Q * m := mul_le_mul hQ2 hp3 (by positivity) hQ0.le
    have h2 : M1 * dt ^ k ≤ Q * m := mul_le_mul hQ1 hpk (by positivity) hQ0.le
    have h3 : dt * (M2 * dt ^ 2) = M2 * dt ^ 3 := by ring
    linarith
  have hεQ : c * ε ≤ Q * ε := mul_le_mul_of_nonneg_right hQc hε
  have hfin : ∀ s : ℝ, 0 ≤ s → c * ε + s * (g * Γ) + dt * (M2 * dt ^ 2) + M1 * dt ^ k ≤ 2 * Q * (ε + s * Γ + m) := by
    intro s hs
    have h1 : s * (g * Γ) ≤ Q * (s * Γ) := by
      have := mul_le_mul_of_nonneg_right hQg (mul_nonneg hs hΓ)
      linarith
    have h2 : 0 ≤ Q * ε := by positivity
    have h3 : 0 ≤ Q * (s * Γ) := by positivity
    linarith
  rw [← hm]
  constructor
  · have h1 := hc1 (U (n + k) - u ((n + k : ℕ) * dt)) j (by omega) l
    have h2 := mul_le_mul_of_nonneg_left (hr1.trans (mul_le_mul_of_nonneg_left (hfin (dt ^ 2) (by positivity)) hC1.le)) hc.le
    have h3 := h1.trans h2
    rw [show c * (C1 * (2 * Q * (ε + dt ^ 2 * Γ + m))) = c * (C1 * (2 * Q)) * (ε + dt ^ 2 * Γ + m) by ring] at h3
    simpa [Pi.sub_apply] using h3
  · have h1 := hc1 (sem.Q 1 1 (sem.Dt (P (n + 2) - p ((((n + 2 : ℕ) : ℝ) + k - 2) * dt)))) j (by omega) l
    have h2 := mul_le_mul_of_nonneg_left (hr2.trans (mul_le_mul_of_nonneg_left (hfin dt hdt.le) hC1.le)) hc.le
    have h3 := h1.trans h2
    rw [show c * (C1 * (2 * Q * (ε + dt * Γ + m))) = c * (C1 * (2 * Q)) * (ε + dt * Γ + m) by ring,
      show (((n + 2 : ℕ) : ℝ) + k - 2) * dt = (n + k) * dt by push_cast; ring] at h3
    simp only [StokesSEM.Q, div_one, one_mul] at h3
    exact h3

/-- There are runs from the values of the flow, and their errors are of order `dt ^ min(k, 3)`. -/
theorem C103_run (S : StepSetup vmesh pmesh quad overQuad masks bcs sem low 0 project) (hmu : 0 ≤ mu) (hk : 1 ≤ k)
    (hk6 : k ≤ 6) (hT : 0 < T) (hflow : StokesFlow vmesh pmesh masks bcs sem mu T ub f u p)
    (hu : ∀ j l, ContDiff ℝ (k + 1) (fun t => u t j l)) (hp : ∀ j, ContDiff ℝ 2 (fun t => p t j)) :
    ∃ C dt0, 0 < C ∧ 0 < dt0 ∧ ∀ (dt : ℝ) (N : ℕ), 0 < dt → dt ≤ dt0 → (N + k) * dt ≤ T →
      ∃ U P, (∀ i < k, U i = u (i * dt)) ∧ P 0 = p ((k - 2) * dt) ∧ P 1 = p ((k - 1) * dt) ∧
        StokesRun sem low 0 mu dt k project (fun n => f ((n + k) * dt)) (fun n => ub ((n + k) * dt)) (fun _ => []) U P N ∧
        ∀ n ≤ N, ∀ j < vmesh.numNodes, ∀ l,
          |U (n + k) j l - u ((n + k) * dt) j l| ≤ C * dt ^ min k 3 ∧
          |sem.Bi (sem.Dt (fun i => P (n + 2) i - p ((n + k) * dt) i)) j l| ≤ C * dt ^ min k 3 := by
  have H := S.setup
  obtain ⟨C, dt0, hC, hdt0, h⟩ := C103_partial S hmu hk hk6 hT hflow hu hp
  refine ⟨C, dt0, hC, hdt0, fun dt N hdt hdt' hN => ?_⟩
  have htime : ∀ n : ℕ, n ≤ N + k → (n : ℝ) * dt ∈ Set.Icc 0 T := by
    intro n hn
    refine ⟨by positivity, le_trans ?_ hN⟩
    have : (n : ℝ) ≤ N + k := by exact_mod_cast hn
    nlinarith
  have htime' : ∀ n : ℕ, n ≤ N → ((n : ℝ) + k) * dt ∈ Set.Icc 0 T := by
    intro n hn
    have := htime (n + k) (by omega)
    push_cast at this
    exact this
  have hR := hflow.reference H hT (fun j l => (hu j l).differentiable (by simp)) hdt (0 : Fin (k + 1) → ℝ) hN
  obtain ⟨U, P, hU, hP0, hP1, hrun⟩ := run_exists (project := project) S hmu hdt hk (N := N) hR.force
    (fun n hn => ⟨u ((n + k) * dt), by simpa using hR.boundary n hn, funext (hflow.divergence _ (htime' n hn))⟩)
    (fun i => u (i * dt)) (fun m => p (((m : ℝ) + k - 2) * dt))
  refine ⟨U, P, hU, by rw [hP0]; congr 1; push_cast; ring, by rw [hP1]; congr 1; push_cast; ring, hrun, fun n hn j hj l => ?_⟩
  have := h dt N U P 0 0 hdt hdt' hN le_rfl (fun i hi => ?_) (fun m hm j hj => ?_) hrun n hn j hj l
  · simpa using this
  · rw [hU i hi]
    exact ⟨hflow.velocity _ (htime i (by omega)), hflow.divergence _ (htime i (by omega)), fun j hj l => by simp⟩
  · have : m = 0 ∨ m = 1 := by omega
    rcases this with rfl | rfl
    · rw [hP0]; simp
    · rw [hP1]; simp

end Verif.NS
