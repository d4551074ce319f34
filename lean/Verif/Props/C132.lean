import Verif.Props.C125
import Verif.Props.C103

/-!
# C132: the energy balance of the Stokes steps

For time orders one and two, without the filter and with exact solves, an energy is balanced exactly: kinetic energy plus `dt²`
times the squared norm of the pressure gradient. Viscosity and numerical damping take energy away; the only other source than
the force is the extrapolation of the pressure, which adds nothing when the last two pressures agree. The kinetic energy alone
can grow without a force.
-/

set_option linter.unusedSectionVars false

namespace Verif.NS

open Verif.Core Verif.Linalg Verif.Spec

variable {d : ℕ} {sem : StokesSEM ℝ d}
  {vmesh pmesh : Mesh ℝ d} {quad overQuad : Quadrature1D ℝ} {masks : List (String × (ℕ → Bool))}
  {bcs : List (String × BCType)} {low : Nodes1D ℝ} {mu dt : ℝ} {k : ℕ} {project : Bool}

/-- The squared norm of the gradient of a pressure. -/
noncomputable def gradEnergy (sem : StokesSEM ℝ d) (vmesh : Mesh ℝ d) (p : ℕ → ℝ) : ℝ := kinetic sem vmesh (sem.Bi (sem.Dt p))

theorem Q_one_one (y : Vel ℝ d) : sem.Q 1 1 y = sem.Bi y := by
  funext j l
  simp [StokesSEM.Q]

theorem energy_first {E : Type*} [NormedAddCommGroup E] [InnerProductSpace ℝ E] (x' x a e w : E)
    (h : x' - x = dt • (a - w)) (h1 : inner ℝ x' a = 0) (h2 : inner ℝ x' e = 0) (h3 : inner ℝ x a = 0) (h4 : inner ℝ x e = 0) :
    ‖x'‖ ^ 2 + dt ^ 2 * ‖a‖ ^ 2 + ‖x' - dt • (a - e) - x‖ ^ 2 + 2 * dt * inner ℝ (x' - dt • (a - e)) w =
      ‖x‖ ^ 2 + dt ^ 2 * ‖e‖ ^ 2 := by
  have hw : dt • w = dt • a - x' + x := by
    rw [smul_sub] at h
    rw [eq_sub_iff_add_eq] at h
    rw [← sub_eq_zero, ← sub_eq_zero.mpr h]
    abel
  have h5 : 2 * dt * inner ℝ (x' - dt • (a - e)) w = 2 * inner ℝ (x' - dt • (a - e)) (dt • w) := by
    rw [inner_smul_right]
    ring
  rw [h5, hw]
  simp only [← real_inner_self_eq_norm_sq, inner_sub_left, inner_sub_right, inner_add_right, inner_smul_left, inner_smul_right,
    smul_sub, conj_trivial]
  rw [real_inner_comm x' a, real_inner_comm x' e, real_inner_comm x a, real_inner_comm x e, real_inner_comm x' x,
    real_inner_comm a e, h1, h2, h3, h4]
  ring

theorem energy_second {E : Type*} [NormedAddCommGroup E] [InnerProductSpace ℝ E] (x' x y a e w : E)
    (h : (3 / 2 : ℝ) • x' - (2 : ℝ) • x + (1 / 2 : ℝ) • y = dt • (a - w)) (h1 : inner ℝ x' a = 0) (h2 : inner ℝ x' e = 0)
    (h3 : inner ℝ x a = 0) (h4 : inner ℝ x e = 0) (h5 : inner ℝ y a = 0) (h6 : inner ℝ y e = 0) :
    ‖x'‖ ^ 2 + ‖(2 : ℝ) • x' - x‖ ^ 2 + 4 / 3 * (dt ^ 2 * ‖a‖ ^ 2) + ‖x' - (2 : ℝ) • x + y‖ ^ 2 + 4 / 3 * (dt ^ 2 * ‖a - e‖ ^ 2) +
        4 * dt * inner ℝ (x' - (2 / 3 * dt) • (a - e)) w =
      ‖x‖ ^ 2 + ‖(2 : ℝ) • x - y‖ ^ 2 + 4 / 3 * (dt ^ 2 * ‖e‖ ^ 2) := by
  have hw : dt • w = dt • a - (3 / 2 : ℝ) • x' + (2 : ℝ) • x - (1 / 2 : ℝ) • y := by
    rw [smul_sub] at h
    rw [eq_sub_iff_add_eq] at h
    rw [← sub_eq_zero, ← sub_eq_zero.mpr h]
    abel
  have h7 : 4 * dt * inner ℝ (x' - (2 / 3 * dt) • (a - e)) w = 4 * inner ℝ (x' - (2 / 3 * dt) • (a - e)) (dt • w) := by
    rw [inner_smul_right]
    ring
  rw [h7, hw]
  simp only [← real_inner_self_eq_norm_sq, inner_sub_left, inner_sub_right, inner_add_left, inner_add_right, inner_smul_left,
    inner_smul_right, smul_sub, conj_trivial]
  rw [real_inner_comm x' a, real_inner_comm x' e, real_inner_comm x a, real_inner_comm x e, real_inner_comm y a, real_inner_comm y e,
    real_inner_comm x' x, real_inner_comm x' y, real_inner_comm x y, real_inner_comm a e, h1, h2, h3, h4, h5, h6]
  ring

/-- The equations of a step in the coordinates of the mass matrix. -/
theorem step_energy (S : StepSetup vmesh pmesh quad overQuad masks bcs sem low 0 project) (hmu : 0 ≤ mu) (hdt : 0 < dt) (hk : 1 ≤ k)
    {b : Fin (k + 1) → ℝ} (hb : bdfkCoeffs k = some b) {U : Fin k → Vel ℝ d} (hU : ∀ i, FreeField vmesh masks bcs (U i))
    (older : List (ℕ → ℝ)) (p2 p1 : ℕ → ℝ) {f : Vel ℝ d} (hf : ∀ j, DirichletNode masks bcs j → f j = 0)
    (hf' : ∀ j, vmesh.numNodes ≤ j → f j = 0) :
    ∃ st, sem.oneStep low (List.ofFn U) (older ++ [p2, p1]) f mu dt k 0 none none project 0 0 = .ok st ∧
      FreeField vmesh masks bcs st.u ∧ FreeField vmesh masks bcs st.uStar ∧ (∀ j, sem.D st.u j = 0) ∧
      ∃ w, b (Fin.last k) • massCoord sem st.u + ∑ i : Fin k, b i.castSucc • massCoord sem (U i) =
          dt • (massCoord sem (sem.Bi (sem.Dt st.p)) - w) ∧
        massCoord sem st.uStar = massCoord sem st.u - (dt / b (Fin.last k)) • (massCoord sem (sem.Bi (sem.Dt st.p)) -
          massCoord sem (sem.Bi (sem.Dt (fun j => 2 * p1 j - p2 j)))) ∧
        inner ℝ (massCoord sem st.uStar) w = mu * vStiffForm sem.vspace (vGather vmesh st.uStar) (vGather vmesh st.uStar) -
          ∑ j ∈ Finset.range vmesh.numNodes, ∑ l, st.uStar j l * f j l := by
  have H := S.setup
  have hv := H.valid
  obtain ⟨_, _, hvm, _⟩ := H.fields
  have hfV := (H.mem_VSpace f).mpr ⟨hf, hf'⟩
  have hmz : sem.masked (0 - (1 / dt) • ∑ i, b i • (fun _ : Fin (k + 1) => (0 : Vel ℝ d)) i) = 0 := by
    funext j l; simp [StokesSEM.masked]
  have hB0 : sem.B (0 : Vel ℝ d) = 0 := (BLin sem).map_zero
  have hA0 : sem.A (0 : Vel ℝ d) = 0 := (ALin sem hv.vwf).map_zero
  have hDt0 : sem.Dt (0 : ℕ → ℝ) = 0 := (DtLin sem hv.pwf).map_zero
  have hD0 : sem.D (0 : Vel ℝ d) = 0 := (DLin sem).map_zero
  obtain ⟨st, hst, h1, h2, h3, h4, h5⟩ := step_error S hmu hdt hk hb U older p2 p1 hfV none (fun _ => 0) 0 0 (fe := 0)
    (VSpace sem).zero_mem (fun i => by rw [sub_zero]; exact (hU i).mem H) (by simp) hD0
    (by rw [hmz]; exact (TSpace sem).zero_mem) (fun v _ => by rw [hB0, hA0, hDt0, vDot_zero_right]; ring)
  simp only [sub_zero] at h1 h2 h4 h5
  rw [hmz] at h4
  refine ⟨st, hst, FreeField.of_mem H h1, FreeField.of_mem H h2, fun j => congrFun h3 j,
    massCoord sem (mu • sem.Q 1 1 (sem.A st.uStar) - sem.Q 1 1 f), ?_, ?_, ?_⟩
  · rw [← Q_one_one, ← map_sub, ← map_smul, ← map_smul]
    simp only [← map_smul, ← map_sum, ← map_add]
    rw [h4, zero_add]
    congr 2
    abel
  · have h6 : sem.Dt (fun j => 2 * p1 j - p2 j) = sem.Dt ((2 : ℝ) • p1 - p2) := rfl
    have hDl : ∀ y z : ℕ → ℝ, sem.Dt (y - z) = sem.Dt y - sem.Dt z := fun y z => (DtLin sem hv.pwf).map_sub y z
    have hQl : ∀ y z : Vel ℝ d, sem.Q 1 1 (y - z) = sem.Q 1 1 y - sem.Q 1 1 z := fun y z => (QLin sem 1 1).map_sub y z
    have h7 : st.p - (2 : ℝ) • p1 + p2 = st.p - ((2 : ℝ) • p1 - p2) := by abel
    rw [h7, hDl, hQl] at h5
    rw [h6, h5, map_sub, map_smul, map_sub, ← Q_one_one, ← Q_one_one]
  · have hQd : ∀ y, inner ℝ (massCoord sem st.uStar) (massCoord sem (sem.Q 1 1 y)) = sem.vDot st.uStar y := fun y => by
      rw [massCoord_inner H.massPos' h2.1 H.mask01, vDot_B_Q H.finite H.mask01 h2]
    rw [map_sub, map_smul, inner_sub_right, inner_smul_right, hQd, hQd, A_dot hv (VSpace_masked h2.1), hvm]
    unfold StokesSEM.vDot StokesSEM.numV
    rw [hvm]

theorem grad_orthogonal (H : StokesSetup vmesh pmesh quad overQuad masks bcs sem) {v : Vel ℝ d} (hv : FreeField vmesh masks bcs v)
    (hD : ∀ j, sem.D v j = 0) (q : ℕ → ℝ) : inner ℝ (massCoord sem v) (massCoord sem (sem.Bi (sem.Dt q))) = 0 := by
  have hT := hv.mem H
  rw [← Q_one_one, massCoord_inner H.massPos' hT.1 H.mask01, vDot_B_Q H.finite H.mask01 hT,
    ← D_Dt_adjoint H.valid v (VSpace_masked hT.1)]
  exact Finset.sum_eq_zero fun j _ => by rw [hD j, mul_zero]

theorem gradEnergy_norm (H : StokesSetup vmesh pmesh quad overQuad masks bcs sem) (q : ℕ → ℝ) :
    gradEnergy sem vmesh q = ‖massCoord sem (sem.Bi (sem.Dt q))‖ ^ 2 := by
  unfold gradEnergy
  rw [← Q_one_one, kinetic_norm H (Q_mem H.valid 1 1 (Dt_mem q))]

/-- The energy balance of order one. -/
theorem C132_first (S : StepSetup vmesh pmesh quad overQuad masks bcs sem low 0 project) (hmu : 0 ≤ mu) (hdt : 0 < dt)
    {u : Vel ℝ d} (hu : FreeField vmesh masks bcs u) (hD : ∀ j, sem.D u j = 0)
    (older : List (ℕ → ℝ)) (p2 p1 : ℕ → ℝ) {f : Vel ℝ d} (hf : ∀ j, DirichletNode masks bcs j → f j = 0)
    (hf' : ∀ j, vmesh.numNodes ≤ j → f j = 0) :
    ∃ st, sem.oneStep low [u] (older ++ [p2, p1]) f mu dt 1 0 none none project 0 0 = .ok st ∧
      FreeField vmesh masks bcs st.u ∧ (∀ j, sem.D st.u j = 0) ∧
      kinetic sem vmesh st.u + dt ^ 2 * gradEnergy sem vmesh st.p + kinetic sem vmesh (st.uStar - u) +
          2 * dt * (mu * vStiffForm sem.vspace (vGather vmesh st.uStar) (vGather vmesh st.uStar)) =
        kinetic sem vmesh u + dt ^ 2 * gradEnergy sem vmesh (fun j => 2 * p1 j - p2 j) +
          2 * dt * ∑ j ∈ Finset.range vmesh.numNodes, ∑ l, st.uStar j l * f j l := by
  have H := S.setup
  obtain ⟨b, hb, _⟩ := C37_exact (K := ℝ) 1 le_rfl
  have hb' := bdf_values_1 hb
  have hb0 : b 0 = -1 := by simpa using hb' 0
  have hb1 : b (Fin.last 1) = 1 := by simpa using hb' (Fin.last 1)
  obtain ⟨st, hst, h1, h2, h3, w, h4, h5, h6⟩ := step_energy S hmu hdt le_rfl hb (U := fun _ => u) (fun _ => hu) older p2 p1 hf hf'
  refine ⟨st, by simpa using hst, h1, h3, ?_⟩
  rw [hb1] at h4 h5
  simp only [Finset.univ_unique, Fin.default_eq_zero, Finset.sum_singleton, Fin.castSucc_zero, hb0, one_smul, div_one, neg_smul] at h4 h5
  have h7 := energy_first (dt := dt) _ _ _ (massCoord sem (sem.Bi (sem.Dt (fun j => 2 * p1 j - p2 j)))) w (by rw [← h4, sub_eq_add_neg])
    (grad_orthogonal H h1 h3 st.p) (grad_orthogonal H h1 h3 _) (grad_orthogonal H hu hD st.p) (grad_orthogonal H hu hD _)
  rw [← h5, h6, ← map_sub, ← kinetic_norm H (h1.mem H), ← kinetic_norm H (hu.mem H),
    ← kinetic_norm H ((TSpace sem).sub_mem (h2.mem H) (hu.mem H)), ← gradEnergy_norm H, ← gradEnergy_norm H] at h7
  linear_combination h7

/-- The energy balance of order two. -/
theorem C132_second (S : StepSetup vmesh pmesh quad overQuad masks bcs sem low 0 project) (hmu : 0 ≤ mu) (hdt : 0 < dt)
    {u2 u1 : Vel ℝ d} (hu2 : FreeField vmesh masks bcs u2) (hD2 : ∀ j, sem.D u2 j = 0) (hu1 : FreeField vmesh masks bcs u1)
    (hD1 : ∀ j, sem.D u1 j = 0) (older : List (ℕ → ℝ)) (p2 p1 : ℕ → ℝ) {f : Vel ℝ d}
    (hf : ∀ j, DirichletNode masks bcs j → f j = 0) (hf' : ∀ j, vmesh.numNodes ≤ j → f j = 0) :
    ∃ st, sem.oneStep low [u2, u1] (older ++ [p2, p1]) f mu dt 2 0 none none project 0 0 = .ok st ∧
      FreeField vmesh masks bcs st.u ∧ (∀ j, sem.D st.u j = 0) ∧
      kinetic sem vmesh st.u + kinetic sem vmesh ((2 : ℝ) • st.u - u1) + 4 / 3 * (dt ^ 2 * gradEnergy sem vmesh st.p) +
          kinetic sem vmesh (st.u - (2 : ℝ) • u1 + u2) +
          4 / 3 * (dt ^ 2 * gradEnergy sem vmesh (fun j => st.p j - (2 * p1 j - p2 j))) +
          4 * dt * (mu * vStiffForm sem.vspace (vGather vmesh st.uStar) (vGather vmesh st.uStar)) =
        kinetic sem vmesh u1 + kinetic sem vmesh ((2 : ℝ) • u1 - u2) +
          4 / 3 * (dt ^ 2 * gradEnergy sem vmesh (fun j => 2 * p1 j - p2 j)) +
          4 * dt * ∑ j ∈ Finset.range vmesh.numNodes, ∑ l, st.uStar j l * f j l := by
  have H := S.setup
  obtain ⟨b, hb, _⟩ := C37_exact (K := ℝ) 2 (by norm_num)
  have hb' := bdf_values_2 hb
  have hb0 : b 0 = 1 / 2 := by simpa using hb' 0
  have hb1 : b 1 = -2 := by simpa using hb' 1
  have hb2 : b (Fin.last 2) = 3 / 2 := by simpa using hb' (Fin.last 2)
  obtain ⟨st, hst, h1, h2, h3, w, h4, h5, h6⟩ := step_energy S hmu hdt (by norm_num) hb (U := ![u2, u1])
    (fun i => by fin_cases i <;> assumption) older p2 p1 hf hf'
  refine ⟨st, by simpa using hst, h1, h3, ?_⟩
  rw [hb2] at h4 h5
  rw [Fin.sum_univ_two] at h4
  have e0 : b (Fin.castSucc (0 : Fin 2)) = 1 / 2 := hb0
  have e1 : b (Fin.castSucc (1 : Fin 2)) = -2 := hb1
  rw [e0, e1] at h4
  simp only [Matrix.cons_val_zero, Matrix.cons_val_one] at h4
  rw [show dt / (3 / 2) = 2 / 3 * dt by ring] at h5
  have h7 := energy_second (dt := dt) (massCoord sem st.u) (massCoord sem u1) (massCoord sem u2) _
    (massCoord sem (sem.Bi (sem.Dt (fun j => 2 * p1 j - p2 j)))) w (by rw [← h4, neg_smul]; abel)
    (grad_orthogonal H h1 h3 st.p) (grad_orthogonal H h1 h3 _) (grad_orthogonal H hu1 hD1 st.p) (grad_orthogonal H hu1 hD1 _)
    (grad_orthogonal H hu2 hD2 st.p) (grad_orthogonal H hu2 hD2 _)
  have hT := h1.mem H
  have hT1 := hu1.mem H
  have hT2 := hu2.mem H
  have hg : massCoord sem (sem.Bi (sem.Dt st.p)) - massCoord sem (sem.Bi (sem.Dt (fun j => 2 * p1 j - p2 j))) =
      massCoord sem (sem.Bi (sem.Dt (fun j => st.p j - (2 * p1 j - p2 j)))) := by
    have hDl : sem.Dt (fun j => st.p j - (2 * p1 j - p2 j)) = sem.Dt st.p - sem.Dt (fun j => 2 * p1 j - p2 j) :=
      (DtLin sem H.valid.pwf).map_sub st.p (fun j => 2 * p1 j - p2 j)
    have hQl : ∀ y z : Vel ℝ d, sem.Q 1 1 (y - z) = sem.Q 1 1 y - sem.Q 1 1 z := fun y z => (QLin sem 1 1).map_sub y z
    rw [hDl, ← map_sub, ← Q_one_one, ← Q_one_one, ← Q_one_one, hQl]
  rw [← h5, h6, hg, ← map_smul, ← map_sub, ← map_smul, ← map_sub, ← map_sub, ← map_add, ← kinetic_norm H hT, ← kinetic_norm H hT1,
    ← kinetic_norm H ((TSpace sem).sub_mem ((TSpace sem).smul_mem 2 hT) hT1),
    ← kinetic_norm H ((TSpace sem).sub_mem ((TSpace sem).smul_mem 2 hT1) hT2),
    ← kinetic_norm H ((TSpace sem).add_mem ((TSpace sem).sub_mem hT ((TSpace sem).smul_mem 2 hT1)) hT2),
    ← gradEnergy_norm H, ← gradEnergy_norm H, ← gradEnergy_norm H] at h7
  linear_combination h7

theorem extrapolate_same (q : ℕ → ℝ) : (fun j => 2 * q j - q j) = q := by
  funext j
  ring

theorem stiff_nonneg (H : StokesSetup vmesh pmesh quad overQuad masks bcs sem) (v : Vel ℝ d) :
    0 ≤ vStiffForm sem.vspace (vGather vmesh v) (vGather vmesh v) := H.stiff _

/-- Missing: the kinetic energy alone can grow (`C132_violated`), and so can the energy here when the last two pressures differ.
Without a force, from a velocity without divergence and a history whose last two pressures are equal, the kinetic energy plus
`dt^2` times that of the pressure gradient does not grow in a step of order one, for every time step. -/
theorem C132_partial (S : StepSetup vmesh pmesh quad overQuad masks bcs sem low 0 project) (hmu : 0 ≤ mu) (hdt : 0 < dt)
    {u : Vel ℝ d} (hu : FreeField vmesh masks bcs u) (hD : ∀ j, sem.D u j = 0) (older : List (ℕ → ℝ)) (q : ℕ → ℝ) :
    ∃ st, sem.oneStep low [u] (older ++ [q, q]) 0 mu dt 1 0 none none project 0 0 = .ok st ∧
      kinetic sem vmesh st.u + dt ^ 2 * gradEnergy sem vmesh st.p ≤ kinetic sem vmesh u + dt ^ 2 * gradEnergy sem vmesh q := by
  obtain ⟨st, hst, _, _, h⟩ := C132_first S hmu hdt hu hD older q q (f := 0) (fun _ _ => rfl) (fun _ _ => rfl)
  refine ⟨st, hst, ?_⟩
  rw [extrapolate_same] at h
  simp only [Pi.zero_apply, mul_zero, Finset.sum_const_zero, add_zero] at h
  have h1 := (kinetic_nonneg S.setup (st.uStar - u)).1
  have h2 := mul_nonneg hdt.le (mul_nonneg hmu (stiff_nonneg S.setup st.uStar))
  linarith

/-- The same for order two, with the energy of two velocities. -/
theorem C132_partial_second (S : StepSetup vmesh pmesh quad overQuad masks bcs sem low 0 project) (hmu : 0 ≤ mu) (hdt : 0 < dt)
    {u2 u1 : Vel ℝ d} (hu2 : FreeField vmesh masks bcs u2) (hD2 : ∀ j, sem.D u2 j = 0) (hu1 : FreeField vmesh masks bcs u1)
    (hD1 : ∀ j, sem.D u1 j = 0) (older : List (ℕ → ℝ)) (q : ℕ → ℝ) :
    ∃ st, sem.oneStep low [u2, u1] (older ++ [q, q]) 0 mu dt 2 0 none none project 0 0 = .ok st ∧
      kinetic sem vmesh st.u + kinetic sem vmesh ((2 : ℝ) • st.u - u1) + 4 / 3 * (dt ^ 2 * gradEnergy sem vmesh st.p) ≤
        kinetic sem vmesh u1 + kinetic sem vmesh ((2 : ℝ) • u1 - u2) + 4 / 3 * (dt ^ 2 * gradEnergy sem vmesh q) := by
  obtain ⟨st, hst, _, _, h⟩ := C132_second S hmu hdt hu2 hD2 hu1 hD1 older q q (f := 0) (fun _ _ => rfl) (fun _ _ => rfl)
  refine ⟨st, hst, ?_⟩
  rw [extrapolate_same] at h
  simp only [Pi.zero_apply, mul_zero, Finset.sum_const_zero, add_zero] at h
  have h1 := (kinetic_nonneg S.setup (st.u - (2 : ℝ) • u1 + u2)).1
  have h2 := mul_nonneg hdt.le (mul_nonneg hmu (stiff_nonneg S.setup st.uStar))
  have h3 := mul_nonneg (sq_nonneg dt) (kinetic_nonneg S.setup (sem.Bi (sem.Dt fun j => st.p j - (2 * q j - q j)))).1
  unfold gradEnergy at h ⊢
  linarith

section cube

variable {n p over : ℕ} {a b : ℝ} {cs : CubeStokes 2}

/-- The kinetic energy can grow without a force: on every square with walls, with elements of order at least seven, there is a
pressure that sets a fluid at rest in motion, for every order, viscosity and time step. -/
theorem C132_violated (hn : 1 ≤ n) (hp : 7 ≤ p) (hab : a < b) {project : Bool}
    (hcs : cubeStokes n 2 p over a b [] [("boundary", .dirichlet)] = .ok cs) (hk : 1 ≤ k) (hmu : 0 < mu) (hdt : 0 < dt) :
    ∃ (q : ℕ → ℝ) (st : StokesSEM.Step ℝ 2),
      cs.sem.oneStep cs.low (List.replicate k 0) [q, q] 0 mu dt k 0 none none project 0 0 = .ok st ∧
      kinetic cs.sem cs.vmesh 0 = 0 ∧ 0 < kinetic cs.sem cs.vmesh st.u := by
  have hb2 : CubeBCs 2 [] [("boundary", .dirichlet)] := Or.inl ⟨rfl, 0, by simp⟩
  obtain ⟨vnode, pnode, l, h⟩ := cubeStokes_of hn (by norm_num) (by omega) hab hb2 hcs
  have S : StepSetup cs.vmesh cs.pmesh cs.quad cs.overQuad cs.masks [("boundary", .dirichlet)] cs.sem cs.low 0 project :=
    h.stepSetup hn (by omega) hab hb2 0 project (fun _ => Or.inl (by simp))
  have H := S.setup
  obtain ⟨φ, hφ⟩ := C125_violated_every hn hp hab (project := project) hcs hk hmu hdt
  have hz : FreeField cs.vmesh cs.masks [("boundary", .dirichlet)] (0 : Vel ℝ 2) := FreeField.of_mem H (TSpace cs.sem).zero_mem
  obtain ⟨st1, st2, h1, h2, h3⟩ := hφ (fun _ => 0) (fun _ => hz) [] 0 0 0 (fun _ _ => rfl) (fun _ _ => rfl)
  have hU : List.ofFn (fun _ : Fin k => (0 : Vel ℝ 2)) = List.replicate k 0 := List.ofFn_const k 0
  rw [hU, List.nil_append] at h1 h2
  rw [zero_add] at h2
  obtain ⟨st0, h4, h5, _⟩ := C125_rest (us := List.replicate k 0) (ps := [0, 0]) (mu := mu) (tol := 0) (atol := 0) (precond := none) S hdt
    hk 0 (fun u hu => List.eq_of_mem_replicate hu) (by simp) (by norm_num)
  have e0 : cs.sem.Dt 0 = 0 := (DtLin cs.sem H.valid.pwf).map_zero
  rw [e0, neg_zero] at h4
  rw [h4, Except.ok.injEq] at h1
  have h6 := C125_shift (low := cs.low) (us := List.replicate k 0) (ps := [0, 0]) (f := cs.sem.Dt φ) (mu := mu) (dt := dt)
    (timeOrder := k) (alpha := 0) (ub := none) (precond := none) (project := project) (tol := 0) (atol := 0) H φ
  rw [h2, sub_self] at h6
  obtain ⟨β, hβ, _⟩ := C37_exact (K := ℝ) k hk
  obtain ⟨st3, h7, h8, _⟩ := step_energy S hmu.le hdt hk hβ (U := fun _ => 0) (fun _ => hz) [] 0 0 (f := cs.sem.Dt φ)
    ((H.mem_VSpace _).mp (Dt_mem φ)).1 ((H.mem_VSpace _).mp (Dt_mem φ)).2
  rw [hU, List.nil_append, h2, Except.ok.injEq] at h7
  subst h7
  refine ⟨φ, { st2 with p := st2.p + φ }, ?_, ?_, ?_⟩
  · simpa [Except.map] using h6
  · rw [kinetic_eq H]
    simp
  · refine lt_of_le_of_ne (kinetic_nonneg H st2.u).1 fun he => h3 ?_
    rw [← h1, h5]
    funext j
    by_cases hj : j < cs.vmesh.numNodes
    · exact ((kinetic_nonneg H st2.u).2 he.symm j hj).symm
    · exact (h8.2.1 j (not_lt.mp hj)).symm

/-- A square with walls and elements of order seven: the setup of the balances, with a flow that is not at rest. -/
example : ∃ cs : CubeStokes 2, cubeStokes 4 2 7 1 0 1 [] [("boundary", .dirichlet)] = .ok cs ∧
    StepSetup cs.vmesh cs.pmesh cs.quad cs.overQuad cs.masks [("boundary", .dirichlet)] cs.sem cs.low 0 true ∧
    ∃ u, FreeField cs.vmesh cs.masks [("boundary", .dirichlet)] u ∧ (∀ j, cs.sem.D u j = 0) ∧ u ≠ 0 := by
  have hb : CubeBCs 2 [] [("boundary", .dirichlet)] := Or.inl ⟨rfl, 0, by simp⟩
  obtain ⟨cs, hcs⟩ := C92_create (over := 1) (n := 4) (d := 2) (p := 7) (a := 0) (b := 1) (by norm_num) (by norm_num)
    (by norm_num) (by norm_num) [] hb
  obtain ⟨vnode, pnode, l, hC⟩ := cubeStokes_of (by norm_num) (by norm_num) (by norm_num) (by norm_num) hb hcs
  have S : StepSetup cs.vmesh cs.pmesh cs.quad cs.overQuad cs.masks [("boundary", .dirichlet)] cs.sem cs.low 0 true :=
    hC.stepSetup (by norm_num) (by norm_num) (by norm_num) hb 0 true (fun _ => Or.inl (by simp))
  obtain ⟨z, hz, y, hy, q, hDz, hzy, hpos, hq⟩ := hC.exists_vortex (by norm_num) (by norm_num) (by norm_num)
  refine ⟨cs, hcs, S, z, FreeField.of_mem S.setup hz, fun j => congrFun hDz j, ?_⟩
  rintro rfl
  have hA0 : cs.sem.A 0 = 0 := (ALin cs.sem S.setup.valid.vwf).map_zero
  have h1 := hzy y hy
  rw [hA0, vDot_zero_right, eq_comm, neg_eq_zero] at h1
  rw [eq_zero_of_mass S.setup hy h1] at hpos
  simp [StokesSEM.vDot] at hpos

end cube

end Verif.NS
