import Verif.Props.C156

/-!
# C157: Stokes simulations depend on their data with constants that do not depend on the mesh

Without the filter and with exact solves, `C157_step` bounds the difference of two steps by the differences of velocities, pressure
gradients and forces, in the norms of the kinetic energy. The constants are those of the backward differences: they contain neither
the mesh, its dimension and order, nor the viscosity, nor the time step. `C157_run` does the same for whole simulations: in every
step the difference grows at most by the factor `growth`.
-/

namespace Verif.NS

open Verif.Core Verif.Linalg Verif.Spec

variable {d : ℕ} {sem : StokesSEM ℝ d}
  {vmesh pmesh : Mesh ℝ d} {quad overQuad : Quadrature1D ℝ} {masks : List (String × (ℕ → Bool))}
  {bcs : List (String × BCType)} {low : Nodes1D ℝ} {mu dt : ℝ} {k : ℕ} {project : Bool}

/-- The norm of a velocity that belongs to the kinetic energy. -/
noncomputable def energyNorm (sem : StokesSEM ℝ d) (vmesh : Mesh ℝ d) (u : Vel ℝ d) : ℝ := Real.sqrt (kinetic sem vmesh u)

/-- The norm of the gradient of a pressure. -/
noncomputable def gradNorm (sem : StokesSEM ℝ d) (vmesh : Mesh ℝ d) (p : ℕ → ℝ) : ℝ := Real.sqrt (gradEnergy sem vmesh p)

theorem energyNorm_eq (H : StokesSetup vmesh pmesh quad overQuad masks bcs sem) (u : Vel ℝ d) :
    energyNorm sem vmesh u = ‖massCoord sem u‖ := by
  obtain ⟨_, _, hvm, _⟩ := H.fields
  have h : kinetic sem vmesh u = ‖massCoord sem u‖ ^ 2 := by
    rw [kinetic_eq H, EuclideanSpace.norm_sq_eq, Fintype.sum_prod_type]
    have hn : sem.numV = vmesh.numNodes := by unfold StokesSEM.numV; rw [hvm]
    rw [← hn, ← Fin.sum_univ_eq_sum_range (fun j => ∑ k, sem.massDiag j k * (u j k * u j k))]
    refine Finset.sum_congr rfl fun j _ => Finset.sum_congr rfl fun l _ => ?_
    rw [massCoord_apply, Real.norm_eq_abs, sq_abs, mul_pow, Real.sq_sqrt (H.massPos' j j.2 l).le]
    ring
  rw [energyNorm, h, Real.sqrt_sq (norm_nonneg _)]

theorem gradNorm_eq (H : StokesSetup vmesh pmesh quad overQuad masks bcs sem) (q : ℕ → ℝ) :
    gradNorm sem vmesh q = ‖massCoord sem (sem.Bi (sem.Dt q))‖ := by
  rw [gradNorm, gradEnergy_norm H, Real.sqrt_sq (norm_nonneg _)]

theorem energy_bounds {E ι : Type*} [NormedAddCommGroup E] [InnerProductSpace ℝ E] [Fintype ι] {dt beta : ℝ} (hdt : 0 < dt)
    (hbeta : 0 < beta) (b : ι → ℝ) (U : ι → E) (X Y G Gx w g : E) (h1 : beta • Y + ∑ i, b i • U i = dt • (G - w))
    (h2 : X = Y - (dt / beta) • (G - Gx)) (h3 : -inner ℝ X g ≤ inner ℝ X w) (h4 : inner ℝ Y G = 0) (h5 : inner ℝ Y Gx = 0) :
    beta * ‖Y‖ ≤ ∑ i, |b i| * ‖U i‖ + dt * ‖Gx‖ + dt * ‖g‖ ∧
      dt * ‖G‖ ≤ ∑ i, |b i| * ‖U i‖ + 2 * (dt * ‖Gx‖) + dt * ‖g‖ := by
  have e1 : beta • X = -(∑ i, b i • U i) - dt • w + dt • Gx := by
    have : beta • Y = dt • (G - w) - ∑ i, b i • U i := by rw [← h1]; abel
    rw [h2, smul_sub, smul_smul, mul_div_cancel₀ _ hbeta.ne', this]
    simp only [smul_sub]
    abel
  have e2 : beta * ‖X‖ ^ 2 ≤ ‖X‖ * (∑ i, |b i| * ‖U i‖ + dt * ‖Gx‖ + dt * ‖g‖) := by
    have a1 : beta * ‖X‖ ^ 2 = inner ℝ X (beta • X) := by rw [inner_smul_right, real_inner_self_eq_norm_sq]
    have a2 : -inner ℝ X (∑ i, b i • U i) ≤ ‖X‖ * ∑ i, |b i| * ‖U i‖ := by
      refine (neg_le_abs _).trans ((abs_real_inner_le_norm _ _).trans (mul_le_mul_of_nonneg_left ?_ (norm_nonneg _)))
      refine (norm_sum_le _ _).trans (Finset.sum_le_sum fun i _ => ?_)
      rw [norm_smul, Real.norm_eq_abs]
    have a3 := real_inner_le_norm X Gx
    have a4 := real_inner_le_norm X g
    rw [a1, e1, inner_add_right, inner_sub_right, inner_neg_right, inner_smul_right, inner_smul_right]
    nlinarith [mul_le_mul_of_nonneg_left h3 hdt.le, mul_le_mul_of_nonneg_left a3 hdt.le, mul_le_mul_of_nonneg_left a4 hdt.le]
  have e3 : beta * ‖X‖ ≤ ∑ i, |b i| * ‖U i‖ + dt * ‖Gx‖ + dt * ‖g‖ := by
    rcases (norm_nonneg X).eq_or_lt with h0 | h0
    · rw [← h0, mul_zero]
      positivity
    · refine le_of_mul_le_mul_left ?_ h0
      linarith
  have e4 : inner ℝ Y (Y - X) = 0 := by
    rw [h2, sub_sub_cancel, inner_smul_right, inner_sub_right, h4, h5]
    ring
  have e5 : ‖X‖ ^ 2 = ‖Y‖ ^ 2 + ‖Y - X‖ ^ 2 := by
    have : X = Y - (Y - X) := by abel
    conv_lhs => rw [this, norm_sub_sq_real, e4]
    ring
  have e6 : ‖Y‖ ≤ ‖X‖ := by
    refine le_of_sq_le_sq ?_ (norm_nonneg _)
    nlinarith [sq_nonneg ‖Y - X‖]
  have e7 : ‖Y - X‖ ≤ ‖X‖ := by
    refine le_of_sq_le_sq ?_ (norm_nonneg _)
    nlinarith [sq_nonneg ‖Y‖]
  have e8 : dt * ‖G‖ ≤ beta * ‖Y - X‖ + dt * ‖Gx‖ := by
    have a1 : dt • G = beta • (Y - X) + dt • Gx := by
      rw [h2, sub_sub_cancel, smul_smul, mul_div_cancel₀ _ hbeta.ne', smul_sub]
      abel
    have a2 : ‖dt • G‖ ≤ ‖beta • (Y - X)‖ + ‖dt • Gx‖ := by rw [a1]; exact norm_add_le _ _
    rwa [norm_smul, norm_smul, norm_smul, Real.norm_of_nonneg hdt.le, Real.norm_of_nonneg hbeta.le] at a2
  have e9 := mul_le_mul_of_nonneg_left e6 hbeta.le
  have e10 := mul_le_mul_of_nonneg_left e7 hbeta.le
  exact ⟨by linarith, by linarith⟩

/-- The difference of two steps with different velocities, pressures and forces. -/
theorem C157_step (S : StepSetup vmesh pmesh quad overQuad masks bcs sem low 0 project) (hmu : 0 ≤ mu) (hdt : 0 < dt) (hk : 1 ≤ k)
    {b : Fin (k + 1) → ℝ} (hb : bdfkCoeffs k = some b) {us us' : Fin k → Vel ℝ d}
    (hus : ∀ i, FreeField vmesh masks bcs (us i - us' i)) {older older' : List (ℕ → ℝ)} {p2 p1 p2' p1' : ℕ → ℝ} {g g' : Vel ℝ d}
    {st st' : StokesSEM.Step ℝ d}
    (h : sem.oneStep low (List.ofFn us) (older ++ [p2, p1]) (sem.B g) mu dt k 0 none none project 0 0 = .ok st)
    (h' : sem.oneStep low (List.ofFn us') (older' ++ [p2', p1']) (sem.B g') mu dt k 0 none none project 0 0 = .ok st') :
    FreeField vmesh masks bcs (st.u - st'.u) ∧
    b (Fin.last k) * energyNorm sem vmesh (st.u - st'.u) ≤ ∑ i : Fin k, |b i.castSucc| * energyNorm sem vmesh (us i - us' i) +
      dt * gradNorm sem vmesh (fun j => 2 * (p1 - p1') j - (p2 - p2') j) + dt * energyNorm sem vmesh (g - g') ∧
    dt * gradNorm sem vmesh (st.p - st'.p) ≤ ∑ i : Fin k, |b i.castSucc| * energyNorm sem vmesh (us i - us' i) +
      2 * (dt * gradNorm sem vmesh (fun j => 2 * (p1 - p1') j - (p2 - p2') j)) + dt * energyNorm sem vmesh (g - g') := by
  have H := S.setup
  have hv := H.valid
  have hB : ∀ x : Vel ℝ d, (∀ j, DirichletNode masks bcs j → sem.B x j = 0) ∧ ∀ j, vmesh.numNodes ≤ j → sem.B x j = 0 := fun x =>
    (H.mem_VSpace _).mp (B_mem H.massOutside)
  obtain ⟨s1, h1, hu, hp⟩ := C156_superpose S hmu hdt hk (hB g).1 (hB g).2 (hB g').1 (hB g').2 h h' 1 (-1) []
  have e : ∀ x y : ℕ → ℝ, (1 : ℝ) • x + (-1 : ℝ) • y = x - y := fun x y => by rw [one_smul, neg_one_smul, sub_eq_add_neg]
  have e' : ∀ x y : Vel ℝ d, (1 : ℝ) • x + (-1 : ℝ) • y = x - y := fun x y => by rw [one_smul, neg_one_smul, sub_eq_add_neg]
  have eB : sem.B g - sem.B g' = sem.B (g - g') := ((BLin sem).map_sub g g').symm
  simp only [e, e', eB] at h1 hu hp
  obtain ⟨s0, h0, hF, hF', hD, w, k1, k2, k3⟩ := step_energy S hmu hdt hk hb hus [] (p2 - p2') (p1 - p1') (hB (g - g')).1 (hB (g - g')).2
  rw [h0, Except.ok.injEq] at h1
  subst h1
  have hg : gradNorm sem vmesh (st.p - st'.p) = gradNorm sem vmesh s0.p := by
    have hq := Q_noGradient hv 1 1 hp
    have e2 : ∀ q, sem.Q 1 1 (sem.Dt q) = QLin sem 1 1 (DtLin sem hv.pwf q) := fun _ => rfl
    rw [e2, map_sub, map_sub, ← e2, ← e2, sub_eq_zero, Q_one_one, Q_one_one] at hq
    rw [gradNorm_eq H, gradNorm_eq H, hq]
  have k4 : -inner ℝ (massCoord sem s0.uStar) (massCoord sem (g - g')) ≤ inner ℝ (massCoord sem s0.uStar) w := by
    have hT := hF'.mem H
    obtain ⟨_, _, hvm, _⟩ := H.fields
    have e3 : inner ℝ (massCoord sem s0.uStar) (massCoord sem (g - g')) =
        ∑ j ∈ Finset.range vmesh.numNodes, ∑ l, s0.uStar j l * sem.B (g - g') j l := by
      rw [massCoord_inner H.massPos' hT.1 H.mask01]
      unfold StokesSEM.vDot StokesSEM.numV
      rw [hvm]
    rw [k3, e3]
    have := mul_nonneg hmu (stiff_nonneg H s0.uStar)
    linarith
  obtain ⟨r1, r2⟩ := energy_bounds hdt (C37_leading k b hb).2 _ _ _ _ _ _ w _ k1 k2 k4 (grad_orthogonal H hF hD _)
    (grad_orthogonal H hF hD _)
  rw [hg, ← hu]
  simp only [energyNorm_eq H, gradNorm_eq H]
  exact ⟨hF, r1, r2⟩

/-- The factor by which a difference can grow in one step: it only depends on the coefficients of the backward differences. -/
noncomputable def growth {k : ℕ} (b : Fin (k + 1) → ℝ) : ℝ := (1 + 1 / b (Fin.last k)) * (∑ i : Fin k, |b i.castSucc| + 7)

/-- Two simulations whose initial velocities, pressure gradients and forces differ by at most `M` stay close: after `n` steps the
difference is at most `growth ^ n * M`, on every mesh, for every viscosity and time step. -/
theorem C157_run (S : StepSetup vmesh pmesh quad overQuad masks bcs sem low 0 project) (hmu : 0 ≤ mu) (hdt : 0 < dt) (hk : 1 ≤ k)
    {b : Fin (k + 1) → ℝ} (hb : bdfkCoeffs k = some b) {g g' U U' : ℕ → Vel ℝ d} {P P' : ℕ → ℕ → ℝ}
    (h : Computed sem low mu dt k 0 project (fun n => sem.B (g n)) U P)
    (h' : Computed sem low mu dt k 0 project (fun n => sem.B (g' n)) U' P') {M : ℝ}
    (hU : ∀ i < k, FreeField vmesh masks bcs (U i - U' i) ∧ energyNorm sem vmesh (U i - U' i) ≤ M)
    (hP : ∀ i < 2, dt * gradNorm sem vmesh (P i - P' i) ≤ M) (hg : ∀ n, dt * energyNorm sem vmesh (g n - g' n) ≤ M) (n : ℕ) :
    energyNorm sem vmesh (U n - U' n) ≤ growth b ^ n * M ∧ dt * gradNorm sem vmesh (P n - P' n) ≤ growth b ^ n * M := by
  have H := S.setup
  have hv := H.valid
  have hbeta := (C37_leading k b hb).2
  have hM : 0 ≤ M := (mul_nonneg hdt.le (Real.sqrt_nonneg _)).trans (hg 0)
  set s := ∑ i : Fin k, |b i.castSucc| with hs
  have hs0 : 0 ≤ s := Finset.sum_nonneg fun _ _ => abs_nonneg _
  have hinv : 0 < 1 / b (Fin.last k) := by positivity
  have hG1 : s + 7 ≤ growth b := by
    unfold growth
    nlinarith [mul_nonneg hinv.le (add_nonneg hs0 (by norm_num : (0 : ℝ) ≤ 7))]
  have hG2 : (s + 4) / b (Fin.last k) ≤ growth b := by
    unfold growth
    rw [div_eq_mul_one_div]
    nlinarith
  have hGn : ∀ n : ℕ, 1 ≤ growth b ^ n := fun n => one_le_pow₀ (by linarith)
  have key : ∀ n, (∀ i < k, FreeField vmesh masks bcs (U (n + i) - U' (n + i)) ∧
      energyNorm sem vmesh (U (n + i) - U' (n + i)) ≤ growth b ^ n * M) ∧
      dt * gradNorm sem vmesh (P n - P' n) ≤ growth b ^ n * M ∧ dt * gradNorm sem vmesh (P (n + 1) - P' (n + 1)) ≤ growth b ^ n * M := by
    intro n
    induction n with
    | zero =>
      rw [pow_zero, one_mul]
      refine ⟨fun i hi => by rw [zero_add]; exact hU i hi, hP 0 (by norm_num), hP 1 (by norm_num)⟩
    | succ n ih =>
      obtain ⟨h1, h2, h3⟩ := ih
      obtain ⟨st, e1, e2, e3⟩ := h n
      obtain ⟨st', e1', e2', e3'⟩ := h' n
      obtain ⟨f1, f2, f3⟩ := C157_step (older := []) (older' := []) S hmu hdt hk hb (fun i => (h1 i i.2).1) e1 e1'
      set N := growth b ^ n * M with hN
      have hN0 : M ≤ N := le_mul_of_one_le_left hM (hGn n)
      have hstep : N ≤ growth b ^ (n + 1) * M := by
        rw [pow_succ, mul_comm (growth b ^ n), mul_assoc, ← hN]
        exact le_mul_of_one_le_left (hM.trans hN0) (by linarith)
      have a1 : ∑ i : Fin k, |b i.castSucc| * energyNorm sem vmesh (U (n + i) - U' (n + i)) ≤ s * N := by
        rw [hs, Finset.sum_mul]
        exact Finset.sum_le_sum fun i _ => mul_le_mul_of_nonneg_left (h1 i i.2).2 (abs_nonneg _)
      have a2 : dt * gradNorm sem vmesh (fun j => 2 * (P (n + 1) - P' (n + 1)) j - (P n - P' n) j) ≤ 3 * N := by
        have q1 : (fun j => 2 * (P (n + 1) - P' (n + 1)) j - (P n - P' n) j) = (2 : ℝ) • (P (n + 1) - P' (n + 1)) - (P n - P' n) := rfl
        have q2 : ∀ q, sem.Bi (sem.Dt q) = QLin sem 1 1 (DtLin sem hv.pwf q) := fun q => (Q_one_one _).symm
        rw [q1, gradNorm_eq H, q2, map_sub, map_smul, map_sub, map_smul, ← q2, ← q2, map_sub, map_smul]
        have q3 := norm_sub_le ((2 : ℝ) • massCoord sem (sem.Bi (sem.Dt (P (n + 1) - P' (n + 1)))))
          (massCoord sem (sem.Bi (sem.Dt (P n - P' n))))
        rw [norm_smul, Real.norm_of_nonneg (by norm_num : (0 : ℝ) ≤ 2), ← gradNorm_eq H, ← gradNorm_eq H] at q3
        have q4 := mul_le_mul_of_nonneg_left q3 hdt.le
        linarith
      have a3 := (hg n).trans hN0
      have a4 : b (Fin.last k) * energyNorm sem vmesh (st.u - st'.u) ≤ (s + 4) * N := by linarith
      have a5 : dt * gradNorm sem vmesh (st.p - st'.p) ≤ (s + 7) * N := by linarith
      have hNn : 0 ≤ N := hM.trans hN0
      have a6 : energyNorm sem vmesh (st.u - st'.u) ≤ growth b ^ (n + 1) * M := by
        have q1 : energyNorm sem vmesh (st.u - st'.u) ≤ (s + 4) / b (Fin.last k) * N := by
          rw [div_mul_eq_mul_div, le_div_iff₀ hbeta, mul_comm]
          exact a4
        rw [pow_succ, mul_comm (growth b ^ n), mul_assoc, ← hN]
        exact q1.trans (mul_le_mul_of_nonneg_right hG2 hNn)
      have a7 : dt * gradNorm sem vmesh (st.p - st'.p) ≤ growth b ^ (n + 1) * M := by
        rw [pow_succ, mul_comm (growth b ^ n), mul_assoc, ← hN]
        exact a5.trans (mul_le_mul_of_nonneg_right hG1 hNn)
      refine ⟨fun i hi => ?_, h3.trans hstep, ?_⟩
      · rcases Nat.lt_or_ge (i + 1) k with hlt | hge
        · have := h1 (i + 1) hlt
          rw [show n + (i + 1) = n + 1 + i by omega] at this
          exact ⟨this.1, this.2.trans hstep⟩
        · rw [show n + 1 + i = n + k by omega, e2, e2']
          exact ⟨f1, a6⟩
      · rw [show n + 1 + 1 = n + 2 by omega, e3, e3']
        exact a7
  obtain ⟨h1, h2, _⟩ := key n
  exact ⟨by simpa using (h1 0 (by omega)).2, h2⟩

/-- A square with walls: a simulation that starts with a vortex and one that starts at rest, with different forces. -/
example : ∃ cs : CubeStokes 2, cubeStokes 4 2 7 1 0 1 [] [("boundary", .dirichlet)] = .ok cs ∧
    StepSetup cs.vmesh cs.pmesh cs.quad cs.overQuad cs.masks [("boundary", .dirichlet)] cs.sem cs.low 0 true ∧
    ∃ (U U' : ℕ → Vel ℝ 2) (P P' : ℕ → ℕ → ℝ),
      Computed cs.sem cs.low (1/10) (1/100) 3 0 true (fun n => cs.sem.B fun j _ => 1 / (n + j + 1)) U P ∧
      Computed cs.sem cs.low (1/10) (1/100) 3 0 true (fun _ => cs.sem.B 0) U' P' ∧
      (∀ i < 3, FreeField cs.vmesh cs.masks [("boundary", .dirichlet)] (U i - U' i)) ∧ U 0 ≠ U' 0 := by
  have hb : CubeBCs 2 [] [("boundary", .dirichlet)] := Or.inl ⟨rfl, 0, by simp⟩
  obtain ⟨cs, hcs⟩ := C92_create (over := 1) (n := 4) (d := 2) (p := 7) (a := 0) (b := 1) (by norm_num) (by norm_num)
    (by norm_num) (by norm_num) [] hb
  obtain ⟨vnode, pnode, l, hC⟩ := cubeStokes_of (by norm_num) (by norm_num) (by norm_num) (by norm_num) hb hcs
  have S : StepSetup cs.vmesh cs.pmesh cs.quad cs.overQuad cs.masks [("boundary", .dirichlet)] cs.sem cs.low 0 true :=
    hC.stepSetup (by norm_num) (by norm_num) (by norm_num) hb 0 true (fun _ => Or.inl (by simp))
  obtain ⟨z, hz, y, hy, q, hDz, hzy, hpos, hq⟩ := hC.exists_vortex (by norm_num) (by norm_num) (by norm_num)
  have hB : ∀ x : Vel ℝ 2, (∀ j, DirichletNode cs.masks [("boundary", .dirichlet)] j → cs.sem.B x j = 0) ∧
      ∀ j, cs.vmesh.numNodes ≤ j → cs.sem.B x j = 0 := fun x => (S.setup.mem_VSpace _).mp (B_mem S.setup.massOutside)
  obtain ⟨U, P, h1, h2, _⟩ := computed_exists (timeOrder := 3) (f := fun n => cs.sem.B fun j _ => 1 / ((n : ℝ) + j + 1)) S
    (mu := 1/10) (dt := 1/100) (by norm_num) (by norm_num) (by norm_num) (fun _ => (hB _).1) (fun _ => (hB _).2) (fun _ => z) (fun _ _ => 0)
  obtain ⟨U', P', h1', h2', _⟩ := computed_exists (timeOrder := 3) (f := fun _ => cs.sem.B 0) S
    (mu := 1/10) (dt := 1/100) (by norm_num) (by norm_num) (by norm_num) (fun _ => (hB _).1) (fun _ => (hB _).2) (fun _ => 0) (fun _ _ => 0)
  refine ⟨cs, hcs, S, U, U', P, P', h1, h1', fun i hi => ?_, ?_⟩
  · rw [h2 i hi, h2' i hi, sub_zero]
    exact FreeField.of_mem S.setup hz
  · rw [h2 0 (by norm_num), h2' 0 (by norm_num)]
    rintro rfl
    have hA0 : cs.sem.A 0 = 0 := (ALin cs.sem S.setup.valid.vwf).map_zero
    have h1 := hzy y hy
    rw [hA0, vDot_zero_right, eq_comm, neg_eq_zero] at h1
    rw [eq_zero_of_mass S.setup hy h1] at hpos
    simp [StokesSEM.vDot] at hpos

end Verif.NS
