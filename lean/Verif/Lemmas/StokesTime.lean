import Verif.Lemmas.StokesGrad
import Mathlib.Analysis.InnerProductSpace.PiL2
import Mathlib.Analysis.Normed.Module.FiniteDimension

/-!
# The error equations of a Stokes step

Velocities in the inner product of the mass matrix, and the equations for the errors of one step with exact solves and
without the filter.
-/

set_option linter.unusedSectionVars false

namespace Verif.NS

open Verif.Core Verif.Linalg Verif.Spec

variable {d : ℕ} {sem : StokesSEM ℝ d}

/-- Velocities in coordinates in which the mass matrix is the identity. -/
noncomputable def massCoord (sem : StokesSEM ℝ d) : Vel ℝ d →ₗ[ℝ] EuclideanSpace ℝ (Fin sem.numV × Fin d) where
  toFun x := WithLp.toLp 2 (fun i => Real.sqrt (sem.massDiag i.1 i.2) * x i.1 i.2)
  map_add' x y := by ext i; simp [mul_add]
  map_smul' c x := by ext i; simp; ring

@[simp] theorem massCoord_apply (x : Vel ℝ d) (i : Fin sem.numV × Fin d) :
    massCoord sem x i = Real.sqrt (sem.massDiag i.1 i.2) * x i.1 i.2 := rfl

/-- The velocity with given coordinates. -/
noncomputable def massCoordInv (sem : StokesSEM ℝ d) : EuclideanSpace ℝ (Fin sem.numV × Fin d) →ₗ[ℝ] Vel ℝ d where
  toFun y := fun j k => if h : j < sem.numV then y (⟨j, h⟩, k) / Real.sqrt (sem.massDiag j k) else 0
  map_add' x y := by
    funext j k
    simp only [Pi.add_apply, PiLp.add_apply]
    split <;> simp [add_div]
  map_smul' c x := by
    funext j k
    simp only [Pi.smul_apply, PiLp.smul_apply, smul_eq_mul, RingHom.id_apply]
    split <;> simp [mul_div_assoc]

variable (hmass : ∀ j < sem.numV, ∀ k, 0 < sem.massDiag j k)

include hmass

theorem massCoordInv_apply {x : Vel ℝ d} (hx : ∀ j, sem.numV ≤ j → x j = 0) : massCoordInv sem (massCoord sem x) = x := by
  funext j k
  change (if h : j < sem.numV then massCoord sem x (⟨j, h⟩, k) / Real.sqrt (sem.massDiag j k) else 0) = x j k
  split_ifs with h
  · rw [massCoord_apply]
    have := Real.sqrt_pos.mpr (hmass j h k)
    simp only
    field_simp
  · rw [hx j (not_lt.mp h)]
    rfl

theorem massCoord_inner {x : Vel ℝ d} (hx : x ∈ VSpace sem) (hmask : ∀ j, sem.mask j = 0 ∨ sem.mask j = 1) (y : Vel ℝ d) :
    inner ℝ (massCoord sem x) (massCoord sem y) = sem.vDot x (sem.B y) := by
  rw [PiLp.inner_apply, Fintype.sum_prod_type]
  unfold StokesSEM.vDot
  rw [← Fin.sum_univ_eq_sum_range (fun j => ∑ k, x j k * sem.B y j k)]
  refine Finset.sum_congr rfl fun j _ => Finset.sum_congr rfl fun k _ => ?_
  rw [massCoord_apply, massCoord_apply]
  have h1 := Real.mul_self_sqrt (hmass j j.2 k).le
  simp only [StokesSEM.B, RCLike.inner_apply, conj_trivial]
  rcases hmask j with h0 | h0
  · rw [hx j (Or.inr h0)]
    simp
  · rw [h0]
    linear_combination (x j k * y j k) * h1

/-- Linear maps are bounded on velocities that live on the nodes. -/
theorem massCoord_bound (F : Vel ℝ d →ₗ[ℝ] Vel ℝ d) :
    ∃ L, 0 ≤ L ∧ ∀ x : Vel ℝ d, (∀ j, sem.numV ≤ j → x j = 0) → ‖massCoord sem (F x)‖ ≤ L * ‖massCoord sem x‖ := by
  let T := LinearMap.toContinuousLinearMap ((massCoord sem).comp (F.comp (massCoordInv sem)))
  refine ⟨‖T‖, norm_nonneg _, fun x hx => ?_⟩
  have := T.le_opNorm (massCoord sem x)
  have e : T (massCoord sem x) = massCoord sem (F x) := by
    change massCoord sem (F (massCoordInv sem (massCoord sem x))) = _
    rw [massCoordInv_apply hmass hx]
  rwa [e] at this

/-- Linear maps of pressures. -/
theorem massCoord_bound_entries : ∃ c, 0 < c ∧ (∀ x : Vel ℝ d, ∀ j < sem.numV, ∀ k, |x j k| ≤ c * ‖massCoord sem x‖) ∧
    ∀ (x : Vel ℝ d) (r : ℝ), (∀ j < sem.numV, ∀ k, |x j k| ≤ r) → 0 ≤ r → ‖massCoord sem x‖ ≤ c * r := by
  obtain ⟨c1, hc1⟩ : ∃ c1, c1 = ∑ i : Fin sem.numV × Fin d, 1 / Real.sqrt (sem.massDiag i.1 i.2) := ⟨_, rfl⟩
  obtain ⟨c2, hc2⟩ : ∃ c2, c2 = ∑ i : Fin sem.numV × Fin d, Real.sqrt (sem.massDiag i.1 i.2) := ⟨_, rfl⟩
  have h1 : 0 ≤ c1 := by rw [hc1]; positivity
  have h2 : 0 ≤ c2 := by rw [hc2]; positivity
  refine ⟨c1 + c2 + 1, by positivity, fun x j hj k => ?_, fun x r hr hr0 => ?_⟩
  · have hs := Real.sqrt_pos.mpr (hmass j hj k)
    have e1 : |massCoord sem x (⟨j, hj⟩, k)| ≤ ‖massCoord sem x‖ := by
      have := PiLp.norm_apply_le (massCoord sem x) (⟨j, hj⟩, k)
      rwa [Real.norm_eq_abs] at this
    rw [massCoord_apply, abs_mul, abs_of_pos hs] at e1
    simp only at e1
    have e2 : 1 / Real.sqrt (sem.massDiag j k) ≤ c1 := by
      rw [hc1]
      exact Finset.single_le_sum (f := fun i : Fin sem.numV × Fin d => 1 / Real.sqrt (sem.massDiag i.1 i.2))
        (fun _ _ => by positivity) (Finset.mem_univ (⟨j, hj⟩, k))
    have e3 : |x j k| ≤ 1 / Real.sqrt (sem.massDiag j k) * ‖massCoord sem x‖ := by
      rw [div_mul_eq_mul_div, one_mul, le_div_iff₀ hs]
      linarith
    refine e3.trans (mul_le_mul_of_nonneg_right ?_ (norm_nonneg _))
    linarith
  · have e1 : ‖massCoord sem x‖ ≤ ∑ i, ‖massCoord sem x i‖ := by
      have h3 : massCoord sem x = ∑ i, EuclideanSpace.single i (massCoord sem x i) := by
        ext i
        simp [EuclideanSpace.single_apply]
      calc ‖massCoord sem x‖ = ‖∑ i, EuclideanSpace.single i (massCoord sem x i)‖ := by rw [← h3]
        _ ≤ ∑ i, ‖EuclideanSpace.single i (massCoord sem x i)‖ := norm_sum_le _ _
        _ = ∑ i, ‖massCoord sem x i‖ := Finset.sum_congr rfl fun i _ => by rw [EuclideanSpace.norm_single]
    have e2 : ∑ i, ‖massCoord sem x i‖ ≤ c2 * r := by
      rw [hc2, Finset.sum_mul]
      refine Finset.sum_le_sum fun i _ => ?_
      rw [massCoord_apply, Real.norm_eq_abs, abs_mul, abs_of_nonneg (Real.sqrt_nonneg _)]
      exact mul_le_mul_of_nonneg_left (hr _ i.1.2 _) (Real.sqrt_nonneg _)
    refine e1.trans (e2.trans (mul_le_mul_of_nonneg_right ?_ hr0))
    linarith

omit hmass

/-- The inverse mass matrix inverts the mass matrix on velocities that agree on copies. -/
theorem vDot_B_Q (hfin : sem.finite) (hmask : ∀ j, sem.mask j = 0 ∨ sem.mask j = 1) {v : Vel ℝ d} (hv : v ∈ TSpace sem)
    (y : Vel ℝ d) : sem.vDot v (sem.B (sem.Q 1 1 y)) = sem.vDot v y := by
  unfold StokesSEM.vDot
  rw [Finset.sum_comm, Finset.sum_comm (f := fun p k => v p k * y p k)]
  refine Finset.sum_congr rfl fun k _ => ?_
  have hz : Continuous sem.vspace.mesh (fun j => v j k * sem.Q 1 1 y j k) := by
    intro i hi j hj h
    have e0 : v i k = v j k := hv.2 k i hi j hj h
    have e1 : vExchange sem.vspace.mesh sem.massDiag i k = vExchange sem.vspace.mesh sem.massDiag j k := exchange_same _ _ hi hj h
    have e2 : vExchange sem.vspace.mesh y i k = vExchange sem.vspace.mesh y j k := exchange_same _ _ hi hj h
    simp only [StokesSEM.Q, StokesSEM.Bi, e0, e1, e2]
  have h1 := sum_continuous sem.vspace.mesh (fun j => v j k * sem.Q 1 1 y j k) (fun j => sem.massDiag j k) hz
  have h2 := sum_continuous sem.vspace.mesh (fun j => v j k) (fun j => y j k) (hv.2 k)
  have h3 : ∑ j ∈ Finset.range sem.numV, v j k * sem.B (sem.Q 1 1 y) j k =
      ∑ j ∈ Finset.range sem.vspace.mesh.numNodes, v j k * sem.Q 1 1 y j k * sem.massDiag j k := by
    refine Finset.sum_congr rfl fun j _ => ?_
    simp only [StokesSEM.B]
    rcases hmask j with h0 | h0
    · rw [hv.1 j (Or.inr h0)]
      simp
    · rw [h0]
      ring
  rw [h3, h1]
  refine Eq.trans ?_ h2.symm
  refine Finset.sum_congr rfl fun j hj => ?_
  have hm := (hfin j (Finset.mem_range.mp hj)).2 k
  have hm' : sem.vspace.mesh.exchange (fun p => sem.massDiag p k) j ≠ 0 := hm
  simp only [StokesSEM.Q, StokesSEM.Bi, vExchange]
  field_simp

theorem Q_scale (dt beta : ℝ) (y : Vel ℝ d) : sem.Q dt beta y = (dt / beta) • sem.Q 1 1 y := by
  funext j k
  simp [StokesSEM.Q]

theorem H_eq (mu dt beta : ℝ) (u : Vel ℝ d) : sem.H mu dt beta u = (beta / dt) • sem.B u + mu • sem.A u := rfl

variable {vmesh pmesh : Mesh ℝ d} {quad overQuad : Quadrature1D ℝ} {masks : List (String × (ℕ → Bool))}
  {bcs : List (String × BCType)} {low : Nodes1D ℝ} {mu dt : ℝ} {k : ℕ} {project : Bool}

theorem StokesSetup.mask01 (H : StokesSetup vmesh pmesh quad overQuad masks bcs sem) (j : ℕ) : sem.mask j = 0 ∨ sem.mask j = 1 := by
  obtain ⟨_, _, _, _, hmask, _, _⟩ := H.fields
  by_cases h : DirichletNode masks bcs j
  · exact Or.inl ((hmask j).1 h)
  · exact Or.inr ((hmask j).2 h)

theorem B_masked (hmask : ∀ j, sem.mask j = 0 ∨ sem.mask j = 1) (y : Vel ℝ d) : sem.B (sem.masked y) = sem.B y := by
  funext j k
  simp only [StokesSEM.B, StokesSEM.masked]
  rcases hmask j with h | h <;> rw [h] <;> ring

/-- A velocity of the space that is orthogonal to the space in the mass inner product vanishes. -/
theorem eq_zero_of_mass (H : StokesSetup vmesh pmesh quad overQuad masks bcs sem) {r : Vel ℝ d} (hr : r ∈ TSpace sem)
    (h : sem.vDot r (sem.B r) = 0) : r = 0 := by
  rw [← massCoord_inner H.massPos' hr.1 H.mask01, inner_self_eq_zero] at h
  rw [← massCoordInv_apply H.massPos' (fun j hj => hr.1 j (Or.inl hj)), h, map_zero]

/-- One step with exact solves, without the filter, next to reference values `W` of the velocities, `W'` of the time
derivative, `q2`, `q1`, `q0` of the pressures and `fe` of the force that satisfy the equations. -/
theorem step_error (S : StepSetup vmesh pmesh quad overQuad masks bcs sem low 0 project) (hmu : 0 ≤ mu) (hdt : 0 < dt)
    (hk : 1 ≤ k) {b : Fin (k + 1) → ℝ} (hb : bdfkCoeffs k = some b) (U : Fin k → Vel ℝ d) (older : List (ℕ → ℝ))
    (p2 p1 : ℕ → ℝ) {f : Vel ℝ d} (hf : f ∈ VSpace sem) (ub : Option (Vel ℝ d)) (W : Fin (k + 1) → Vel ℝ d) (W' : Vel ℝ d)
    (q0 : ℕ → ℝ) {fe : Vel ℝ d} (hfe : fe ∈ VSpace sem) (hU : ∀ i : Fin k, U i - W i.castSucc ∈ TSpace sem)
    (hW : W (Fin.last k) - ub.getD 0 ∈ TSpace sem) (hWD : sem.D (W (Fin.last k)) = 0)
    (hτ : sem.masked (W' - (1 / dt) • ∑ i, b i • W i) ∈ TSpace sem)
    (href : ∀ v ∈ TSpace sem, sem.vDot v (sem.B W') + mu * sem.vDot v (sem.A (W (Fin.last k))) =
      sem.vDot v fe + sem.vDot v (sem.Dt q0)) :
    ∃ st, sem.oneStep low (List.ofFn U) (older ++ [p2, p1]) f mu dt k 0 ub none project 0 0 = .ok st ∧
      st.u - W (Fin.last k) ∈ TSpace sem ∧ st.uStar - W (Fin.last k) ∈ TSpace sem ∧ sem.D st.u = 0 ∧
      b (Fin.last k) • (st.u - W (Fin.last k)) + ∑ i : Fin k, b i.castSucc • (U i - W i.castSucc) =
        dt • (sem.Q 1 1 (sem.Dt (st.p - q0)) - mu • sem.Q 1 1 (sem.A (st.uStar - W (Fin.last k))) +
          (sem.masked (W' - (1 / dt) • ∑ i, b i • W i) + sem.Q 1 1 (f - fe))) ∧
      st.uStar - W (Fin.last k) = st.u - W (Fin.last k) -
        (dt / b (Fin.last k)) • sem.Q 1 1 (sem.Dt (st.p - (2 : ℝ) • p1 + p2)) := by
  have H := S.setup
  have hv := H.valid
  obtain ⟨_, _, hvm, _⟩ := H.fields
  have F : FilterSetup sem.vspace.mesh low := by rw [hvm]; exact S.filter
  obtain ⟨c, hc, _⟩ := C36_exact (K := ℝ) 1 le_rfl
  have hbeta := (C37_leading k b hb).2
  obtain ⟨beta, hbd⟩ : ∃ beta, beta = b (Fin.last k) := ⟨_, rfl⟩
  rw [← hbd] at hbeta
  have hdb : 0 < dt / beta := div_pos hdt hbeta
  obtain ⟨pExt, hpE⟩ : ∃ pExt : ℕ → ℝ, pExt = fun j => 2 * p1 j - p2 j := ⟨_, rfl⟩
  have hlift : ∀ x : Vel ℝ d, lift x ub = x + ub.getD 0 := by
    intro x
    cases ub with
    | none => exact (add_zero x).symm
    | some u => rfl
  have hrhsub : stepRhs sem (List.ofFn U) pExt f mu dt k b ub =
      stepRhs sem (List.ofFn U) pExt f mu dt k b none - sem.H mu dt beta (ub.getD 0) := by
    cases ub with
    | none =>
      have : sem.H mu dt beta 0 = 0 := by rw [← HLin_apply sem hv.vwf]; exact map_zero _
      simp [this]
    | some u => rw [hbd]; rfl
  have hrhs := stepRhs_mem (us := List.ofFn U) (mu := mu) (dt := dt) H.massOutside hf pExt b ub
  obtain ⟨x, r1, m1, hcg1, hxT, hx⟩ := velocity_exact hv H.massOutside H.massPos' H.stiff mu dt beta hmu hdt hbeta _ hrhs
  obtain ⟨uS, huS⟩ : ∃ uS, uS = x + ub.getD 0 := ⟨_, rfl⟩
  have hfil : sem.filter low 0 (lift x ub) = some uS := by rw [hlift, filter_zero F, huS]
  have hwT : uS - W (Fin.last k) ∈ TSpace sem := by
    have : uS - W (Fin.last k) = x - (W (Fin.last k) - ub.getD 0) := by rw [huS]; abel
    rw [this]
    exact (TSpace sem).sub_mem hxT hW
  have hDS : sem.D uS = sem.D (uS - W (Fin.last k)) := by
    have := (DLin sem).map_sub uS (W (Fin.last k))
    have h2 : sem.D (uS - W (Fin.last k)) = sem.D uS - sem.D (W (Fin.last k)) := this
    rw [h2, hWD, sub_zero]
  have hneg : -sem.D uS ∈ PSpace sem := by
    rw [hDS]
    exact (PSpace sem).neg_mem (D_mem hwT)
  obtain ⟨dp, r2, m2, hcg2, hdp⟩ := pressure_exact hv S.pressure dt beta hdb _ hneg
  have hnan : ¬ (¬ sem.finite ∨ dt = 0 ∨ b (Fin.last k) = 0 ∨
      ((StokesSEM.choosePrecond (K := ℝ) none project).isProject = true ∧
        nodeDot sem.numP (fun _ => 1) (sem.pressureB (fun _ => 1)) = 0)) := by
    push Not
    refine ⟨H.finite, hdt.ne', by rw [← hbd]; exact hbeta.ne', ?_⟩
    cases hproj : project with
    | false => simp [StokesSEM.choosePrecond, StokesSEM.PPrecond.isProject]
    | true =>
      intro _
      obtain ⟨HP, _⟩ := S.pressure hproj
      rw [mean_eq HP]
      have : integrate sem.pspace (scalarFn sem.pspace (pmesh.gather (fun _ => (1 : ℝ)))) = integrate sem.pspace (fun _ _ => 1) := by
        apply integrate_congr
        intro m hm q hq
        exact gather_one HP 1 m (by rw [← HP.mesh_eq]; exact hm) q hq
      rw [this]
      exact HP.volume
  have hQT : sem.Q dt beta (sem.Dt dp) ∈ TSpace sem := Q_mem hv dt beta (Dt_mem dp)
  have hst : sem.oneStep low (List.ofFn U) (older ++ [p2, p1]) f mu dt k 0 ub none project 0 0 =
      .ok ⟨uS + sem.Q dt beta (sem.Dt dp), pExt + dp, uS, r1, m1, r2, m2⟩ := by
    unfold StokesSEM.oneStep
    simp only [hc, extrapolate_eq hc, hb]
    rw [if_neg hnan]
    rw [hpE] at hcg1
    simp only [← hbd]
    clear hW hwT hDS hneg hrhs hx hrhsub huS hlift
    cases ub with
    | none =>
      unfold stepRhs at hcg1
      unfold lift at hfil
      simp only [hcg1, hfil, hcg2, hpE]
    | some u =>
      unfold stepRhs at hcg1
      unfold lift at hfil
      rw [← hbd] at hcg1
      simp only [hcg1, hfil, hcg2, hpE]
  refine ⟨_, hst, ?_, hwT, ?_, ?_, ?_⟩
  · have : uS + sem.Q dt beta (sem.Dt dp) - W (Fin.last k) = (uS - W (Fin.last k)) + sem.Q dt beta (sem.Dt dp) := by abel
    change uS + sem.Q dt beta (sem.Dt dp) - W (Fin.last k) ∈ _
    rw [this]
    exact (TSpace sem).add_mem hwT hQT
  · change sem.D (uS + sem.Q dt beta (sem.Dt dp)) = 0
    rw [D_step, hdp]
    abel
  · -- the momentum equation
    simp only
    rw [← hbd]
    obtain ⟨w, hw⟩ : ∃ w, w = uS - W (Fin.last k) := ⟨_, rfl⟩
    obtain ⟨e, he⟩ : ∃ e, e = uS + sem.Q dt beta (sem.Dt dp) - W (Fin.last k) := ⟨_, rfl⟩
    obtain ⟨h, hh⟩ : ∃ h, h = ∑ i : Fin k, b i.castSucc • (U i - W i.castSucc) := ⟨_, rfl⟩
    obtain ⟨τ, hτd⟩ : ∃ τ, τ = sem.masked (W' - (1 / dt) • ∑ i, b i • W i) := ⟨_, rfl⟩
    rw [← hw, ← he, ← hh, ← hτd]
    rw [← hw] at hwT
    rw [← hτd] at hτ
    have heT : e ∈ TSpace sem := by
      have : e = w + sem.Q dt beta (sem.Dt dp) := by rw [he, hw]; abel
      rw [this]
      exact (TSpace sem).add_mem hwT hQT
    have hhT : h ∈ TSpace sem := by
      rw [hh]
      exact (TSpace sem).sum_mem fun i _ => (TSpace sem).smul_mem _ (hU i)
    obtain ⟨r, hr⟩ : ∃ r, r = beta • e + h - dt • (sem.Q 1 1 (sem.Dt (pExt + dp - q0)) - mu • sem.Q 1 1 (sem.A w) +
      (τ + sem.Q 1 1 (f - fe))) := ⟨_, rfl⟩
    suffices hs : r = 0 by
      rw [hr] at hs
      exact sub_eq_zero.mp hs
    have hrT : r ∈ TSpace sem := by
      rw [hr]
      refine (TSpace sem).sub_mem ((TSpace sem).add_mem ((TSpace sem).smul_mem _ heT) hhT) ((TSpace sem).smul_mem _ ?_)
      exact (TSpace sem).add_mem ((TSpace sem).sub_mem (Q_mem hv 1 1 (Dt_mem _)) ((TSpace sem).smul_mem _ (Q_mem hv 1 1 (A_mem w))))
        ((TSpace sem).add_mem hτ (Q_mem hv 1 1 ((VSpace sem).sub_mem hf hfe)))
    refine eq_zero_of_mass H hrT ?_
    have hBl : ∀ y z : Vel ℝ d, sem.B (y - z) = sem.B y - sem.B z := fun y z => (BLin sem).map_sub y z
    have hBa : ∀ y z : Vel ℝ d, sem.B (y + z) = sem.B y + sem.B z := fun y z => (BLin sem).map_add y z
    have hBs : ∀ (s : ℝ) (y : Vel ℝ d), sem.B (s • y) = s • sem.B y := fun s y => (BLin sem).map_smul s y
    have hAl : ∀ y z : Vel ℝ d, sem.A (y - z) = sem.A y - sem.A z := fun y z => (ALin sem hv.vwf).map_sub y z
    have hDa : ∀ y z : ℕ → ℝ, sem.Dt (y + z) = sem.Dt y + sem.Dt z := fun y z => (DtLin sem hv.pwf).map_add y z
    have hDl : ∀ y z : ℕ → ℝ, sem.Dt (y - z) = sem.Dt y - sem.Dt z := fun y z => (DtLin sem hv.pwf).map_sub y z
    have hBQ : ∀ y, sem.vDot r (sem.B (sem.Q 1 1 y)) = sem.vDot r y := fun y => vDot_B_Q H.finite H.mask01 hrT y
    -- the solve
    have h1 := hx r hrT
    rw [hrhsub, vDot_sub_right] at h1
    have h2 : sem.vDot r (sem.H mu dt beta uS) = sem.vDot r (stepRhs sem (List.ofFn U) pExt f mu dt k b none) := by
      have : sem.H mu dt beta uS = sem.H mu dt beta x + sem.H mu dt beta (ub.getD 0) := by
        rw [huS, ← HLin_apply sem hv.vwf, ← HLin_apply sem hv.vwf, ← HLin_apply sem hv.vwf, map_add]
      rw [this, vDot_add_right]
      linarith
    have hhist : (fun p l => (1 / dt) * StokesSEM.history (List.ofFn (fun i : Fin k => b i.castSucc)) (List.ofFn U) p l) =
        (1 / dt) • ∑ i : Fin k, b i.castSucc • U i := by
      funext p l
      rw [C43_history]
      simp [Finset.sum_apply]
    rw [H_eq, stepRhs, hhist, vDot_add_right, vDot_smul_right, vDot_smul_right, vDot_sub_right, vDot_add_right, hBs,
      vDot_smul_right] at h2
    have h3 := href r hrT
    have huw : uS = e + W (Fin.last k) - sem.Q dt beta (sem.Dt dp) := by rw [he]; abel
    have h4 : beta / dt * sem.vDot r (sem.B uS) = beta / dt * sem.vDot r (sem.B e) +
        beta / dt * sem.vDot r (sem.B (W (Fin.last k))) - sem.vDot r (sem.Dt dp) := by
      rw [huw, hBl, hBa, vDot_sub_right, vDot_add_right, Q_scale, hBs, vDot_smul_right, hBQ]
      field_simp
    have h5 : sem.vDot r (sem.A w) = sem.vDot r (sem.A uS) - sem.vDot r (sem.A (W (Fin.last k))) := by
      rw [hw, hAl, vDot_sub_right]
    have h6 : sem.vDot r (sem.B τ) = sem.vDot r (sem.B W') - 1 / dt * (sem.vDot r (sem.B (∑ i : Fin k, b i.castSucc • W i.castSucc)) +
        beta * sem.vDot r (sem.B (W (Fin.last k)))) := by
      rw [hτd, B_masked H.mask01, hBl, vDot_sub_right, hBs, vDot_smul_right, Fin.sum_univ_castSucc, hBa, vDot_add_right, ← hbd, hBs, vDot_smul_right]
    have h7 : sem.vDot r (sem.B h) = sem.vDot r (sem.B (∑ i : Fin k, b i.castSucc • U i)) -
        sem.vDot r (sem.B (∑ i : Fin k, b i.castSucc • W i.castSucc)) := by
      rw [hh, ← vDot_sub_right, ← hBl, ← Finset.sum_sub_distrib]
      congr 2
      exact Finset.sum_congr rfl fun i _ => smul_sub _ _ _
    have h8 : sem.vDot r (sem.B r) = beta * sem.vDot r (sem.B e) + sem.vDot r (sem.B h) - dt * (sem.vDot r (sem.Dt pExt) +
        sem.vDot r (sem.Dt dp) - sem.vDot r (sem.Dt q0) - mu * sem.vDot r (sem.A w) + (sem.vDot r (sem.B τ) +
          (sem.vDot r f - sem.vDot r fe))) := by
      have : sem.B r = beta • sem.B e + sem.B h - dt • (sem.B (sem.Q 1 1 (sem.Dt (pExt + dp - q0))) -
          mu • sem.B (sem.Q 1 1 (sem.A w)) + (sem.B τ + sem.B (sem.Q 1 1 (f - fe)))) := by
        conv_lhs => rw [hr]
        simp only [hBl, hBa, hBs]
      rw [this, vDot_sub_right, vDot_add_right, vDot_smul_right, vDot_smul_right, vDot_add_right, vDot_sub_right, hBQ,
        vDot_smul_right, hBQ, vDot_add_right, hBQ, hDl, hDa, vDot_sub_right, vDot_add_right, vDot_sub_right]
    rw [h4] at h2
    rw [h8, h7, h6, h5]
    have hdt' := hdt.ne'
    have h9 : beta * sem.vDot r (sem.B e) = dt * (beta / dt * sem.vDot r (sem.B e)) := by field_simp
    rw [h9]
    have h10 : beta / dt * sem.vDot r (sem.B (W (Fin.last k))) = 1 / dt * (beta * sem.vDot r (sem.B (W (Fin.last k)))) := by ring
    have h11 : sem.vDot r (sem.B (∑ i : Fin k, b i.castSucc • U i)) =
        dt * (1 / dt * sem.vDot r (sem.B (∑ i : Fin k, b i.castSucc • U i))) := by field_simp
    have h12 : sem.vDot r (sem.B (∑ i : Fin k, b i.castSucc • W i.castSucc)) =
        dt * (1 / dt * sem.vDot r (sem.B (∑ i : Fin k, b i.castSucc • W i.castSucc))) := by field_simp
    rw [h10] at h2
    linear_combination dt * h2 - dt * h3 + h11 - h12
  · simp only
    rw [← hbd, ← Q_scale]
    have : pExt + dp - (2 : ℝ) • p1 + p2 = dp := by
      rw [hpE]
      funext j
      simp only [Pi.add_apply, Pi.sub_apply, Pi.smul_apply, smul_eq_mul]
      ring
    rw [this]
    abel

end Verif.NS
