import Verif.Lemmas.StokesConv
import Verif.Lemmas.StokesExact

/-!
# Forces that are gradients

Two exact steps from the same histories whose forces differ by a gradient.
-/

namespace Verif.NS

open Verif.Core Verif.Linalg Verif.Spec

section general

variable {K : Type*} [Field K] [LinearOrder K] {d : ℕ} {sem : StokesSEM K d} {low : Nodes1D K} {us : List (Vel K d)}
  {ps : List (ℕ → K)} {f : Vel K d} {mu dt alpha tol atol : K} {timeOrder : ℕ} {ub : Option (Vel K d)}
  {precond : Option ((ℕ → K) → ℕ → K)} {project : Bool}

theorem extrapolate_shift [IsStrictOrderedRing K] {c : Fin 2 → K} (hc : (extkCoeffs 1 : Option (Fin 2 → K)) = some c)
    (ps : List (ℕ → K)) (φ : ℕ → K) :
    StokesSEM.extrapolate c (ps.map fun q => q + φ) = (StokesSEM.extrapolate c ps).map fun q => q + φ := by
  have h0 := C36_closed_form 1 c hc 0
  have h1 := C36_closed_form 1 c hc 1
  norm_num at h0 h1
  unfold StokesSEM.extrapolate
  rw [← List.map_reverse]
  rcases ps.reverse with _ | ⟨p1, _ | ⟨p2, l⟩⟩
  · rfl
  · rfl
  · simp only [List.map_cons, Option.map_some]
    congr 1
    funext j
    simp only [Pi.add_apply, h0, h1]
    ring

/-- Shifting the pressures shifts the result, if the force takes up the gradient. -/
theorem oneStep_shift [IsStrictOrderedRing K] (hwf : sem.pspace.WF) (φ : ℕ → K) :
    sem.oneStep low us (ps.map fun q => q + φ) (f - sem.Dt φ) mu dt timeOrder alpha ub precond project tol atol =
      (sem.oneStep low us ps f mu dt timeOrder alpha ub precond project tol atol).map fun st => { st with p := st.p + φ } := by
  obtain ⟨c, hc, _⟩ := C36_exact (K := K) 1 le_rfl
  unfold StokesSEM.oneStep
  simp only [hc, extrapolate_shift hc]
  rcases StokesSEM.extrapolate c ps with _ | pExt
  · rfl
  simp only [Option.map_some]
  rcases (bdfkCoeffs timeOrder : Option (Fin (timeOrder + 1) → K)) with _ | b
  · rfl
  simp only
  have hD : sem.Dt (pExt + φ) = sem.Dt pExt + sem.Dt φ := (DtLin sem hwf).map_add pExt φ
  have hf : f - sem.Dt φ + sem.Dt (pExt + φ) = f + sem.Dt pExt := by rw [hD]; abel
  rw [hf]
  by_cases hnan : ¬ sem.finite ∨ dt = 0 ∨ b (Fin.last timeOrder) = 0 ∨
      ((StokesSEM.choosePrecond precond project).isProject = true ∧
        nodeDot sem.numP (fun _ => 1) (sem.pressureB (fun _ => 1)) = 0)
  · simp only [if_pos hnan]
    rfl
  simp only [if_neg hnan]
  cases ub with
  | none =>
    simp only
    split
    · rfl
    · split
      · rfl
      · split
        · rfl
        · simp only [Except.map]
          congr 2
          abel
  | some ub =>
    simp only
    split
    · rfl
    · split
      · rfl
      · split
        · rfl
        · simp only [Except.map]
          congr 2
          abel

end general

variable {d : ℕ} {sem : StokesSEM ℝ d}
  {vmesh pmesh : Mesh ℝ d} {quad overQuad : Quadrature1D ℝ} {masks : List (String × (ℕ → Bool))}
  {bcs : List (String × BCType)} {low : Nodes1D ℝ} {mu dt : ℝ} {k : ℕ} {project : Bool}

/-- Two steps whose forces differ by `g`, which acts like the gradient of `q`. -/
theorem potential_diff (S : StepSetup vmesh pmesh quad overQuad masks bcs sem low 0 project) (hmu : 0 ≤ mu) (hdt : 0 < dt)
    (hk : 1 ≤ k) {b : Fin (k + 1) → ℝ} (hb : bdfkCoeffs k = some b) {U : Fin k → Vel ℝ d} (hU : ∀ i, U i ∈ TSpace sem)
    (older : List (ℕ → ℝ)) (p2 p1 : ℕ → ℝ) {f g : Vel ℝ d} (hf : f ∈ VSpace sem) (hg : g ∈ VSpace sem) {q : ℕ → ℝ}
    (hq : ∀ v ∈ TSpace sem, sem.vDot v g = -sem.vDot v (sem.Dt q)) :
    ∃ st1 st2, sem.oneStep low (List.ofFn U) (older ++ [p2, p1]) f mu dt k 0 none none project 0 0 = .ok st1 ∧
      sem.oneStep low (List.ofFn U) (older ++ [p2, p1]) (f + g) mu dt k 0 none none project 0 0 = .ok st2 ∧
      st2.u - st1.u ∈ TSpace sem ∧ sem.D (st2.u - st1.u) = 0 ∧ ∃ (x : Vel ℝ d) (π : ℕ → ℝ), x ∈ TSpace sem ∧
        x = st2.u - st1.u - (dt / b (Fin.last k)) • sem.Q 1 1 (sem.Dt π) ∧
        x + (dt / b (Fin.last k) * mu) • sem.Q 1 1 (sem.A x) = -((dt / b (Fin.last k)) • sem.Q 1 1 (sem.Dt q)) := by
  have H := S.setup
  have hv := H.valid
  have hbeta := (C37_leading k b hb).2
  have hA0 : sem.A 0 = 0 := (ALin sem hv.vwf).map_zero
  have hD0 : sem.D 0 = 0 := (DLin sem).map_zero
  have hDt0 : sem.Dt 0 = 0 := (DtLin sem hv.pwf).map_zero
  have hB0 : sem.B 0 = 0 := (BLin sem).map_zero
  have hd0 : ∀ v, sem.vDot v 0 = 0 := fun v => by simp [StokesSEM.vDot]
  have key : ∀ f' ∈ VSpace sem, ∃ st, sem.oneStep low (List.ofFn U) (older ++ [p2, p1]) f' mu dt k 0 none none project 0 0 = .ok st ∧
      st.u ∈ TSpace sem ∧ st.uStar ∈ TSpace sem ∧ sem.D st.u = 0 ∧
      b (Fin.last k) • st.u + ∑ i : Fin k, b i.castSucc • U i =
        dt • (sem.Q 1 1 (sem.Dt st.p) - mu • sem.Q 1 1 (sem.A st.uStar) + sem.Q 1 1 f') ∧
      st.uStar = st.u - (dt / b (Fin.last k)) • sem.Q 1 1 (sem.Dt (st.p - (2 : ℝ) • p1 + p2)) := by
    intro f' hf'
    obtain ⟨st, hst, h1, h2, h3, h4, h5⟩ := step_error S hmu hdt hk hb U older p2 p1 hf' none (fun _ => 0) 0 0
      (VSpace sem).zero_mem (fun i => by rw [sub_zero]; exact hU i) (by simpa using (TSpace sem).zero_mem) hD0
      (by
        have : sem.masked ((0 : Vel ℝ d) - (1 / dt) • ∑ i, b i • (0 : Vel ℝ d)) = 0 := by
          funext j κ
          simp [StokesSEM.masked]
        rw [this]; exact (TSpace sem).zero_mem)
      (fun v _ => by rw [hB0, hA0, hDt0, hd0]; ring)
    simp only [sub_zero] at h1 h2 h4 h5
    have hm : sem.masked ((0 : Vel ℝ d) - (1 / dt) • ∑ i, b i • (0 : Vel ℝ d)) = 0 := by
      funext j κ
      simp [StokesSEM.masked]
    rw [hm, zero_add] at h4
    exact ⟨st, hst, h1, h2, h3, h4, h5⟩
  obtain ⟨st1, hs1, a1, a2, a3, a4, a5⟩ := key f hf
  obtain ⟨st2, hs2, c1, c2, c3, c4, c5⟩ := key (f + g) ((VSpace sem).add_mem hf hg)
  refine ⟨st1, st2, hs1, hs2, (TSpace sem).sub_mem c1 a1, by rw [D_eq_sub, a3, c3, sub_zero], st2.uStar - st1.uStar, st2.p - st1.p,
    (TSpace sem).sub_mem c2 a2, ?_, ?_⟩
  · rw [a5, c5]
    have e : st2.p - (2 : ℝ) • p1 + p2 = (st1.p - (2 : ℝ) • p1 + p2) + (st2.p - st1.p) := by abel
    have e1 : sem.Dt ((st1.p - (2 : ℝ) • p1 + p2) + (st2.p - st1.p)) = sem.Dt (st1.p - (2 : ℝ) • p1 + p2) + sem.Dt (st2.p - st1.p) :=
      (DtLin sem hv.pwf).map_add _ _
    have e2 : sem.Q 1 1 (sem.Dt (st1.p - (2 : ℝ) • p1 + p2) + sem.Dt (st2.p - st1.p)) =
        sem.Q 1 1 (sem.Dt (st1.p - (2 : ℝ) • p1 + p2)) + sem.Q 1 1 (sem.Dt (st2.p - st1.p)) := (QLin sem 1 1).map_add _ _
    rw [e, e1, e2, smul_add]
    abel
  · -- the loads
    have hQg : sem.Q 1 1 g = -sem.Q 1 1 (sem.Dt q) := by
      have e1 : sem.Q 1 1 (g + sem.Dt q) = 0 := by
        refine eq_zero_of_mass H (Q_mem hv 1 1 ((VSpace sem).add_mem hg (Dt_mem q))) ?_
        rw [vDot_B_Q H.finite H.mask01 (Q_mem hv 1 1 ((VSpace sem).add_mem hg (Dt_mem q))), vDot_add,
          hq _ (Q_mem hv 1 1 ((VSpace sem).add_mem hg (Dt_mem q))), neg_add_cancel]
      have e2 : sem.Q 1 1 (g + sem.Dt q) = sem.Q 1 1 g + sem.Q 1 1 (sem.Dt q) := (QLin sem 1 1).map_add _ _
      rw [e2] at e1
      exact eq_neg_of_add_eq_zero_left e1
    have e1 : sem.Q 1 1 (f + g) = sem.Q 1 1 f + sem.Q 1 1 g := (QLin sem 1 1).map_add _ _
    have e2 : sem.Q 1 1 (sem.A (st2.uStar - st1.uStar)) = sem.Q 1 1 (sem.A st2.uStar) - sem.Q 1 1 (sem.A st1.uStar) := by
      have := ((QLin sem 1 1).comp (ALin sem hv.vwf)).map_sub st2.uStar st1.uStar
      exact this
    have e3 : ∀ s : StokesSEM.Step ℝ d, sem.Q 1 1 (sem.Dt (s.p - (2 : ℝ) • p1 + p2)) =
        sem.Q 1 1 (sem.Dt s.p) + sem.Q 1 1 (sem.Dt (p2 - (2 : ℝ) • p1)) := by
      intro s
      have := ((QLin sem 1 1).comp (DtLin sem hv.pwf)).map_add s.p (p2 - (2 : ℝ) • p1)
      have e : s.p - (2 : ℝ) • p1 + p2 = s.p + (p2 - (2 : ℝ) • p1) := by abel
      rw [e]
      exact this
    rw [e3] at a5 c5
    rw [e2]
    have hb' := hbeta.ne'
    funext j κ
    have q1 := congrFun (congrFun a4 j) κ
    have q2 := congrFun (congrFun c4 j) κ
    have q3 := congrFun (congrFun a5 j) κ
    have q4 := congrFun (congrFun c5 j) κ
    rw [e1, hQg] at q2
    simp only [Pi.add_apply, Pi.smul_apply, smul_eq_mul, Pi.sub_apply, Pi.neg_apply] at q1 q2 q3 q4 ⊢
    rw [div_mul_eq_mul_div] at q3 q4 ⊢
    field_simp at q3 q4 ⊢
    linarith

/-- The tentative velocity that a gradient drives is at most as large as the gradient. -/
theorem potential_star (H : StokesSetup vmesh pmesh quad overQuad masks bcs sem) {s : ℝ} (hs : 0 ≤ s) (hmu : 0 ≤ mu) {x : Vel ℝ d}
    (hx : x ∈ TSpace sem) {w : Vel ℝ d} (h : x + (s * mu) • sem.Q 1 1 (sem.A x) = -(s • w)) :
    ‖massCoord sem x‖ ≤ s * ‖massCoord sem w‖ := by
  have hv := H.valid
  have h1 : inner ℝ (massCoord sem x) (massCoord sem (x + (s * mu) • sem.Q 1 1 (sem.A x))) =
      inner ℝ (massCoord sem x) (massCoord sem (-(s • w))) := by rw [h]
  rw [map_add, map_smul, map_neg, map_smul, inner_add_right, inner_smul_right, inner_neg_right, inner_smul_right,
    real_inner_self_eq_norm_sq, massCoord_inner H.massPos' hx.1 H.mask01 (sem.Q 1 1 (sem.A x)),
    vDot_B_Q H.finite H.mask01 hx, A_dot hv (VSpace_masked hx.1)] at h1
  have h2 := H.stiff (vGather sem.vspace.mesh x)
  have h3 : -(s * inner ℝ (massCoord sem x) (massCoord sem w)) ≤ s * (‖massCoord sem x‖ * ‖massCoord sem w‖) := by
    have := neg_le_of_abs_le (abs_real_inner_le_norm (massCoord sem x) (massCoord sem w))
    have := mul_le_mul_of_nonneg_left this hs
    linarith
  have h4 : 0 ≤ s * mu * vStiffForm sem.vspace (vGather sem.vspace.mesh x) (vGather sem.vspace.mesh x) :=
    mul_nonneg (mul_nonneg hs hmu) h2
  rcases (norm_nonneg (massCoord sem x)).eq_or_lt with h0 | h0
  · rw [← h0]
    positivity
  · refine le_of_mul_le_mul_right ?_ h0
    rw [← sq]
    linarith

/-- The change of the velocity that a gradient causes. -/
theorem potential_bound (H : StokesSetup vmesh pmesh quad overQuad masks bcs sem) {s L : ℝ} (hs : 0 ≤ s) (hmu : 0 ≤ mu)
    (hL0 : 0 ≤ L) (hL : ∀ x : Vel ℝ d, (∀ j, sem.numV ≤ j → x j = 0) → ‖massCoord sem (sem.Q 1 1 (sem.A x))‖ ≤ L * ‖massCoord sem x‖)
    {u x : Vel ℝ d} {π q : ℕ → ℝ} (hu : u ∈ TSpace sem) (hD : sem.D u = 0) (hx : x ∈ TSpace sem)
    (h1 : x = u - s • sem.Q 1 1 (sem.Dt π))
    (h : x + (s * mu) • sem.Q 1 1 (sem.A x) = -(s • sem.Q 1 1 (sem.Dt q))) :
    ‖massCoord sem u‖ ≤ mu * s ^ 2 * (L * ‖massCoord sem (sem.Q 1 1 (sem.Dt q))‖) := by
  have hv := H.valid
  have horth : ∀ π, inner ℝ (massCoord sem u) (massCoord sem (sem.Q 1 1 (sem.Dt π))) = 0 := by
    intro π
    rw [massCoord_inner H.massPos' hu.1 H.mask01, vDot_B_Q H.finite H.mask01 hu, ← D_Dt_adjoint hv u (VSpace_masked hu.1), hD]
    simp [nodeDot]
  have h2 : u = s • sem.Q 1 1 (sem.Dt π) - s • sem.Q 1 1 (sem.Dt q) - (s * mu) • sem.Q 1 1 (sem.A x) := by
    have e : u = x + s • sem.Q 1 1 (sem.Dt π) := by rw [h1]; abel
    have e' : x = -(s • sem.Q 1 1 (sem.Dt q)) - (s * mu) • sem.Q 1 1 (sem.A x) := eq_sub_of_add_eq h
    rw [e, add_comm]
    conv_lhs => rw [e']
    abel
  have h3 : ‖massCoord sem u‖ ^ 2 = -(s * mu * inner ℝ (massCoord sem u) (massCoord sem (sem.Q 1 1 (sem.A x)))) := by
    rw [← real_inner_self_eq_norm_sq]
    conv_lhs => rw [show inner ℝ (massCoord sem u) (massCoord sem u) = inner ℝ (massCoord sem u) (massCoord sem
      (s • sem.Q 1 1 (sem.Dt π) - s • sem.Q 1 1 (sem.Dt q) - (s * mu) • sem.Q 1 1 (sem.A x))) from by rw [← h2]]
    rw [map_sub, map_sub, map_smul, map_smul, map_smul, inner_sub_right, inner_sub_right, inner_smul_right, inner_smul_right,
      inner_smul_right, horth, horth]
    ring
  have h4 := potential_star H hs hmu hx h
  have h5 := hL x fun j hj => hx.1 j (Or.inl hj)
  have h6 := neg_le_of_abs_le (abs_real_inner_le_norm (massCoord sem u) (massCoord sem (sem.Q 1 1 (sem.A x))))
  have hsm : 0 ≤ s * mu := mul_nonneg hs hmu
  rcases (norm_nonneg (massCoord sem u)).eq_or_lt with h0 | h0
  · rw [← h0]
    positivity
  · refine le_of_mul_le_mul_right ?_ h0
    rw [← sq, h3]
    have h7 : ‖massCoord sem (sem.Q 1 1 (sem.A x))‖ ≤ L * (s * ‖massCoord sem (sem.Q 1 1 (sem.Dt q))‖) :=
      h5.trans (mul_le_mul_of_nonneg_left h4 hL0)
    have h8 := mul_le_mul_of_nonneg_left h6 hsm
    have h9 := mul_le_mul_of_nonneg_left (mul_le_mul_of_nonneg_left h7 (norm_nonneg (massCoord sem u))) hsm
    linarith

/-- What a velocity that does not change says about a vortex: `z` has no divergence, `y` is minus its viscous term. -/
theorem potential_vortex (H : StokesSetup vmesh pmesh quad overQuad masks bcs sem) {s : ℝ} (hs : 0 < s) (hmu : 0 < mu)
    {z y : Vel ℝ d} (hz : z ∈ TSpace sem) (hDz : sem.D z = 0) (hy : y ∈ TSpace sem)
    (hzy : ∀ x ∈ TSpace sem, sem.vDot x (sem.A z) = -sem.vDot x (sem.B y)) {x : Vel ℝ d} (hx : x ∈ TSpace sem) {π q : ℕ → ℝ}
    (h1 : x = -(s • sem.Q 1 1 (sem.Dt π))) (h : x + (s * mu) • sem.Q 1 1 (sem.A x) = -(s • sem.Q 1 1 (sem.Dt q))) :
    sem.vDot y (sem.B x) = 0 ∧ mu * sem.vDot y (sem.B (sem.Q 1 1 (sem.A x))) = -sem.vDot y (sem.Dt q) := by
  have hv := H.valid
  have hin : ∀ v ∈ TSpace sem, ∀ w, sem.vDot v (sem.B w) = inner ℝ (massCoord sem v) (massCoord sem w) := fun v hv' w =>
    (massCoord_inner H.massPos' hv'.1 H.mask01 w).symm
  have hgrad : ∀ v ∈ TSpace sem, ∀ π, inner ℝ (massCoord sem v) (massCoord sem (sem.Q 1 1 (sem.Dt π))) = sem.vDot v (sem.Dt π) := by
    intro v hv' π
    rw [← hin v hv', vDot_B_Q H.finite H.mask01 hv']
  have hz0 : ∀ π, sem.vDot z (sem.Dt π) = 0 := by
    intro π
    rw [← D_Dt_adjoint hv z (VSpace_masked hz.1), hDz]
    simp [nodeDot]
  have hsm : s * mu ≠ 0 := (mul_pos hs hmu).ne'
  have hA : ∀ v ∈ TSpace sem, sem.vDot v (sem.B x) + s * mu * sem.vDot v (sem.B (sem.Q 1 1 (sem.A x))) = -(s * sem.vDot v (sem.Dt q)) := by
    intro v hv'
    have : inner ℝ (massCoord sem v) (massCoord sem (x + (s * mu) • sem.Q 1 1 (sem.A x))) =
      inner ℝ (massCoord sem v) (massCoord sem (-(s • sem.Q 1 1 (sem.Dt q)))) := by rw [h]
    rw [map_add, map_smul, map_neg, map_smul, inner_add_right, inner_smul_right, inner_neg_right, inner_smul_right, hgrad v hv'] at this
    rw [hin v hv', hin v hv']
    exact this
  have hBx : ∀ v ∈ TSpace sem, sem.vDot v (sem.B x) = -(s * sem.vDot v (sem.Dt π)) := by
    intro v hv'
    rw [hin v hv', h1, map_neg, map_smul, inner_neg_right, inner_smul_right, hgrad v hv']
  have e1 := hA z hz
  rw [hBx z hz, hz0, hz0, mul_zero, neg_zero, zero_add, vDot_B_Q H.finite H.mask01 hz] at e1
  have e2 : sem.vDot z (sem.A x) = 0 := (mul_eq_zero.mp e1).resolve_left hsm
  rw [A_dot hv (VSpace_masked hz.1), vStiffForm_comm, ← A_dot hv (VSpace_masked hx.1), hzy x hx, neg_eq_zero, hin x hx,
    real_inner_comm, ← hin y hy] at e2
  refine ⟨e2, ?_⟩
  have e3 := hA y hy
  rw [e2, zero_add] at e3
  refine mul_left_cancel₀ hs.ne' ?_
  linarith

/-- The gradients. -/
noncomputable def gradMap (sem : StokesSEM ℝ d) (hv : sem.Valid) : (ℕ → ℝ) →ₗ[ℝ] Vel ℝ d := (QLin sem 1 1).comp (DtLin sem hv.pwf)

/-- If no gradient changes the velocity, then the viscous terms of gradients are gradients. -/
theorem potential_all (H : StokesSetup vmesh pmesh quad overQuad masks bcs sem) {s : ℝ} (hs : 0 < s) (hmu : 0 < mu)
    (h : ∀ q : ℕ → ℝ, ∃ π : ℕ → ℝ, -(s • sem.Q 1 1 (sem.Dt π)) + (s * mu) • sem.Q 1 1 (sem.A (-(s • sem.Q 1 1 (sem.Dt π)))) =
      -(s • sem.Q 1 1 (sem.Dt q))) (q : ℕ → ℝ) : ∃ π : ℕ → ℝ, sem.Q 1 1 (sem.A (sem.Q 1 1 (sem.Dt q))) = sem.Q 1 1 (sem.Dt π) := by
  have hv := H.valid
  let L : Vel ℝ d →ₗ[ℝ] Vel ℝ d := (QLin sem 1 1).comp (ALin sem hv.vwf)
  let T : Vel ℝ d →ₗ[ℝ] Vel ℝ d := LinearMap.id + (s * mu) • L
  let W := LinearMap.range (gradMap sem hv)
  have hWV : W ≤ VSpace sem := by
    rintro _ ⟨π, rfl⟩
    exact (Q_mem hv 1 1 (Dt_mem π)).1
  have hfinV : FiniteDimensional ℝ (VSpace sem) := Module.Finite.of_injective (vRestrict (sem := sem)) vRestrict_injective
  have hfinW : FiniteDimensional ℝ W := Submodule.finiteDimensional_of_le hWV
  have hle : W ≤ W.map T := by
    rintro _ ⟨q, rfl⟩
    obtain ⟨π, hπ⟩ := h q
    refine ⟨gradMap sem hv π, ⟨π, rfl⟩, ?_⟩
    have e1 : T (-(s • gradMap sem hv π)) = -(s • gradMap sem hv q) := hπ
    rw [map_neg, map_smul, neg_inj] at e1
    exact smul_right_injective _ hs.ne' e1
  have heq : W = W.map T := Submodule.eq_of_le_of_finrank_le hle (Submodule.finrank_map_le T W)
  have h1 : T (gradMap sem hv q) ∈ W := by rw [heq]; exact ⟨_, ⟨q, rfl⟩, rfl⟩
  have h2 : (s * mu) • L (gradMap sem hv q) ∈ W := by
    have := W.sub_mem h1 (⟨q, rfl⟩ : gradMap sem hv q ∈ W)
    simpa [T] using this
  have h3 := W.smul_mem (s * mu)⁻¹ h2
  rw [smul_smul, inv_mul_cancel₀ (mul_pos hs hmu).ne', one_smul] at h3
  obtain ⟨π, hπ⟩ := h3
  exact ⟨π, hπ.symm⟩

end Verif.NS
