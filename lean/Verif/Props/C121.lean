import Verif.Props.C62

/-!
# C121: the pressure correction is an orthogonal projection

The velocity a step returns is the velocity without divergence that is closest to the tentative velocity in the norm of the
kinetic energy. The kinetic energy is the mass form of a velocity with itself, up to the factor one half.
-/

namespace Verif.NS

open Verif.Core Verif.Linalg Verif.Spec

variable {K : Type*} [Field K] [LinearOrder K] {d : ℕ}
  {vmesh pmesh : Mesh K d} {quad overQuad : Quadrature1D K} {masks : List (String × (ℕ → Bool))}
  {bcs : List (String × BCType)} {sem : StokesSEM K d} {low : Nodes1D K} {us : List (Vel K d)} {ps : List (ℕ → K)}
  {f : Vel K d} {mu dt alpha tol atol : K} {timeOrder : ℕ} {ub : Option (Vel K d)} {precond : Option ((ℕ → K) → ℕ → K)}
  {project : Bool} {st : StokesSEM.Step K d}

/-- The kinetic energy, up to the factor one half. -/
def kinetic (sem : StokesSEM K d) (vmesh : Mesh K d) (u : Vel K d) : K :=
  vMassForm sem.vspace (vGather vmesh u) (vGather vmesh u)

/-- A change of velocity that the solver can make: zero on Dirichlet nodes and beyond the nodes, equal on copies of a node. -/
def FreeField (vmesh : Mesh K d) (masks : List (String × (ℕ → Bool))) (bcs : List (String × BCType)) (v : Vel K d) : Prop :=
  (∀ j, DirichletNode masks bcs j → v j = 0) ∧ (∀ j, vmesh.numNodes ≤ j → v j = 0) ∧
  ∀ i < vmesh.numNodes, ∀ j < vmesh.numNodes, SameNode vmesh i j → v i = v j

theorem kinetic_eq [IsStrictOrderedRing K] (H : StokesSetup vmesh pmesh quad overQuad masks bcs sem) (u : Vel K d) :
    kinetic sem vmesh u = ∑ j ∈ Finset.range vmesh.numNodes, ∑ k, sem.massDiag j k * (u j k * u j k) := massForm_eq H u u

theorem kinetic_nonneg [IsStrictOrderedRing K] (H : StokesSetup vmesh pmesh quad overQuad masks bcs sem) (u : Vel K d) :
    0 ≤ kinetic sem vmesh u ∧ (kinetic sem vmesh u = 0 → ∀ j < vmesh.numNodes, u j = 0) := by
  have h0 : ∀ j ∈ Finset.range vmesh.numNodes, ∀ k, 0 ≤ sem.massDiag j k * (u j k * u j k) := fun j hj k =>
    mul_nonneg (H.massPos j (Finset.mem_range.mp hj) k).le (mul_self_nonneg _)
  have h1 : ∀ j ∈ Finset.range vmesh.numNodes, 0 ≤ ∑ k, sem.massDiag j k * (u j k * u j k) := fun j hj =>
    Finset.sum_nonneg fun k _ => h0 j hj k
  rw [kinetic_eq H]
  refine ⟨Finset.sum_nonneg h1, fun h j hj => ?_⟩
  have h2 := (Finset.sum_eq_zero_iff_of_nonneg h1).mp h j (Finset.mem_range.mpr hj)
  funext k
  have h3 := (Finset.sum_eq_zero_iff_of_nonneg fun k _ => h0 j (Finset.mem_range.mpr hj) k).mp h2 k (Finset.mem_univ k)
  rcases mul_eq_zero.mp h3 with h4 | h4
  · exact absurd h4 (H.massPos j hj k).ne'
  · exact mul_self_eq_zero.mp h4

theorem FreeField.mem [IsStrictOrderedRing K] (H : StokesSetup vmesh pmesh quad overQuad masks bcs sem) {v : Vel K d}
    (h : FreeField vmesh masks bcs v) : v ∈ TSpace sem := by
  obtain ⟨_, _, hvm, _, _⟩ := H.fields
  refine ⟨(H.mem_VSpace v).mpr ⟨h.1, h.2.1⟩, fun k i hi j hj hs => ?_⟩
  rw [hvm] at hi hj hs
  beta_reduce
  rw [h.2.2 i hi j hj hs]

/-- The correction is orthogonal to every velocity without divergence, whatever the tolerances, the boundary values and the
preconditioner. -/
theorem C121_orthogonal [IsStrictOrderedRing K] (H : StokesSetup vmesh pmesh quad overQuad masks bcs sem) (hdt : 0 < dt)
    (hst : sem.oneStep low us ps f mu dt timeOrder alpha ub precond project tol atol = .ok st) {v : Vel K d}
    (hv : FreeField vmesh masks bcs v) (hD : ∀ j < sem.numP, sem.D v j = 0) :
    vMassForm sem.vspace (vGather vmesh (st.u - st.uStar)) (vGather vmesh v) = 0 := by
  have hV := H.valid
  obtain ⟨_, _, hvm, _, _⟩ := H.fields
  obtain ⟨c, pExt, b, us0, dp, hc, hp, hb, _, _, _, _, hu, _⟩ := oneStep_ok hst
  have hbeta := (C37_leading timeOrder b hb).2
  have hT := hv.mem H
  have hQ := BQ_dot hV hdt.ne' hbeta.ne' hT (sem.Dt dp)
  rw [← D_Dt_adjoint hV v (VSpace_masked hT.1)] at hQ
  have h0 : nodeDot sem.numP dp (sem.D v) = 0 := Finset.sum_eq_zero fun j hj => by rw [hD j (Finset.mem_range.mp hj), mul_zero]
  rw [h0] at hQ
  rcases mul_eq_zero.mp hQ with h1 | h1
  · exact absurd h1 (div_pos hbeta hdt).ne'
  · rw [massForm_eq H, ← h1]
    unfold StokesSEM.numV
    rw [hvm]
    refine Finset.sum_congr rfl fun j hj => Finset.sum_congr rfl fun k _ => ?_
    rw [hu, add_sub_cancel_left]

/-- When the returned velocity has no divergence, it is the only closest one to the tentative velocity among all velocities
without divergence that have its boundary values; a tentative velocity without divergence is not changed. -/
theorem C121_closest [IsStrictOrderedRing K] (H : StokesSetup vmesh pmesh quad overQuad masks bcs sem) (hdt : 0 < dt)
    (hst : sem.oneStep low us ps f mu dt timeOrder alpha ub precond project tol atol = .ok st)
    (hdiv : ∀ j < sem.numP, sem.D st.u j = 0) {w : Vel K d} (hw : FreeField vmesh masks bcs (st.u - w))
    (hD : ∀ j < sem.numP, sem.D w j = 0) :
    kinetic sem vmesh (w - st.uStar) = kinetic sem vmesh (st.u - st.uStar) + kinetic sem vmesh (st.u - w) ∧
    kinetic sem vmesh (st.u - st.uStar) ≤ kinetic sem vmesh (w - st.uStar) ∧
    (kinetic sem vmesh (w - st.uStar) ≤ kinetic sem vmesh (st.u - st.uStar) → w = st.u) := by
  have hdv : ∀ j < sem.numP, sem.D (st.u - w) j = 0 := by
    intro j hj
    have : sem.D (st.u - w) = sem.D st.u - sem.D w := (DLin sem).map_sub st.u w
    rw [this, Pi.sub_apply, hdiv j hj, hD j hj, sub_zero]
  have ho := C121_orthogonal H hdt hst hw hdv
  have h1 : kinetic sem vmesh (w - st.uStar) = kinetic sem vmesh (st.u - st.uStar) + kinetic sem vmesh (st.u - w) := by
    have h2 : kinetic sem vmesh (w - st.uStar) = kinetic sem vmesh (st.u - st.uStar) -
        2 * vMassForm sem.vspace (vGather vmesh (st.u - st.uStar)) (vGather vmesh (st.u - w)) + kinetic sem vmesh (st.u - w) := by
      rw [kinetic_eq H, kinetic_eq H, kinetic_eq H, massForm_eq H]
      simp only [Finset.mul_sum, ← Finset.sum_add_distrib, ← Finset.sum_sub_distrib, Pi.sub_apply]
      exact Finset.sum_congr rfl fun j _ => Finset.sum_congr rfl fun k _ => by ring
    rw [h2, ho, mul_zero, sub_zero]
  have hn := kinetic_nonneg H (st.u - w)
  refine ⟨h1, by linarith [hn.1], fun hle => ?_⟩
  have hz := hn.2 (le_antisymm (by linarith) hn.1)
  funext j
  by_cases hj : j < vmesh.numNodes
  · exact (sub_eq_zero.mp (hz j hj)).symm
  · exact (sub_eq_zero.mp (hw.2.1 j (not_lt.mp hj))).symm

/-- Zero tolerances: the step succeeds, its velocity is the closest one without divergence to the tentative velocity, and
the kinetic energy splits into that of the returned velocity and that of the correction, so that it does not grow. -/
theorem C121_projection [IsStrictOrderedRing K] (S : StepSetup vmesh pmesh quad overQuad masks bcs sem low alpha project)
    (hf : ∀ j, DirichletNode masks bcs j → f j = 0) (hf' : ∀ j, vmesh.numNodes ≤ j → f j = 0) (hmu : 0 ≤ mu) (hdt : 0 < dt)
    (htime : 1 ≤ timeOrder) (hps : 2 ≤ ps.length) :
    ∃ st, sem.oneStep low us ps f mu dt timeOrder alpha none none project 0 0 = .ok st ∧
      FreeField vmesh masks bcs st.u ∧ (∀ j, sem.D st.u j = 0) ∧
      kinetic sem vmesh st.uStar = kinetic sem vmesh st.u + kinetic sem vmesh (st.u - st.uStar) ∧
      kinetic sem vmesh st.u ≤ kinetic sem vmesh st.uStar ∧
      ∀ w, FreeField vmesh masks bcs w → (∀ j < sem.numP, sem.D w j = 0) → w ≠ st.u →
        kinetic sem vmesh (st.u - st.uStar) < kinetic sem vmesh (w - st.uStar) := by
  have H := S.setup
  obtain ⟨_, _, hvm, _, _⟩ := H.fields
  obtain ⟨st, hst, hdiv, hD⟩ := C42_divergence_free (us := us) (ps := ps) S hf hf' hmu hdt htime hps
  obtain ⟨st', hst', _, hsame, _⟩ := C42_step (us := us) (tol := 0) (atol := 0) S hf hf' hmu hdt htime hps
  rw [hst, Except.ok.injEq] at hst'
  subst hst'
  have hout : ∀ j, vmesh.numNodes ≤ j → st.u j = 0 := by
    obtain ⟨c, pExt, b, us0, dp, hc, hp, hb, _, hcg, hfil, _, hu, _⟩ := oneStep_ok hst
    have hbeta := (C37_leading timeOrder b hb).2
    have hfm := (H.mem_VSpace f).mpr ⟨hf, hf'⟩
    obtain ⟨x, r, m, hcg', hx, _⟩ := velocity_solve H.valid H.massOutside H.massPos' H.stiff mu dt (b (Fin.last timeOrder)) hmu hdt hbeta _
      (stepRhs_mem (us := us) (mu := mu) (dt := dt) H.massOutside hfm pExt b none) 0 0
    rw [hcg, Option.some.injEq, Prod.mk.injEq] at hcg'
    obtain ⟨rfl, _⟩ := hcg'
    obtain ⟨y, hy, hyf⟩ := S.filter_mem us0 hx
    rw [lift, hyf, Option.some.injEq] at hfil
    subst hfil
    intro j hj
    rw [hu]
    exact ((H.mem_VSpace _).mp ((VSpace sem).add_mem hy.1 (Q_mem H.valid _ _ (Dt_mem dp)).1)).2 j hj
  have hfree : FreeField vmesh masks bcs st.u := ⟨hD, hout, hsame⟩
  have h0 := C121_closest H hdt hst (fun j _ => hdiv j) (w := 0) (by rw [sub_zero]; exact hfree) (fun j _ => by
    have : sem.D 0 = 0 := (DLin sem).map_zero
    rw [this]; rfl)
  have hneg : kinetic sem vmesh (0 - st.uStar) = kinetic sem vmesh st.uStar := by
    rw [kinetic_eq H, kinetic_eq H]
    simp
  rw [hneg, sub_zero] at h0
  have hn := kinetic_nonneg H (st.u - st.uStar)
  refine ⟨st, hst, hfree, hdiv, by rw [h0.1, add_comm], by linarith [h0.1, hn.1], fun w hw hDw hne => ?_⟩
  have hdiff : FreeField vmesh masks bcs (st.u - w) := by
    refine ⟨fun j hj => ?_, fun j hj => ?_, fun i hi j hj hs => ?_⟩
    · rw [Pi.sub_apply, hD j hj, hw.1 j hj, sub_zero]
    · rw [Pi.sub_apply, hout j hj, hw.2.1 j hj, sub_zero]
    · rw [Pi.sub_apply, Pi.sub_apply, hsame i hi j hj hs, hw.2.2 i hi j hj hs]
  obtain ⟨_, h2, h3⟩ := C121_closest H hdt hst (fun j _ => hdiv j) hdiff hDw
  exact lt_of_le_of_ne h2 fun he => hne (h3 he.ge)

/-- The hypotheses hold for the enclosed element of C42 with the filter. -/
example : ∃ (sem : StokesSEM ℚ 2) (st : StokesSEM.Step ℚ 2), sem.oneStep exLow [exForce, 0] [fun _ => 0, fun j => j] exForce (1/10)
    (1/100) 2 (1/20) none none true 0 0 = .ok st ∧ (∀ j, sem.D st.u j = 0) ∧
    kinetic sem exVMesh st.u ≤ kinetic sem exVMesh st.uStar := by
  obtain ⟨sem, S⟩ := exStep_enclosed
  obtain ⟨st, h1, _, h2, _, h3, _⟩ := C121_projection (us := [exForce, 0]) (ps := [fun _ => 0, fun j => j]) (f := exForce) (mu := 1/10)
    (dt := 1/100) (timeOrder := 2) S (fun j hj => by rw [exStokes_dirichlet2] at hj; funext k; simp [exForce, hj])
    (fun j hj => by have hj' : 9 ≤ j := hj; funext k; simp only [exForce]; rw [if_neg (by omega)]; rfl) (by norm_num) (by norm_num)
    (by norm_num) (by simp)
  exact ⟨sem, st, h1, h2, h3⟩

end Verif.NS
