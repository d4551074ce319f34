import Verif.Props.C42_C43

/-!
# C62: a converged Stokes step solves the discrete equations

With zero tolerances and without the filter the returned velocity and pressure satisfy, for every test velocity `v` that
is zero on the Dirichlet nodes and agrees on copies,

  `(1/dt) ∫ (β u + Σᵢ bᵢ uᵢ) v + μ ∫ ∇u* : ∇v = f(v) + ∫ p div v`,

and the divergence of `u` is zero. The viscous term is that of the tentative velocity, as usual for the splitting.
-/

set_option linter.unusedSectionVars false

namespace Verif.NS

open Verif.Core Verif.Linalg Verif.Spec

variable {K : Type*} [Field K] [LinearOrder K] {d : ℕ}

variable {vmesh pmesh : Mesh K d} {quad overQuad : Quadrature1D K} {masks : List (String × (ℕ → Bool))}
  {bcs : List (String × BCType)} {sem : StokesSEM K d} {low : Nodes1D K} {ps : List (ℕ → K)}
  {f : Vel K d} {mu dt : K} {timeOrder : ℕ} {project : Bool} {st : StokesSEM.Step K d}

/-- The diagonal mass matrix is the quadrature of the product. -/
theorem massForm_eq [IsStrictOrderedRing K] (H : StokesSetup vmesh pmesh quad overQuad masks bcs sem) (u v : Vel K d) :
    vMassForm sem.vspace (vGather vmesh u) (vGather vmesh v) =
      ∑ j ∈ Finset.range vmesh.numNodes, ∑ k, sem.massDiag j k * (v j k * u j k) := by
  obtain ⟨mask, _, hc⟩ := H.create
  obtain ⟨_, _, _, _, _, hmd⟩ := StokesSEM.create_fields hc
  obtain ⟨_, _, hvm, _, _, hid, hnq⟩ := H.fields
  have hv := H.valid
  subst hvm
  rw [← vCovector sem.vspace.mesh hv.vrange _ (vMassForm_linear sem.vspace hv.vwf _) v]
  refine Finset.sum_congr rfl fun j hj => Finset.sum_congr rfl fun k _ => ?_
  have : vScatter sem.vspace.mesh (vectorCovector (vMassForm sem.vspace (vGather sem.vspace.mesh u))) j k =
      sem.massDiag j k * u j k := by
    rw [hmd]
    unfold vScatter
    rw [Mesh.scatter_apply, Mesh.scatter_apply, Finset.sum_mul]
    refine Finset.sum_congr rfl fun m hm => ?_
    rw [Finset.sum_mul]
    refine Finset.sum_congr rfl fun n hn => ?_
    rw [Finset.mem_range] at hm hn
    split
    · rename_i hwp
      rw [massCovector sem.vspace hid hnq m n hm hn, massCovector sem.vspace hid hnq m n hm hn]
      rcases H.vrange m hm n hn with he | ⟨h0, h1⟩
      · rw [he]; simp [maskOf, sentinel]
      · obtain ⟨a, ha⟩ := Int.eq_ofNat_of_zero_le h0
        rw [ha] at h1 hwp
        rw [writePos_nat (by exact_mod_cast h1), Option.some.injEq] at hwp
        subst hwp
        have hg : vGather sem.vspace.mesh u m n k = u a k := by
          unfold vGather
          rw [Mesh.gather_apply _ _ _ _ hn, ha, if_pos (by omega), readPos_nat (by exact_mod_cast h1)]
        rw [hg]
        ring
    · ring
  rw [this]
  ring

/-- A zero form of the exchange. -/
theorem exchange_form_zero [IsStrictOrderedRing K] {r : Vel K d} (h : sem.vDot r (vExchange sem.vspace.mesh r) ≤ 0) :
    ∀ j < sem.numV, ∀ k, vExchange sem.vspace.mesh r j k = 0 := by
  have hk : ∀ k, ∑ j ∈ Finset.range sem.numV, r j k * vExchange sem.vspace.mesh r j k =
      ∑ j ∈ Finset.range sem.numV, vExchange sem.vspace.mesh r j k ^ 2 / sem.vspace.mesh.exchange (fun _ => (1 : K)) j := by
    intro k
    have := sum_continuous sem.vspace.mesh (sem.vspace.mesh.exchange (fun p => r p k)) (fun j => r j k)
      (fun i hi j hj hs => exchange_same _ _ hi hj hs)
    refine Eq.trans (Finset.sum_congr rfl fun j _ => mul_comm _ _) (this.trans (Finset.sum_congr rfl fun j _ => ?_))
    simp only [vExchange]
    ring
  have hnn : ∀ k, ∀ j ∈ Finset.range sem.numV, 0 ≤ vExchange sem.vspace.mesh r j k ^ 2 /
      sem.vspace.mesh.exchange (fun _ => (1 : K)) j := fun k j hj =>
    div_nonneg (sq_nonneg _) (exchange_one_pos sem.vspace.mesh j (Finset.mem_range.mp hj)).le
  unfold StokesSEM.vDot at h
  rw [Finset.sum_comm, Finset.sum_congr rfl fun k _ => hk k] at h
  have h0 := le_antisymm h (Finset.sum_nonneg fun k _ => Finset.sum_nonneg (hnn k))
  rw [Finset.sum_eq_zero_iff_of_nonneg (fun k _ => Finset.sum_nonneg (hnn k))] at h0
  intro j hj k
  have h1 := (Finset.sum_eq_zero_iff_of_nonneg (hnn k)).mp (h0 k (Finset.mem_univ k)) j (Finset.mem_range.mpr hj)
  rcases div_eq_zero_iff.mp h1 with h2 | h2
  · exact pow_eq_zero_iff (by norm_num) |>.mp h2
  · exact absurd h2 (exchange_one_pos sem.vspace.mesh j hj).ne'

/-- The velocity correction in weak form: `(β/dt) B Q w` is `w` for test functions that agree on copies. -/
theorem BQ_dot [IsStrictOrderedRing K] (hv : sem.Valid) (hdt : dt ≠ 0) {beta : K} (hbeta : beta ≠ 0) {v : Vel K d}
    (hvT : v ∈ TSpace sem) (w : Vel K d) :
    (beta / dt) * ∑ j ∈ Finset.range sem.numV, ∑ k, sem.massDiag j k * (v j k * sem.Q dt beta w j k) = sem.vDot v w := by
  unfold StokesSEM.vDot
  rw [Finset.sum_comm, Finset.sum_comm (s := Finset.range sem.numV), Finset.mul_sum]
  refine Finset.sum_congr rfl fun k _ => ?_
  set E := fun j => vExchange sem.vspace.mesh w j k with hE
  set Mx := fun j => vExchange sem.vspace.mesh sem.massDiag j k with hMx
  have h1 := sum_continuous sem.vspace.mesh (fun j => v j k) (fun j => w j k) (hvT.2 k)
  have hcont : Continuous sem.vspace.mesh (fun j => v j k * (1 / Mx j * E j)) := by
    intro i hi j hj hs
    have e1 : v i k = v j k := hvT.2 k i hi j hj hs
    have e2 : E i = E j := exchange_same _ _ hi hj hs
    have e3 : Mx i = Mx j := exchange_same _ _ hi hj hs
    simp only [e1, e2, e3]
  have h2 := sum_continuous sem.vspace.mesh (fun j => v j k * (1 / Mx j * E j)) (fun j => sem.massDiag j k) hcont
  have h3 : (beta / dt) * ∑ j ∈ Finset.range sem.numV, sem.massDiag j k * (v j k * sem.Q dt beta w j k) =
      ∑ j ∈ Finset.range sem.numV, v j k * (1 / Mx j * E j) * sem.massDiag j k := by
    rw [Finset.mul_sum]
    refine Finset.sum_congr rfl fun j _ => ?_
    simp only [StokesSEM.Q, StokesSEM.Bi, hE, hMx]
    field_simp
  rw [h3]
  refine Eq.trans h2 (Eq.trans ?_ h1.symm)
  refine Finset.sum_congr rfl fun j hj => ?_
  have hm := hv.massPos j (Finset.mem_range.mp hj) k
  have hm' : sem.vspace.mesh.exchange (fun j => sem.massDiag j k) j ≠ 0 := hm.ne'
  change v j k * (1 / sem.vspace.mesh.exchange (fun j => sem.massDiag j k) j * sem.vspace.mesh.exchange (fun j => w j k) j) /
    sem.vspace.mesh.exchange (fun _ => (1 : K)) j * sem.vspace.mesh.exchange (fun j => sem.massDiag j k) j = _
  have hc := (exchange_one_pos sem.vspace.mesh j (Finset.mem_range.mp hj)).ne'
  field_simp

/-- The discrete momentum equation and the divergence constraint. -/
theorem C62_momentum [IsStrictOrderedRing K] (S : StepSetup vmesh pmesh quad overQuad masks bcs sem low 0 project)
    (hf : ∀ j, DirichletNode masks bcs j → f j = 0) (hf' : ∀ j, vmesh.numNodes ≤ j → f j = 0) (hmu : 0 ≤ mu) (hdt : 0 < dt)
    (htime : 1 ≤ timeOrder) (hps : 2 ≤ ps.length) (U : Fin timeOrder → Vel K d) (b : Fin (timeOrder + 1) → K)
    (hb : bdfkCoeffs timeOrder = some b) :
    ∃ st, sem.oneStep low (List.ofFn U) ps f mu dt timeOrder 0 none none project 0 0 = .ok st ∧
      (∀ j, sem.D st.u j = 0) ∧
      ∀ v : Vel K d, (∀ j, DirichletNode masks bcs j → v j = 0) → (∀ j, vmesh.numNodes ≤ j → v j = 0) →
        (∀ i < vmesh.numNodes, ∀ j < vmesh.numNodes, SameNode vmesh i j → v i = v j) →
        (1 / dt) * vMassForm sem.vspace
            (vGather vmesh (fun j k => b (Fin.last timeOrder) * st.u j k + ∑ i : Fin timeOrder, b i.castSucc * U i j k))
            (vGather vmesh v) +
          mu * vStiffForm sem.vspace (vGather vmesh st.uStar) (vGather vmesh v) =
        ∑ j ∈ Finset.range vmesh.numNodes, ∑ k, v j k * f j k +
          integrate sem.vspace (fun m q => divFn sem.vspace (vGather vmesh v) m q * scalarFn sem.pspace (pmesh.gather st.p) m q) := by
  obtain ⟨st, hst, hdiv, _⟩ := C42_divergence_free (us := List.ofFn U) (ps := ps) S hf hf' hmu hdt htime hps
  refine ⟨st, hst, hdiv, fun v hv0 hv1 hv2 => ?_⟩
  have H := S.setup
  have hv := H.valid
  obtain ⟨_, _, hvm, hpm, _, _, _⟩ := H.fields
  have hvT : v ∈ TSpace sem := ⟨(H.mem_VSpace v).mpr ⟨hv0, hv1⟩, fun k i hi j hj hs => by
    rw [hvm] at hi hj hs
    simp only
    rw [hv2 i hi j hj hs]⟩
  have hvM := VSpace_masked hvT.1
  obtain ⟨c, pExt, b', us0, dp, hc, hp, hb', _, hcg, hfil, hcg2, hu, hpst⟩ := oneStep_ok hst
  rw [hb, Option.some.injEq] at hb'
  subst hb'
  have hbeta := (C37_leading timeOrder b hb).2
  have hfm := (H.mem_VSpace f).mpr ⟨hf, hf'⟩
  obtain ⟨us0', res, n, hcg', _, _, hres, hle⟩ := velocity_solve hv H.massOutside H.massPos' H.stiff mu dt
    (b (Fin.last timeOrder)) hmu hdt hbeta _ (stepRhs_mem (us := List.ofFn U) (mu := mu) (dt := dt) H.massOutside hfm pExt b none) 0 0
  rw [hcg, Option.some.injEq, Prod.mk.injEq, Prod.mk.injEq] at hcg'
  obtain ⟨rfl, rfl, rfl⟩ := hcg'
  rw [lift, filter_zero (by rw [hvm]; exact S.filter), Option.some.injEq] at hfil
  subst hfil
  rw [hres] at hle
  have hzero := exchange_form_zero (sem := sem) (hle.trans_eq (by simp))
  have horth := vDot_exchange_zero hvT hzero
  -- the residual, term by term
  have hsplit : sem.vDot v (stepRhs sem (List.ofFn U) pExt f mu dt timeOrder b none -
      sem.H mu dt (b (Fin.last timeOrder)) st.uStar) = sem.vDot v f + sem.vDot v (sem.Dt pExt) -
      sem.vDot v (sem.B (fun p k => (1 / dt) * StokesSEM.history (List.ofFn (fun i : Fin timeOrder => b i.castSucc)) (List.ofFn U) p k)) -
      sem.vDot v (sem.H mu dt (b (Fin.last timeOrder)) st.uStar) := by
    unfold StokesSEM.vDot stepRhs
    simp only [Pi.sub_apply, Pi.add_apply, mul_sub, mul_add, Finset.sum_add_distrib, Finset.sum_sub_distrib]
  rw [hsplit, H_dot hv hvM, B_dot hv hvM, Dt_dot hv v hvM] at horth
  have hQ := BQ_dot hv hdt.ne' hbeta.ne' hvT (sem.Dt dp)
  rw [Dt_dot hv v hvM] at hQ
  have hpint : integrate sem.vspace (fun m q => divFn sem.vspace (vGather vmesh v) m q * scalarFn sem.pspace (pmesh.gather st.p) m q) =
      integrate sem.vspace (fun m q => divFn sem.vspace (vGather vmesh v) m q * scalarFn sem.pspace (pmesh.gather pExt) m q) +
      integrate sem.vspace (fun m q => divFn sem.vspace (vGather vmesh v) m q * scalarFn sem.pspace (pmesh.gather dp) m q) := by
    rw [← integrate_add]
    congr 1
    funext m q
    rw [hpst, Mesh.gather_add]
    unfold scalarFn
    rw [Pi.add_apply, hv.pwf.add, mul_add]
  rw [hpint, massForm_eq H]
  subst hvm
  subst hpm
  rw [← hQ]
  unfold StokesSEM.vDot at horth
  simp only [C43_history, hu, Pi.add_apply] at horth ⊢
  have hmass : (1 / dt) * ∑ j ∈ Finset.range sem.vspace.mesh.numNodes, ∑ k, sem.massDiag j k * (v j k *
      (b (Fin.last timeOrder) * (st.uStar j k + sem.Q dt (b (Fin.last timeOrder)) (sem.Dt dp) j k) +
        ∑ i : Fin timeOrder, b i.castSucc * U i j k)) =
      b (Fin.last timeOrder) / dt * ∑ j ∈ Finset.range sem.numV, ∑ k, sem.massDiag j k * (v j k * st.uStar j k) +
      b (Fin.last timeOrder) / dt * ∑ j ∈ Finset.range sem.numV, ∑ k, sem.massDiag j k *
        (v j k * sem.Q dt (b (Fin.last timeOrder)) (sem.Dt dp) j k) +
      ∑ j ∈ Finset.range sem.numV, ∑ k, sem.massDiag j k * (v j k * (1 / dt * ∑ i : Fin timeOrder, b i.castSucc * U i j k)) := by
    simp only [Finset.mul_sum, ← Finset.sum_add_distrib]
    refine Finset.sum_congr rfl fun j _ => Finset.sum_congr rfl fun k _ => ?_
    simp only [← Finset.mul_sum]
    ring
  rw [hmass]
  simp only [StokesSEM.numV] at horth ⊢
  linear_combination -horth

/-- The hypotheses hold for the enclosed element of C42, without the filter. -/
example : ∃ (sem : StokesSEM ℚ 2), StepSetup exVMesh exPMesh exVQuad exVQuad exSMasks2 exSBCs sem exLow 0 true := by
  obtain ⟨sem, S⟩ := exStep_enclosed
  exact ⟨sem, S.setup, S.filter, Or.inl rfl, S.pressure⟩

/-- `Bi` inverts the mass matrix on velocities that vanish on Dirichlet nodes and agree on copies. -/
theorem C62_mass_inverse [IsStrictOrderedRing K] (H : StokesSetup vmesh pmesh quad overQuad masks bcs sem) (u : Vel K d)
    (hu0 : ∀ j, DirichletNode masks bcs j → u j = 0)
    (hu : ∀ i < vmesh.numNodes, ∀ j < vmesh.numNodes, SameNode vmesh i j → u i = u j) (j : ℕ) (hj : j < vmesh.numNodes) :
    sem.Bi (sem.B u) j = u j := by
  have hv := H.valid
  obtain ⟨_, _, hvm, _, hmask, _, _⟩ := H.fields
  subst hvm
  funext k
  have hcont : Continuous sem.vspace.mesh (fun j => sem.mask j * u j k) := by
    intro i hi j hj hs
    simp only
    rw [hu i hi j hj hs, hv.maskCont i hi j hj hs]
  have h1 := exchange_mul sem.vspace.mesh (fun j => sem.mask j * u j k) (fun j => sem.massDiag j k) hcont j hj
  have h2 : (fun p => sem.B u p k) = fun j => sem.mask j * u j k * sem.massDiag j k := by
    funext p; unfold StokesSEM.B; ring
  have hm : sem.vspace.mesh.exchange (fun j => sem.massDiag j k) j ≠ 0 := (hv.massPos j hj k).ne'
  have hmu : sem.mask j * u j k = u j k := by
    by_cases hD : DirichletNode masks bcs j
    · rw [hu0 j hD]; simp
    · rw [(hmask j).2 hD, one_mul]
  change (1 / sem.vspace.mesh.exchange (fun j => sem.massDiag j k) j) * sem.vspace.mesh.exchange (fun p => sem.B u p k) j = _
  rw [h2, h1, hmu]
  field_simp

end Verif.NS
