import Verif.Lemmas.StokesGrad
import Verif.Lemmas.CubeMass

/-!
# C101: gradients through a Stokes step

`oneStepVjp` gives, for cotangents of the returned velocity and pressure, the cotangents of force, velocities and pressures.
They are right if the change of the loss `⟨ctU, u⟩ + ⟨ctP, p⟩` between any two inputs is their pairing with the change of
the inputs. A pressure is without gradient when `exchange(Dt q)` vanishes; the loss must not see such pressures.
-/

set_option linter.unusedSectionVars false

namespace Verif.NS

open Verif.Core Verif.Linalg Verif.Spec

variable {K : Type*} [Field K] [LinearOrder K] {d : ℕ}
  {vmesh pmesh : Mesh K d} {quad overQuad : Quadrature1D K} {masks : List (String × (ℕ → Bool))}
  {bcs : List (String × BCType)} {sem : StokesSEM K d} {low : Nodes1D K} {mu dt : K} {timeOrder : ℕ} {alpha : K}
  {project : Bool}

/-- A pressure without discrete gradient. -/
def NoGradient (sem : StokesSEM K d) (q : ℕ → K) : Prop :=
  ∀ j < sem.numV, ∀ k, vExchange sem.vspace.mesh (sem.Dt q) j k = 0

/-- The cotangent of a loss that only depends on the nodes and sees no pressure without gradient. -/
def PressureCt (sem : StokesSEM K d) (g : ℕ → K) : Prop :=
  (∀ j, sem.numP ≤ j → g j = 0) ∧ ∀ q, NoGradient sem q → nodeDot sem.numP g q = 0

/-- Without Dirichlet nodes the masked fields are those that live on the nodes. -/
theorem free_mem [IsStrictOrderedRing K] (H : StokesSetup vmesh pmesh quad overQuad masks bcs sem)
    (hfree : ∀ j < vmesh.numNodes, ¬ DirichletNode masks bcs j) {u : Vel K d} (hu : ∀ j, vmesh.numNodes ≤ j → u j = 0) :
    u ∈ VSpace sem := by
  refine (H.mem_VSpace u).mpr ⟨fun j hj => ?_, hu⟩
  by_cases h : j < vmesh.numNodes
  · exact absurd hj (hfree j h)
  · exact hu j (not_lt.mp h)

/-- Boundary values that live on the nodes and agree on the copies of a node; `none` stands for zero. -/
def LiftField (mesh : Mesh K d) (ub : Option (Vel K d)) : Prop :=
  ∀ u ∈ ub, (∀ j, mesh.numNodes ≤ j → u j = 0) ∧ ∀ k, Continuous mesh (fun j => u j k)

/-- The reverse pass without Dirichlet nodes. -/
theorem vjp_adjoint [IsStrictOrderedRing K] (S : StepSetup vmesh pmesh quad overQuad masks bcs sem low alpha project)
    (hfree : ∀ j < vmesh.numNodes, ¬ DirichletNode masks bcs j) (hmu : 0 ≤ mu) (hdt : 0 < dt) (htime : 1 ≤ timeOrder)
    {ctU : Vel K d} (hU : ∀ j, vmesh.numNodes ≤ j → ctU j = 0) {ctP : ℕ → K} (hP : PressureCt sem ctP) :
    ∃ ct, sem.oneStepVjp low mu dt timeOrder alpha none project 0 0 ctU ctP = .ok ct ∧
      (∀ (us : Fin timeOrder → Vel K d) (older : List (ℕ → K)) (p2 p1 : ℕ → K) (f : Vel K d) (ub : Option (Vel K d))
        (st : StokesSEM.Step K d), (∀ j, vmesh.numNodes ≤ j → f j = 0) → LiftField vmesh ub →
        sem.oneStep low (List.ofFn us) (older ++ [p2, p1]) f mu dt timeOrder alpha ub none project 0 0 = .ok st →
        sem.vDot ctU st.u + nodeDot sem.numP ctP st.p =
          sem.vDot ct.f f + ∑ i, sem.vDot (ct.us i) (us i) + nodeDot sem.numP ct.p1 p1 + nodeDot sem.numP ct.p2 p2 +
            sem.vDot ct.ub (ub.getD 0)) ∧
      (∀ j, vmesh.numNodes ≤ j → ct.f j = 0) ∧ (∀ i, ∀ j, vmesh.numNodes ≤ j → ct.us i j = 0) ∧
      PressureCt sem ct.p1 ∧ PressureCt sem ct.p2 := by
  have H := S.setup
  have hv := H.valid
  obtain ⟨_, _, hvm, _⟩ := H.fields
  have hnum : sem.numV = vmesh.numNodes := by unfold StokesSEM.numV; rw [hvm]
  have F : FilterSetup sem.vspace.mesh low := by rw [hvm]; exact S.filter
  obtain ⟨c, hc, _⟩ := C36_exact (K := K) 1 le_rfl
  obtain ⟨b, hb, _⟩ := C37_exact (K := K) timeOrder htime
  have hbeta := (C37_leading timeOrder b hb).2
  have hdb : 0 < dt / b (Fin.last timeOrder) := div_pos hdt hbeta
  obtain ⟨L, hL⟩ := filter_linear F alpha
  have hUm : ctU ∈ VSpace sem := free_mem H hfree hU
  have hPm : ctP ∈ PSpace sem := mem_PSpace_of_orthogonal hv hP.1 hP.2
  -- the pressure solve
  set beta := b (Fin.last timeOrder) with hbd
  have hDp : ctP + sem.pvT (fun p => sem.Q dt beta (sem.Dt p)) ctU ∈ PSpace sem := by
    rw [pvT_Q_Dt hv dt beta (VSpace_masked hUm)]
    exact (PSpace sem).add_mem hPm (D_mem (Q_mem hv dt beta hUm))
  obtain ⟨w, res1, n1, hcg1, hEw⟩ := pressure_exact hv S.pressure dt beta hdb _ hDp
  -- the velocity solve
  have h0 : ∀ j, sem.numV ≤ j → sem.vvT (sem.filterFn low alpha) (ctU - sem.vpT sem.D w) j = 0 := vvT_outside _ _
  have h0m := free_mem H hfree (fun j hj => h0 j (by omega))
  obtain ⟨y, res2, n2, hcg2, hyT, hy⟩ := velocity_exact hv H.massOutside H.massPos' H.stiff mu dt beta hmu hdt hbeta _ h0m
  have hfn : sem.filterFn low alpha = L := by
    funext u
    rw [StokesSEM.filterFn, hL]
    rfl
  have hnan : ¬ (¬ sem.finite ∨ dt = 0 ∨ beta = 0 ∨
      ((StokesSEM.choosePrecond (K := K) none project).isProject = true ∧
        nodeDot sem.numP (fun _ => 1) (sem.pressureB (fun _ => 1)) = 0)) := by
    push Not
    refine ⟨H.finite, hdt.ne', hbeta.ne', ?_⟩
    cases hproj : project with
    | false => simp [StokesSEM.choosePrecond, StokesSEM.PPrecond.isProject]
    | true =>
      intro _
      obtain ⟨HP, _⟩ := S.pressure hproj
      rw [mean_eq HP]
      have : integrate sem.pspace (scalarFn sem.pspace (pmesh.gather (fun _ => (1 : K)))) = integrate sem.pspace (fun _ _ => 1) := by
        apply integrate_congr
        intro m hm q hq
        exact gather_one HP 1 m (by rw [← HP.mesh_eq]; exact hm) q hq
      rw [this]
      exact HP.volume
  have hext : ctP + sem.pvT sem.Dt y ∈ PSpace sem := by
    rw [pvT_Dt hv (VSpace_masked hyT.1)]
    exact (PSpace sem).add_mem hPm (D_mem hyT)
  have hct : ∀ r : K, PressureCt sem (fun j => r * (ctP + sem.pvT sem.Dt y) j) := by
    intro r
    have hm : (fun j => r * (ctP + sem.pvT sem.Dt y) j) ∈ PSpace sem := (PSpace sem).smul_mem r hext
    exact ⟨fun j hj => PSpace.outside hm j hj, fun q hq => PSpace_orthogonal hv hm hq⟩
  refine ⟨⟨y, fun i p k => -((1 / dt) * b i.castSucc * sem.vvT sem.B y p k),
    fun j => c 1 * (ctP + sem.pvT sem.Dt y) j, fun j => c 0 * (ctP + sem.pvT sem.Dt y) j,
    sem.vvT (sem.filterFn low alpha) (ctU - sem.vpT sem.D w) - sem.vvT (sem.H mu dt beta) y⟩, ?_, ?_, ?_, ?_, hct (c 1),
    hct (c 0)⟩
  · unfold StokesSEM.oneStepVjp
    simp only [hc, hb]
    rw [if_neg hnan]
    simp only [← hbd, hcg1, hL 0, hcg2]
  · intro us older p2 p1 f ub st hf hub hst
    obtain ⟨c', pExt, b', us0, dp, hc', hp, hb', _, hcgu, hfil, hcgp, hu, hpst⟩ := oneStep_ok hst
    rw [hb, Option.some.injEq] at hb'
    subst hb'
    rw [hc, Option.some.injEq] at hc'
    subst hc'
    have hubT : ub.getD 0 ∈ TSpace sem := by
      cases ub with
      | none => exact (TSpace sem).zero_mem
      | some u =>
        obtain ⟨h1, h2⟩ := hub u rfl
        exact ⟨free_mem H hfree h1, by rw [hvm]; exact h2⟩
    have hlift : ∀ x : Vel K d, lift x ub = x + ub.getD 0 := by
      intro x
      cases ub with
      | none => exact (add_zero x).symm
      | some u => rfl
    have hrhsub : stepRhs sem (List.ofFn us) pExt f mu dt timeOrder b ub =
        stepRhs sem (List.ofFn us) pExt f mu dt timeOrder b none - sem.H mu dt beta (ub.getD 0) := by
      cases ub with
      | none =>
        have : sem.H mu dt beta 0 = 0 := by rw [← HLin_apply sem hv.vwf]; exact map_zero _
        simp [this]
      | some u => rfl
    have hrhs := stepRhs_mem (us := List.ofFn us) (mu := mu) (dt := dt) H.massOutside (free_mem H hfree hf) pExt b ub
    -- forward velocity solve
    obtain ⟨x, r1, m1, hcgx, hxT, hx⟩ := velocity_exact hv H.massOutside H.massPos' H.stiff mu dt beta hmu hdt hbeta _ hrhs
    rw [hcgx, Option.some.injEq, Prod.mk.injEq] at hcgu
    obtain ⟨rfl, _⟩ := hcgu
    obtain ⟨w', hwT, hw'⟩ := S.filter_mem (x + ub.getD 0) ((TSpace sem).add_mem hxT hubT)
    rw [hlift] at hfil
    have hst1 : st.uStar = L (x + ub.getD 0) := by
      rw [hL, Option.some.injEq] at hfil
      exact hfil.symm
    have hsT : st.uStar ∈ TSpace sem := by
      rw [hfil, Option.some.injEq] at hw'
      rw [hw']; exact hwT
    -- forward pressure solve
    obtain ⟨dp', r2, m2, hcgd, hdp⟩ := pressure_exact hv S.pressure dt beta hdb (-sem.D st.uStar)
      ((PSpace sem).neg_mem (D_mem hsT))
    rw [hcgd, Option.some.injEq, Prod.mk.injEq] at hcgp
    obtain ⟨rfl, _⟩ := hcgp
    have e1 : nodeDot sem.numP (ctP + sem.pvT (fun p => sem.Q dt beta (sem.Dt p)) ctU) dp' =
        -sem.vDot (sem.vpT sem.D w) st.uStar := by
      have h1 := vpT_dot (sem := sem) (DLin sem) (x := st.uStar) (fun j hj => hsT.1 j (Or.inl hj)) w
      have h1' : sem.vDot (sem.vpT sem.D w) st.uStar = nodeDot sem.numP (sem.D st.uStar) w := h1
      rw [← hEw, nodeDot_comm, E_symm hv, hdp, nodeDot_neg_right, h1', nodeDot_comm]
    have e2 : sem.vDot ctU (sem.Q dt beta (sem.Dt dp')) =
        nodeDot sem.numP (sem.pvT (fun p => sem.Q dt beta (sem.Dt p)) ctU) dp' := by
      rw [pvT_Q_Dt hv dt beta (VSpace_masked hUm), nodeDot_comm, D_Dt_adjoint hv _ (Q_masked hv dt beta _ (VSpace_masked hUm)),
        vDot_comm, Q_symm]
    have e3 : sem.vDot (sem.vvT (sem.filterFn low alpha) (ctU - sem.vpT sem.D w)) (x + ub.getD 0) =
        sem.vDot (ctU - sem.vpT sem.D w) st.uStar := by
      rw [hfn, vvT_dot L (fun j hj => ((TSpace sem).add_mem hxT hubT).1 j (Or.inl hj)), hst1, vDot_comm]
    have e4 : sem.vDot (sem.vvT (sem.filterFn low alpha) (ctU - sem.vpT sem.D w)) x =
        sem.vDot y (stepRhs sem (List.ofFn us) pExt f mu dt timeOrder b none) -
          sem.vDot (sem.vvT (sem.H mu dt beta) y) (ub.getD 0) := by
      have hHL : sem.H mu dt beta = HLin sem hv.vwf mu dt beta := by
        funext u
        rw [HLin_apply]
      have h7 : sem.vDot (sem.vvT (sem.H mu dt beta) y) (ub.getD 0) = sem.vDot y (sem.H mu dt beta (ub.getD 0)) := by
        rw [hHL, vvT_dot _ (fun j hj => hubT.1 j (Or.inl hj)), vDot_comm]
      rw [h7, ← vDot_sub_right, ← hrhsub, vDot_comm, ← hy x hxT,
        H_symm hv mu dt beta (VSpace_masked hxT.1) (VSpace_masked hyT.1), hx y hyT]
    have e5 : sem.vDot y (stepRhs sem (List.ofFn us) pExt f mu dt timeOrder b none) =
        sem.vDot y f + nodeDot sem.numP (sem.pvT sem.Dt y) pExt +
          ∑ i, sem.vDot (fun p k => -((1 / dt) * b i.castSucc * sem.vvT sem.B y p k)) (us i) := by
      rw [stepRhs, vDot_sub_right, vDot_add_right, pvT_Dt hv (VSpace_masked hyT.1), nodeDot_comm, D_Dt_adjoint hv _ (VSpace_masked hyT.1),
        ← vvT_B, sub_eq_add_neg]
      congr 1
      have hh : ∀ p k, StokesSEM.history (List.ofFn (fun i : Fin timeOrder => b i.castSucc)) (List.ofFn us) p k =
          ∑ i : Fin timeOrder, b i.castSucc * us i p k := fun p k => C43_history _ _ p k
      unfold StokesSEM.vDot
      simp only [hh]
      rw [← Finset.sum_neg_distrib]
      refine Eq.trans (Finset.sum_congr rfl fun p _ => ?_) Finset.sum_comm
      rw [← Finset.sum_neg_distrib]
      refine Eq.trans (Finset.sum_congr rfl fun k _ => ?_) Finset.sum_comm
      rw [Finset.mul_sum, Finset.mul_sum, ← Finset.sum_neg_distrib]
      exact Finset.sum_congr rfl fun i _ => by ring
    have e6 : nodeDot sem.numP (fun j => c 1 * (ctP + sem.pvT sem.Dt y) j) p1 +
        nodeDot sem.numP (fun j => c 0 * (ctP + sem.pvT sem.Dt y) j) p2 =
        nodeDot sem.numP ctP pExt + nodeDot sem.numP (sem.pvT sem.Dt y) pExt := by
      have hp' : pExt = fun j => c 1 * p1 j + c 0 * p2 j := by
        simp [StokesSEM.extrapolate] at hp
        exact hp.symm
      rw [← nodeDot_add_left, hp']
      unfold nodeDot
      rw [← Finset.sum_add_distrib]
      exact Finset.sum_congr rfl fun j _ => by ring
    rw [nodeDot_add_left] at e1
    rw [vDot_sub_left, vDot_add_right] at e3
    rw [hu, hpst, vDot_add_right, nodeDot_add_right]
    simp only [vDot_sub_left]
    linarith
  · intro j hj
    exact hyT.1 j (Or.inl (by omega))
  · intro i j hj
    funext k
    simp only [vvT_outside sem.B y j (show sem.numV ≤ j by omega), Pi.zero_apply, mul_zero, neg_zero]

/-- Without Dirichlet nodes and with converged solves, the reverse pass returns the derivatives of every
loss that does not see pressures without gradient, and the cotangents it returns are again of this kind, so that the reverse
pass of several steps is right too. Missing: Dirichlet nodes (`C101_dirichlet_violated`) and the other losses of the pressure
(`C101_pressure_violated`). -/
theorem C101_partial [IsStrictOrderedRing K] (S : StepSetup vmesh pmesh quad overQuad masks bcs sem low alpha project)
    (hfree : ∀ j < vmesh.numNodes, ¬ DirichletNode masks bcs j) (hmu : 0 ≤ mu) (hdt : 0 < dt) (htime : 1 ≤ timeOrder)
    {ctU : Vel K d} (hU : ∀ j, vmesh.numNodes ≤ j → ctU j = 0) {ctP : ℕ → K} (hP : PressureCt sem ctP) :
    ∃ ct, sem.oneStepVjp low mu dt timeOrder alpha none project 0 0 ctU ctP = .ok ct ∧
      (∀ (us us' : Fin timeOrder → Vel K d) (older older' : List (ℕ → K)) (p2 p1 p2' p1' : ℕ → K) (f f' : Vel K d)
        (ub ub' : Option (Vel K d)) (st st' : StokesSEM.Step K d), (∀ j, vmesh.numNodes ≤ j → f j = 0) →
        (∀ j, vmesh.numNodes ≤ j → f' j = 0) → LiftField vmesh ub → LiftField vmesh ub' →
        sem.oneStep low (List.ofFn us) (older ++ [p2, p1]) f mu dt timeOrder alpha ub none project 0 0 = .ok st →
        sem.oneStep low (List.ofFn us') (older' ++ [p2', p1']) f' mu dt timeOrder alpha ub' none project 0 0 = .ok st' →
        sem.vDot ctU (st'.u - st.u) + nodeDot sem.numP ctP (st'.p - st.p) =
          sem.vDot ct.f (f' - f) + ∑ i, sem.vDot (ct.us i) (us' i - us i) + nodeDot sem.numP ct.p1 (p1' - p1) +
            nodeDot sem.numP ct.p2 (p2' - p2) + sem.vDot ct.ub (ub'.getD 0 - ub.getD 0)) ∧
      (∀ j, vmesh.numNodes ≤ j → ct.f j = 0) ∧ (∀ i, ∀ j, vmesh.numNodes ≤ j → ct.us i j = 0) ∧
      PressureCt sem ct.p1 ∧ PressureCt sem ct.p2 := by
  obtain ⟨ct, h1, h2, h3⟩ := vjp_adjoint S hfree hmu hdt htime hU hP
  refine ⟨ct, h1, ?_, h3⟩
  intro us us' older older' p2 p1 p2' p1' f f' ub ub' st st' hf hf' hub hub' hs hs'
  have e1 := h2 us older p2 p1 f ub st hf hub hs
  have e2 := h2 us' older' p2' p1' f' ub' st' hf' hub' hs'
  simp only [vDot_sub_right, nodeDot_sub_right, Finset.sum_sub_distrib]
  linarith

/-! ### Dirichlet nodes -/

/-- Conjugate gradients started from a zero residual return zero at once. -/
theorem cg_zero_rhs [IsStrictOrderedRing K] {V : Type*} [AddCommGroup V] [Module K V] {dot : V → V → K} {A M : V → V}
    (hA : A 0 = 0) (b : V) (hg : dot b (M b) ≤ 0) (tol atol : K) (maxiter : ℕ) :
    cg dot A M b 0 tol atol maxiter = some (0, dot b (M b), 0) := by
  have hc : ¬ cgCond (cgBound dot b tol atol) maxiter (cgInit dot A M b 0) := by
    rintro ⟨h, _⟩
    have h1 : dot (b - A 0) (M (b - A 0)) > cgBound dot b tol atol := h
    rw [hA, sub_zero] at h1
    have h2 : 0 ≤ cgBound dot b tol atol := le_trans (sq_nonneg atol) (le_max_right _ _)
    linarith
  have hl : cgLoop dot A M (cgBound dot b tol atol) maxiter maxiter (cgInit dot A M b 0) = some (cgInit dot A M b 0) := by
    cases maxiter with
    | zero => rfl
    | succ m => rw [cgLoop, if_neg hc]
  unfold cg
  rw [hl]
  simp [cgInit, hA]

/-- Conjugate gradients whose first direction has no energy end in a division by zero. -/
theorem cg_breakdown {V : Type*} [AddCommGroup V] [Module K V] {dot : V → V → K} {A M : V → V}
    (hA : A 0 = 0) (b : V) {tol atol : K} (hg : cgBound dot b tol atol < dot b (M b)) (hz : dot (M b) (A (M b)) = 0)
    {maxiter : ℕ} (hm : 0 < maxiter) : cg dot A M b 0 tol atol maxiter = none := by
  obtain ⟨m, rfl⟩ : ∃ m, maxiter = m + 1 := ⟨maxiter - 1, by omega⟩
  have hc : cgCond (cgBound dot b tol atol) (m + 1) (cgInit dot A M b 0) := by
    refine ⟨?_, hm⟩
    change dot (b - A 0) (M (b - A 0)) > _
    rw [hA, sub_zero]
    exact hg
  have hb : cgBody dot A M (cgInit dot A M b 0) = none := by
    have : dot (cgInit dot A M b 0).p (A (cgInit dot A M b 0).p) = 0 := by
      change dot (M (b - A 0)) (A (M (b - A 0))) = 0
      rw [hA, sub_zero]
      exact hz
    simp only [cgBody, this, if_true]
  unfold cg
  rw [cgLoop, if_pos hc, hb]

theorem vExchange_unit {j0 : ℕ} (hj0 : j0 < sem.numV) (k : Fin d) (j : ℕ) (hj : j < sem.numV) (l : Fin d) :
    vExchange sem.vspace.mesh (vUnit j0 k : Vel K d) j l = if SameNode sem.vspace.mesh j j0 ∧ l = k then 1 else 0 := by
  unfold vExchange
  rw [exchange_sum _ _ _ hj]
  by_cases hl : l = k
  · rw [Finset.sum_eq_single j0]
    · simp [vUnit, hl]
    · intro i _ hi
      simp [vUnit, hi]
    · intro h
      exact absurd (Finset.mem_range.mpr hj0) h
  · rw [if_neg (fun h => hl h.2)]
    exact Finset.sum_eq_zero fun i _ => by simp [vUnit, hl]

/-- The velocity returned by a step is zero at a Dirichlet node, whatever the inputs, so that the derivative of its value
there is zero; the reverse pass divides by zero. The tolerances are arbitrary, the filter is off. -/
theorem C101_dirichlet_violated [IsStrictOrderedRing K]
    (S : StepSetup vmesh pmesh quad overQuad masks bcs sem low 0 project) (hdt : 0 < dt) (htime : 1 ≤ timeOrder)
    {j0 : ℕ} (hj0 : j0 < vmesh.numNodes) (hD : DirichletNode masks bcs j0) (k : Fin d) {tol atol : K}
    (htol : 0 ≤ tol ∧ tol < 1) (hatol : 0 ≤ atol ∧ atol < 1) :
    (∀ (us : List (Vel K d)) (ps : List (ℕ → K)) (f : Vel K d) (st : StokesSEM.Step K d),
      (∀ j, DirichletNode masks bcs j → f j = 0) → (∀ j, vmesh.numNodes ≤ j → f j = 0) →
      sem.oneStep low us ps f mu dt timeOrder 0 none none project tol atol = .ok st → sem.vDot (vUnit j0 k) st.u = 0) ∧
    sem.oneStepVjp low mu dt timeOrder 0 none project tol atol (vUnit j0 k) 0 = .error "nan" := by
  have H := S.setup
  have hv := H.valid
  obtain ⟨_, _, hvm, _, hmask, _, _⟩ := H.fields
  have hnum : sem.numV = vmesh.numNodes := by unfold StokesSEM.numV; rw [hvm]
  have F : FilterSetup sem.vspace.mesh low := by rw [hvm]; exact S.filter
  have hj0' : j0 < sem.numV := by omega
  have hm0 : sem.mask j0 = 0 := (hmask j0).1 hD
  constructor
  · intro us ps f st hf hf' h
    obtain ⟨c, pExt, b, us0, dp, _, _, _, _, hcg, hfil, _, hu, _⟩ := oneStep_ok h
    have hmem := us0_mem H (stepRhs_mem H.massOutside ((H.mem_VSpace f).mpr ⟨hf, hf'⟩) _ _ _) hcg
    rw [filter_zero F, Option.some.injEq] at hfil
    have h2 := ((H.mem_VSpace _).mp (Q_mem H.valid dt (b (Fin.last timeOrder)) (Dt_mem dp)).1).1 j0 hD
    have h1 := ((H.mem_VSpace _).mp hmem.1).1 j0 hD
    rw [vDot_unit j0 hj0', hu, ← hfil, lift, Pi.add_apply, h1, h2]
    simp
  · obtain ⟨c, hc, _⟩ := C36_exact (K := K) 1 le_rfl
    obtain ⟨b, hb, _⟩ := C37_exact (K := K) timeOrder htime
    unfold StokesSEM.oneStepVjp
    simp only [hc, hb]
    split_ifs with hnan
    · rfl
    set beta := b (Fin.last timeOrder) with hbd
    have hDp : (0 : ℕ → K) + sem.pvT (fun p => sem.Q dt beta (sem.Dt p)) (vUnit j0 k) = 0 := by
      funext j
      rw [zero_add, StokesSEM.pvT]
      split_ifs with hj
      · rw [vDot_comm, vDot_unit j0 hj0', Q_masked hv dt beta _ (Dt_masked (pUnit j)) j0 hj0' hm0 k]
        rfl
      · rfl
    have hE0 : sem.E dt beta 0 = 0 := (ELin sem hv.pwf dt beta).map_zero
    have hcg1 := cg_zero_rhs (dot := nodeDot sem.numP) (M := sem.precondFn (StokesSEM.choosePrecond none project)) hE0 0
      (by simp [nodeDot]) tol atol (10 * sem.numP)
    rw [hDp, hcg1]
    simp only [filter_zero F]
    have hD0 : sem.vpT sem.D 0 = 0 := by
      funext j l
      simp [StokesSEM.vpT, nodeDot]
    have hct : sem.vvT (sem.filterFn low 0) (vUnit j0 k - sem.vpT sem.D 0) = vUnit j0 k := by
      rw [hD0, sub_zero]
      funext j l
      rw [StokesSEM.vvT]
      split_ifs with hj
      · have : sem.filterFn low 0 (vUnit j l) = vUnit j l := by
          rw [StokesSEM.filterFn, filter_zero F]
          rfl
        rw [this, vDot_unit j hj]
      · have : j ≠ j0 := by omega
        simp [vUnit, this]
    rw [hct]
    have hH0 : sem.H mu dt beta 0 = 0 := by
      rw [← HLin_apply sem hv.vwf]
      exact map_zero _
    have hex : sem.vDot (vUnit j0 k) (vExchange sem.vspace.mesh (vUnit j0 k : Vel K d)) = 1 := by
      rw [vDot_unit j0 hj0', vExchange_unit hj0' k j0 hj0', if_pos ⟨SameNode.refl _ _, rfl⟩]
    have hbound : cgBound sem.vDot (vUnit j0 k : Vel K d) tol atol < 1 := by
      unfold cgBound
      rw [vDot_unit j0 hj0']
      refine max_lt ?_ ?_
      · simp only [vUnit, and_self, if_true, mul_one]
        nlinarith [htol.1, htol.2]
      · nlinarith [hatol.1, hatol.2]
    rw [cg_breakdown hH0 _ (by rw [hex]; exact hbound)]
    · -- the direction lives on the Dirichlet nodes, where the operator is zero
      unfold StokesSEM.vDot
      refine Finset.sum_eq_zero fun j hj => Finset.sum_eq_zero fun l _ => ?_
      have hj' := Finset.mem_range.mp hj
      rw [vExchange_unit hj0' k j hj']
      split_ifs with hs
      · have hmj : sem.mask j = 0 := by rw [hv.maskCont j hj' j0 hj0' hs.1]; exact hm0
        rw [H_mem H.massOutside mu dt beta _ j (Or.inr hmj)]
        simp
      · simp
    · have hd : 0 < d := k.pos
      have : 0 < sem.numV * d := Nat.mul_pos (by omega) hd
      omega

/-- With Dirichlet nodes the velocity solve of the reverse pass leaves the residual at these nodes as it is. Unless it is
within the tolerance from the start, the solve does not converge: it divides by zero or runs into the iteration limit. -/
theorem C101_dirichlet_stalls [IsStrictOrderedRing K] (H : StokesSetup vmesh pmesh quad overQuad masks bcs sem) (beta : K)
    (ct : Vel K d) {tol atol : K} (maxiter : ℕ)
    (hbad : max (tol ^ 2 * sem.vDot ct ct) (atol ^ 2) <
      ∑ j ∈ Finset.range vmesh.numNodes, ∑ k, (1 - sem.mask j) * (ct j k * vExchange vmesh ct j k)) :
    ¬ ∃ x res n, n < maxiter ∧
      cg sem.vDot (sem.H mu dt beta) (vExchange sem.vspace.mesh) ct 0 tol atol maxiter = some (x, res, n) := by
  rintro ⟨x, res, n, hlt, h⟩
  have hv := H.valid
  obtain ⟨_, _, hvm, _, hmask, _, _⟩ := H.fields
  have hnum : sem.numV = vmesh.numNodes := by unfold StokesSEM.numV; rw [hvm]
  have hfun : sem.H mu dt beta = HLin sem hv.vwf mu dt beta := funext fun u => (HLin_apply sem hv.vwf mu dt beta u).symm
  rw [hfun] at h
  obtain ⟨h1, h2, h3⟩ := C44_exit _ _ _ _ _ _ _ _ _ _ _ h
  have h4 := h3 hlt
  rw [h2, HLin_apply] at h4
  set r := ct - sem.H mu dt beta x with hr
  -- at the Dirichlet nodes the residual is the right hand side
  have hrD : ∀ j, sem.mask j = 0 → r j = ct j := by
    intro j hj
    rw [hr, Pi.sub_apply, H_mem H.massOutside mu dt beta x j (Or.inr hj), sub_zero]
  have hexD : ∀ j < sem.numV, sem.mask j = 0 → vExchange sem.vspace.mesh r j = vExchange sem.vspace.mesh ct j := by
    intro j hj hm
    funext k
    unfold vExchange
    rw [exchange_sum _ _ _ hj, exchange_sum _ _ _ hj]
    refine Finset.sum_congr rfl fun i hi => ?_
    split_ifs with hs
    · rw [hrD i (by rw [← hv.maskCont j hj i (Finset.mem_range.mp hi) hs]; exact hm)]
    · rfl
  have hsplit : sem.vDot r (vExchange sem.vspace.mesh r) =
      ∑ k, ∑ j ∈ Finset.range sem.numV, sem.mask j * sem.vspace.mesh.exchange (fun p => r p k) j * r j k +
      ∑ j ∈ Finset.range sem.numV, ∑ k, (1 - sem.mask j) * (r j k * vExchange sem.vspace.mesh r j k) := by
    unfold StokesSEM.vDot
    rw [Finset.sum_comm (s := Finset.univ), ← Finset.sum_add_distrib]
    refine Finset.sum_congr rfl fun j _ => ?_
    rw [← Finset.sum_add_distrib]
    refine Finset.sum_congr rfl fun k _ => ?_
    unfold vExchange
    ring
  have hnn : 0 ≤ ∑ k, ∑ j ∈ Finset.range sem.numV, sem.mask j * sem.vspace.mesh.exchange (fun p => r p k) j * r j k := by
    refine Finset.sum_nonneg fun k _ => exchange_psd sem.vspace.mesh _ (fun p => r p k) ?_ ?_
    · intro i hi j hj hs
      exact hv.maskCont i hi j hj hs
    · intro i hi
      rcases hv.mask01 i hi with h | h <;> rw [h]
      exact zero_le_one
  have hD : ∑ j ∈ Finset.range sem.numV, ∑ k, (1 - sem.mask j) * (r j k * vExchange sem.vspace.mesh r j k) =
      ∑ j ∈ Finset.range vmesh.numNodes, ∑ k, (1 - sem.mask j) * (ct j k * vExchange vmesh ct j k) := by
    rw [hnum, ← hvm]
    refine Finset.sum_congr rfl fun j hj => Finset.sum_congr rfl fun k _ => ?_
    have hj' : j < sem.numV := Finset.mem_range.mp hj
    rcases hv.mask01 j hj' with h0 | h0
    · rw [hrD j h0, hexD j hj' h0]
    · rw [h0]; ring
  rw [hsplit, hD] at h4
  linarith

/-- The hypothesis of `C101_dirichlet_stalls` holds at every Dirichlet node. -/
example [IsStrictOrderedRing K] (H : StokesSetup vmesh pmesh quad overQuad masks bcs sem) {j0 : ℕ} (hj0 : j0 < vmesh.numNodes)
    (hD : DirichletNode masks bcs j0) (k : Fin d) : max ((1 / 2 : K) ^ 2 * sem.vDot (vUnit j0 k) (vUnit j0 k)) (0 ^ 2) <
      ∑ j ∈ Finset.range vmesh.numNodes, ∑ l, (1 - sem.mask j) * ((vUnit j0 k : Vel K d) j l * vExchange vmesh (vUnit j0 k) j l) := by
  obtain ⟨_, _, hvm, _, hmask, _, _⟩ := H.fields
  have hnum : sem.numV = vmesh.numNodes := by unfold StokesSEM.numV; rw [hvm]
  have h1 : ∑ j ∈ Finset.range vmesh.numNodes, ∑ l, (1 - sem.mask j) *
      ((vUnit j0 k : Vel K d) j l * vExchange vmesh (vUnit j0 k) j l) = 1 := by
    rw [Finset.sum_eq_single j0, Finset.sum_eq_single k]
    · have := vExchange_unit (sem := sem) (by rw [hnum]; exact hj0) k j0 (by rw [hnum]; exact hj0) k
      rw [if_pos ⟨SameNode.refl _ _, rfl⟩, hvm] at this
      rw [this, (hmask j0).1 hD]
      simp [vUnit]
    · intro l _ hl
      simp [vUnit, hl]
    · intro h; exact absurd (Finset.mem_univ k) h
    · intro j _ hj
      exact Finset.sum_eq_zero fun l _ => by simp [vUnit, hj]
    · intro h; exact absurd (Finset.mem_range.mpr hj0) h
  rw [h1, vDot_unit _ (by rw [hnum]; exact hj0)]
  simp [vUnit]
  norm_num

/-! ### losses of the pressure -/

/-- The weights of the mean. -/
theorem mass_weight [IsStrictOrderedRing K] (HP : PressureSetup pmesh quad sem) (w : ℕ → K) :
    nodeDot sem.numP (sem.pressureB (fun _ => 1)) w = integrate sem.pspace (scalarFn sem.pspace (pmesh.gather w)) := by
  have hr : pmesh.InRange := fun m hm n hn => Or.inr (HP.range m hm n hn)
  have h := C39_mass pmesh quad sem.pspace HP.points hr HP.build (fun _ => 1) w
  have hm := HP.mesh_eq
  rw [nodeDot_comm]
  unfold nodeDot StokesSEM.numP StokesSEM.pressureB
  rw [hm, h]
  apply integrate_congr
  intro m hm' q hq
  rw [gather_one HP 1 m (by rw [← hm]; exact hm') q hq, one_mul]

theorem mass_total [IsStrictOrderedRing K] (HP : PressureSetup pmesh quad sem) :
    ∑ j ∈ Finset.range sem.numP, sem.pressureB (fun _ => 1) j = integrate sem.pspace (fun _ _ => 1) := by
  have h := mass_weight HP (fun _ => 1)
  unfold nodeDot at h
  simp only [mul_one] at h
  rw [h]
  apply integrate_congr
  intro m hm q hq
  exact gather_one HP 1 m (by rw [← HP.mesh_eq]; exact hm) q hq

/-- The velocity solve returns the velocity its right hand side was made from. -/
theorem velocity_unique [IsStrictOrderedRing K] (H : StokesSetup vmesh pmesh quad overQuad masks bcs sem) {beta : K}
    (hmu : 0 ≤ mu) (hdt : 0 < dt) (hbeta : 0 < beta) {x y : Vel K d} (hx : x ∈ TSpace sem) (hy : y ∈ TSpace sem)
    (h : ∀ v ∈ TSpace sem, sem.vDot v (sem.H mu dt beta x) = sem.vDot v (sem.H mu dt beta y)) : x = y := by
  have hv := H.valid
  have hz := (TSpace sem).sub_mem hx hy
  have h1 := h _ hz
  have hsub : sem.H mu dt beta (x - y) = sem.H mu dt beta x - sem.H mu dt beta y := by
    simp only [← HLin_apply sem hv.vwf, map_sub]
  have h2 : sem.vDot (x - y) (sem.H mu dt beta (x - y)) = 0 := by rw [hsub, vDot_sub_right, h1, sub_self]
  rw [H_dot hv (VSpace_masked hz.1)] at h2
  have h3 := mul_nonneg hmu (H.stiff (vGather sem.vspace.mesh (x - y)))
  have hnn : ∀ j ∈ Finset.range sem.numV, ∀ k ∈ (Finset.univ : Finset (Fin d)),
      0 ≤ sem.massDiag j k * ((x - y) j k * (x - y) j k) := fun j hj k _ =>
    mul_nonneg (H.massPos' j (Finset.mem_range.mp hj) k).le (mul_self_nonneg _)
  have h4 : 0 ≤ ∑ j ∈ Finset.range sem.numV, ∑ k, sem.massDiag j k * ((x - y) j k * (x - y) j k) :=
    Finset.sum_nonneg fun j hj => Finset.sum_nonneg (hnn j hj)
  have hbd : 0 < beta / dt := div_pos hbeta hdt
  have h5 : ∑ j ∈ Finset.range sem.numV, ∑ k, sem.massDiag j k * ((x - y) j k * (x - y) j k) = 0 := by
    rcases h4.eq_or_lt with h | h
    · exact h.symm
    · have := mul_pos hbd h
      linarith
  rw [← sub_eq_zero]
  funext j
  by_cases hj : j < sem.numV
  · funext k
    have h6 := (Finset.sum_eq_zero_iff_of_nonneg fun j hj => Finset.sum_nonneg (hnn j hj)).mp h5 j (Finset.mem_range.mpr hj)
    have h7 := (Finset.sum_eq_zero_iff_of_nonneg (hnn j (Finset.mem_range.mpr hj))).mp h6 k (Finset.mem_univ k)
    rcases mul_eq_zero.mp h7 with h8 | h8
    · exact absurd h8 (H.massPos' j hj k).ne'
    · exact mul_self_eq_zero.mp h8
  · exact hz.1 j (Or.inl (not_lt.mp hj))

/-- What a step that starts at rest without pressure returns for the force `H v`: the pressure increment of the velocity `v`,
without mean. -/
theorem step_from_rest [IsStrictOrderedRing K] (S : StepSetup vmesh pmesh quad overQuad masks bcs sem low 0 true)
    (hmu : 0 ≤ mu) (hdt : 0 < dt) (htime : 1 ≤ timeOrder) {b : Fin (timeOrder + 1) → K} (hb : bdfkCoeffs timeOrder = some b)
    {v : Vel K d} (hvT : v ∈ TSpace sem) :
    ∃ st, sem.oneStep low (List.ofFn fun _ : Fin timeOrder => (0 : Vel K d)) [0, 0] (sem.H mu dt (b (Fin.last timeOrder)) v) mu dt
        timeOrder 0 none none true 0 0 = .ok st ∧
      sem.E dt (b (Fin.last timeOrder)) st.p = -sem.D v ∧ nodeDot sem.numP (sem.pressureB (fun _ => 1)) st.p = 0 := by
  have H := S.setup
  have hv := H.valid
  obtain ⟨_, _, hvm, _⟩ := H.fields
  have F : FilterSetup sem.vspace.mesh low := by rw [hvm]; exact S.filter
  obtain ⟨HP, _⟩ := S.pressure rfl
  have hbeta := (C37_leading timeOrder b hb).2
  have hdb : 0 < dt / b (Fin.last timeOrder) := div_pos hdt hbeta
  have hfm := H_mem H.massOutside mu dt (b (Fin.last timeOrder)) v
  have hf := (H.mem_VSpace _).mp hfm
  obtain ⟨st, hst, _⟩ := C42_step (us := List.ofFn fun _ : Fin timeOrder => (0 : Vel K d)) (ps := [0, 0]) (tol := 0) (atol := 0)
    S hf.1 hf.2 hmu hdt htime (by simp)
  refine ⟨st, hst, ?_⟩
  obtain ⟨c, pExt, b', us0, dp, hc, hp, hb', _, hcgu, hfil, hcgp, hu, hpst⟩ := oneStep_ok hst
  rw [hb, Option.some.injEq] at hb'
  subst hb'
  have hp0 : pExt = 0 := by
    simp [StokesSEM.extrapolate] at hp
    rw [← hp]
    rfl
  have hrhs : stepRhs sem (List.ofFn fun _ : Fin timeOrder => (0 : Vel K d)) pExt (sem.H mu dt (b (Fin.last timeOrder)) v) mu dt
      timeOrder b none = sem.H mu dt (b (Fin.last timeOrder)) v := by
    have hD : sem.Dt 0 = 0 := (DtLin sem hv.pwf).map_zero
    have hh : ∀ p k, StokesSEM.history (List.ofFn (fun i : Fin timeOrder => b i.castSucc))
        (List.ofFn fun _ : Fin timeOrder => (0 : Vel K d)) p k = 0 := fun p k => by
      rw [C43_history]
      simp
    rw [stepRhs, hp0, hD, add_zero]
    funext p k
    simp only [StokesSEM.B, Pi.sub_apply, hh, mul_zero, sub_zero]
  rw [hrhs] at hcgu
  obtain ⟨x, r1, m1, hcgx, hxT, hx⟩ := velocity_exact hv H.massOutside H.massPos' H.stiff mu dt _ hmu hdt hbeta _ hfm
  rw [hcgx, Option.some.injEq, Prod.mk.injEq] at hcgu
  obtain ⟨rfl, _⟩ := hcgu
  have hxv : x = v := velocity_unique H hmu hdt hbeta hxT hvT hx
  have hstar : st.uStar = v := by
    rw [filter_zero F, Option.some.injEq] at hfil
    rw [← hfil, ← hxv]
    rfl
  rw [hstar] at hcgp
  have hT : ∀ w, nodeDot sem.numP (sem.pressureB (fun _ => 1)) (sem.projectOut w) = 0 := fun w => by
    rw [mass_weight HP, C41_zero_mean HP]
  have hmean : nodeDot sem.numP (sem.pressureB (fun _ => 1)) dp = 0 := by
    let T : Submodule K (ℕ → K) :=
      { carrier := {w | nodeDot sem.numP (sem.pressureB (fun _ => 1)) w = 0}
        add_mem' := fun {a b} ha hb => by
          have ha' : nodeDot sem.numP (sem.pressureB (fun _ => 1)) a = 0 := ha
          have hb' : nodeDot sem.numP (sem.pressureB (fun _ => 1)) b = 0 := hb
          change nodeDot sem.numP (sem.pressureB (fun _ => 1)) (a + b) = 0
          rw [nodeDot_add_right, ha', hb', add_zero]
        zero_mem' := by
          change nodeDot sem.numP (sem.pressureB (fun _ => 1)) 0 = 0
          simp [nodeDot]
        smul_mem' := fun r a ha => by
          have ha' : nodeDot sem.numP (sem.pressureB (fun _ => 1)) a = 0 := ha
          change nodeDot sem.numP (sem.pressureB (fun _ => 1)) (r • a) = 0
          rw [nodeDot_smul_right, ha', mul_zero] }
    exact cg_range _ _ _ (⊤ : Submodule K (ℕ → K)) T _ _ _ _ _ trivial T.zero_mem (fun _ _ => trivial) (fun w _ => hT w) _ _ _ hcgp
  obtain ⟨dp', r2, m2, hcgd, hdp⟩ := pressure_exact hv S.pressure dt (b (Fin.last timeOrder)) hdb (-sem.D v)
    ((PSpace sem).neg_mem (D_mem hvT))
  rw [hcgd, Option.some.injEq, Prod.mk.injEq] at hcgp
  obtain ⟨rfl, _⟩ := hcgp
  rw [hpst, hp0, zero_add]
  exact ⟨hdp, hmean⟩

/-- Where the mass of the nodal basis functions has a gradient of its own, that is, where the pressure nodes have different
masses, there is a loss of the pressure for which the reverse pass stops before its first iteration: it returns zero for the
force, though the loss depends on the force. The null space is projected out, the solves are exact, the filter is off. -/
theorem C101_pressure_violated [IsStrictOrderedRing K]
    (S : StepSetup vmesh pmesh quad overQuad masks bcs sem low 0 true) (hmu : 0 ≤ mu) (hdt : 0 < dt) (htime : 1 ≤ timeOrder)
    (hmass : ¬ NoGradient sem (sem.pressureB (fun _ => 1))) :
    ∃ ctP ct, (∀ j, sem.numP ≤ j → ctP j = 0) ∧
      sem.oneStepVjp low mu dt timeOrder 0 none true 0 0 0 ctP = .ok ct ∧ ct.f = 0 ∧ (∀ i, ct.us i = 0) ∧
      ∃ f st st', (∀ j, DirichletNode masks bcs j → f j = 0) ∧ (∀ j, vmesh.numNodes ≤ j → f j = 0) ∧
        sem.oneStep low (List.ofFn fun _ : Fin timeOrder => (0 : Vel K d)) [0, 0] 0 mu dt timeOrder 0 none none true 0 0 = .ok st ∧
        sem.oneStep low (List.ofFn fun _ : Fin timeOrder => (0 : Vel K d)) [0, 0] f mu dt timeOrder 0 none none true 0 0 = .ok st' ∧
        nodeDot sem.numP ctP st'.p ≠ nodeDot sem.numP ctP st.p := by
  have H := S.setup
  have hv := H.valid
  obtain ⟨_, _, hvm, _⟩ := H.fields
  have F : FilterSetup sem.vspace.mesh low := by rw [hvm]; exact S.filter
  obtain ⟨HP, hcl⟩ := S.pressure rfl
  have hnumP : sem.numP = pmesh.numNodes := by unfold StokesSEM.numP; rw [HP.mesh_eq]
  obtain ⟨c, hc, _⟩ := C36_exact (K := K) 1 le_rfl
  obtain ⟨b, hb, _⟩ := C37_exact (K := K) timeOrder htime
  have hbeta := (C37_leading timeOrder b hb).2
  have hdb : 0 < dt / b (Fin.last timeOrder) := div_pos hdt hbeta
  set beta := b (Fin.last timeOrder) with hbd
  obtain ⟨m, hm⟩ : ∃ m, m = sem.pressureB (fun _ => 1) := ⟨_, rfl⟩
  rw [← hm] at hmass
  have hmout : ∀ j, sem.numP ≤ j → m j = 0 := fun j hj => by
    rw [hm]
    exact Mesh.scatter_outside _ _ j hj
  have hform : nodeDot sem.numP m (sem.E dt beta m) ≠ 0 := fun h0 => hmass (E_form_zero hv dt beta hdb m h0)
  have hEE : nodeDot sem.numP (sem.E dt beta m) (sem.E dt beta m) ≠ 0 := fun h0 => hform (by
    unfold nodeDot
    exact Finset.sum_eq_zero fun j hj => by rw [nodeDot_self_zero h0.le j (Finset.mem_range.mp hj), mul_zero])
  obtain ⟨e, he⟩ : ∃ e, e = nodeDot sem.numP m (sem.E dt beta m) / nodeDot sem.numP (sem.E dt beta m) (sem.E dt beta m) := ⟨_, rfl⟩
  have he' : e * nodeDot sem.numP (sem.E dt beta m) (sem.E dt beta m) = nodeDot sem.numP m (sem.E dt beta m) := by
    rw [he, div_mul_cancel₀ _ hEE]
  -- the first residual of the reverse solve
  have hproj : ∀ w : ℕ → K, nodeDot sem.numP w (sem.projectOut w) = nodeDot sem.numP w w -
      nodeDot sem.numP m w / integrate sem.pspace (fun _ _ => 1) * ∑ j ∈ Finset.range sem.numP, w j := by
    intro w
    have h1 : ∀ j ∈ Finset.range sem.numP, w j * sem.projectOut w j =
        w j * w j - nodeDot sem.numP m w / integrate sem.pspace (fun _ _ => 1) * w j := fun j hj => by
      rw [C41_mean HP w j (by rw [← hnumP]; exact Finset.mem_range.mp hj), ← mass_weight HP, ← hm]
      ring
    unfold nodeDot at h1 ⊢
    rw [Finset.sum_congr rfl h1, Finset.sum_sub_distrib, Finset.mul_sum]
  have hsum : ∑ j ∈ Finset.range sem.numP, (m - e • sem.E dt beta m) j = integrate sem.pspace (fun _ _ => 1) := by
    have h0 := closed_sum hv hcl (E_mem hv dt beta m)
    have h1 := mass_total HP
    rw [← hm] at h1
    simp only [Pi.sub_apply, Pi.smul_apply, smul_eq_mul, Finset.sum_sub_distrib, ← Finset.mul_sum]
    rw [h0, h1, mul_zero, sub_zero]
  have hgamma : nodeDot sem.numP (m - e • sem.E dt beta m) (sem.projectOut (m - e • sem.E dt beta m)) = 0 := by
    rw [hproj, hsum, div_mul_cancel₀ _ HP.volume]
    simp only [nodeDot_sub_left, nodeDot_sub_right, nodeDot_smul_left, nodeDot_smul_right]
    rw [nodeDot_comm sem.numP (sem.E dt beta m) m, he']
    ring
  have hE0 : sem.E dt beta 0 = 0 := (ELin sem hv.pwf dt beta).map_zero
  have hH0 : sem.H mu dt beta 0 = 0 := by
    rw [← HLin_apply sem hv.vwf]
    exact map_zero _
  have hpv0 : ∀ L, sem.pvT L 0 = 0 := fun L => by
    funext j
    simp [StokesSEM.pvT, StokesSEM.vDot]
  have hvp0 : sem.vpT sem.D 0 = 0 := by
    funext j l
    simp [StokesSEM.vpT, nodeDot]
  have hvv0 : ∀ L, sem.vvT L 0 = 0 := fun L => by
    funext j l
    simp [StokesSEM.vvT, StokesSEM.vDot]
  have hnan : ¬ (¬ sem.finite ∨ dt = 0 ∨ beta = 0 ∨
      ((StokesSEM.choosePrecond (K := K) none true).isProject = true ∧
        nodeDot sem.numP (fun _ => 1) (sem.pressureB (fun _ => 1)) = 0)) := by
    push Not
    refine ⟨H.finite, hdt.ne', hbeta.ne', fun _ => ?_⟩
    have := mass_total HP
    unfold nodeDot
    simp only [one_mul]
    rw [this]
    exact HP.volume
  have hcg1 := cg_zero_rhs (dot := nodeDot sem.numP) (M := sem.projectOut) hE0 (m - e • sem.E dt beta m) hgamma.le 0 0 (10 * sem.numP)
  have hcg2 := cg_zero_rhs (dot := sem.vDot) (M := vExchange sem.vspace.mesh) hH0 0 (by simp [StokesSEM.vDot]) 0 0
    (10 * (sem.numV * d))
  refine ⟨m - e • sem.E dt beta m, ⟨0, fun i => 0, fun j => c 1 * (m - e • sem.E dt beta m) j,
    fun j => c 0 * (m - e • sem.E dt beta m) j, 0⟩, fun j hj => ?_, ?_, rfl, fun i => rfl, ?_⟩
  · rw [Pi.sub_apply, hmout j hj, Pi.smul_apply, PSpace.outside (E_mem hv dt beta m) j hj]
    simp
  · unfold StokesSEM.oneStepVjp
    simp only [hc, hb]
    rw [if_neg hnan]
    simp only [← hbd, hpv0, add_zero]
    rw [show sem.precondFn (StokesSEM.choosePrecond none true) = sem.projectOut from rfl, hcg1]
    simp only [filter_zero F, hvp0, sub_zero, hvv0, hcg2]
    refine congrArg Except.ok ?_
    congr 1
    · funext i p k
      simp
    · rw [hpv0, add_zero]
    · rw [hpv0, add_zero]
  · obtain ⟨st, h1, h2, h3⟩ := step_from_rest S hmu hdt htime hb (TSpace sem).zero_mem
    obtain ⟨st', h1', h2', h3'⟩ := step_from_rest S hmu hdt htime hb (Q_mem hv dt beta (Dt_mem (sem := sem) m))
    rw [hH0] at h1
    have hf := (H.mem_VSpace _).mp (H_mem H.massOutside mu dt beta (sem.Q dt beta (sem.Dt m)))
    refine ⟨_, st, st', hf.1, hf.2, h1, h1', ?_⟩
    have hD0 : sem.D 0 = 0 := (DLin sem).map_zero
    have hDm : sem.D (sem.Q dt beta (sem.Dt m)) = sem.E dt beta m := rfl
    rw [← hbd, hD0, neg_zero] at h2
    rw [← hbd, hDm] at h2'
    rw [← hm] at h3 h3'
    rw [nodeDot_sub_left, nodeDot_sub_left, nodeDot_smul_left, nodeDot_smul_left, h3, h3', nodeDot_comm sem.numP (sem.E dt beta m),
      nodeDot_comm sem.numP (sem.E dt beta m), E_symm hv dt beta m st'.p, E_symm hv dt beta m st.p, h2, h2', nodeDot_neg_right]
    have h0 : nodeDot sem.numP m (0 : ℕ → K) = 0 := by simp [nodeDot]
    rw [h0, mul_zero, sub_zero]
    intro h
    have h4 : e * nodeDot sem.numP m (sem.E dt beta m) = 0 := by linarith
    rcases mul_eq_zero.mp h4 with h5 | h5
    · rw [h5, zero_mul] at he'
      exact hform he'.symm
    · exact hform h5

/-! ### unit cube meshes -/

section cube

variable {n d p over : ℕ} {a b : ℝ} {per : List ℕ} {bcs : List (String × BCType)} {cs : CubeStokes d} {mu dt alpha : ℝ}
  {timeOrder : ℕ} {project : Bool}

/-- On the mesh of a cube a pressure without gradient is constant, and zero when the boundary is open. -/
theorem noGradient_cube {vnode pnode : ℕ → ℕ → ℕ} {l : List ℝ} (h : CubeSEM n d p a b per bcs cs vnode pnode l) (hn : 1 ≤ n)
    (hp : 3 ≤ p) (hb : CubeBCs d per bcs) {q : ℕ → ℝ} (hq : NoGradient cs.sem q) :
    ∃ r : ℝ, (∀ j < cs.pmesh.numNodes, q j = r) ∧ (bcs = [] → (∃ k : Fin d, (k : ℕ) ∉ per) → r = 0) := by
  have hv := (h.setup hn hb).valid
  refine h.unseen_nodes hn hp hb (fun u hu => ?_)
  rw [D_Dt_adjoint hv u (VSpace_masked hu.1)]
  exact vDot_exchange_zero hu hq

/-- On the mesh of a cube without boundary conditions, periodic or not, the reverse pass of a step returns the derivatives of
every loss of velocity and pressure; when all axes are periodic the loss must not change with the mean of the pressure. -/
theorem C101_cube (hn : 1 ≤ n) (hd : 1 ≤ d) (hp : 3 ≤ p) (hab : a < b) (hcs : cubeStokes n d p over a b per [] = .ok cs)
    (hclosed : project = true → ∀ k : Fin d, (k : ℕ) ∈ per) (hmu : 0 ≤ mu) (hdt : 0 < dt) (htime : 1 ≤ timeOrder)
    {ctU : Vel ℝ d} (hU : ∀ j, cs.vmesh.numNodes ≤ j → ctU j = 0) {ctP : ℕ → ℝ} (hP : ∀ j, cs.pmesh.numNodes ≤ j → ctP j = 0)
    (hmean : (∀ k : Fin d, (k : ℕ) ∈ per) → ∑ j ∈ Finset.range cs.pmesh.numNodes, ctP j = 0) :
    ∃ ct, cs.sem.oneStepVjp cs.low mu dt timeOrder alpha none project 0 0 ctU ctP = .ok ct ∧
      (∀ (us us' : Fin timeOrder → Vel ℝ d) (older older' : List (ℕ → ℝ)) (p2 p1 p2' p1' : ℕ → ℝ) (f f' : Vel ℝ d)
        (ub ub' : Option (Vel ℝ d)) (st st' : StokesSEM.Step ℝ d), (∀ j, cs.vmesh.numNodes ≤ j → f j = 0) →
        (∀ j, cs.vmesh.numNodes ≤ j → f' j = 0) → LiftField cs.vmesh ub → LiftField cs.vmesh ub' →
        cs.sem.oneStep cs.low (List.ofFn us) (older ++ [p2, p1]) f mu dt timeOrder alpha ub none project 0 0 = .ok st →
        cs.sem.oneStep cs.low (List.ofFn us') (older' ++ [p2', p1']) f' mu dt timeOrder alpha ub' none project 0 0 = .ok st' →
        cs.sem.vDot ctU (st'.u - st.u) + nodeDot cs.sem.numP ctP (st'.p - st.p) =
          cs.sem.vDot ct.f (f' - f) + ∑ i, cs.sem.vDot (ct.us i) (us' i - us i) + nodeDot cs.sem.numP ct.p1 (p1' - p1) +
            nodeDot cs.sem.numP ct.p2 (p2' - p2) + cs.sem.vDot ct.ub (ub'.getD 0 - ub.getD 0)) ∧
      (∀ j, cs.vmesh.numNodes ≤ j → ct.f j = 0) ∧ (∀ i, ∀ j, cs.vmesh.numNodes ≤ j → ct.us i j = 0) ∧
      (∀ j, cs.pmesh.numNodes ≤ j → ct.p1 j = 0 ∧ ct.p2 j = 0) ∧
      ((∀ k : Fin d, (k : ℕ) ∈ per) → ∑ j ∈ Finset.range cs.pmesh.numNodes, ct.p1 j = 0 ∧
        ∑ j ∈ Finset.range cs.pmesh.numNodes, ct.p2 j = 0) := by
  have hb : CubeBCs d per [] := Or.inr rfl
  obtain ⟨vnode, pnode, l, h⟩ := cubeStokes_of hn hd hp hab hb hcs
  have S := h.stepSetup hn hp hab hb alpha project (fun hpr => Or.inr (hclosed hpr))
  have hnumP : cs.sem.numP = cs.pmesh.numNodes := by unfold StokesSEM.numP; rw [(h.pressureSetup hn).mesh_eq]
  have hct : PressureCt cs.sem ctP := by
    refine ⟨fun j hj => hP j (by omega), fun q hq => ?_⟩
    obtain ⟨r, h1, h2⟩ := noGradient_cube h hn hp hb hq
    unfold nodeDot
    rw [hnumP, Finset.sum_congr rfl fun j hj => by rw [h1 j (Finset.mem_range.mp hj)], ← Finset.sum_mul]
    by_cases hper : ∀ k : Fin d, (k : ℕ) ∈ per
    · rw [hmean hper, zero_mul]
    · push Not at hper
      rw [h2 rfl hper, mul_zero]
  obtain ⟨ct, h1, h2, h3, h4, h5, h6⟩ := C101_partial (timeOrder := timeOrder) S (fun j _ hj => by
    obtain ⟨g, m, hg, _⟩ := hj
    simp at hg) hmu hdt htime hU hct
  have hone : (∀ k : Fin d, (k : ℕ) ∈ per) → ∀ g, PressureCt cs.sem g → ∑ j ∈ Finset.range cs.pmesh.numNodes, g j = 0 := by
    intro hper g hg
    have := hg.2 (fun _ => 1) (h.closed hn hp hb (Or.inr hper))
    unfold nodeDot at this
    simp only [mul_one] at this
    rw [← hnumP]
    exact this
  exact ⟨ct, h1, h2, h3, h4, fun j hj => ⟨h5.1 j (by omega), h6.1 j (by omega)⟩,
    fun hper => ⟨hone hper _ h5, hone hper _ h6⟩⟩

/-- With a Dirichlet boundary condition every cube mesh has a velocity node whose returned velocity is zero for every force,
and for which the reverse pass divides by zero. -/
theorem C101_cube_dirichlet_violated (hn : 1 ≤ n) (hd : 1 ≤ d) (hp : 3 ≤ p) (hab : a < b)
    (hwall : ∃ k : Fin d, (k : ℕ) ∉ per) (hcs : cubeStokes n d p over a b per [("boundary", .dirichlet)] = .ok cs) (hdt : 0 < dt)
    (htime : 1 ≤ timeOrder) {tol atol : ℝ} (htol : 0 ≤ tol ∧ tol < 1) (hatol : 0 ≤ atol ∧ atol < 1) (project : Bool) (k : Fin d) :
    ∃ j0 < cs.vmesh.numNodes,
      (∀ (us : List (Vel ℝ d)) (ps : List (ℕ → ℝ)) (f : Vel ℝ d) (st : StokesSEM.Step ℝ d),
        (∀ j < cs.vmesh.numNodes, OnBoundary cs.vmesh a b per j → f j = 0) → (∀ j, cs.vmesh.numNodes ≤ j → f j = 0) →
        cs.sem.oneStep cs.low us ps f mu dt timeOrder 0 none none project tol atol = .ok st → st.u j0 k = 0) ∧
      cs.sem.oneStepVjp cs.low mu dt timeOrder 0 none project tol atol (vUnit j0 k) 0 = .error "nan" := by
  have hb : CubeBCs d per [("boundary", .dirichlet)] := Or.inl ⟨rfl, hwall⟩
  obtain ⟨vnode, pnode, l, h⟩ := cubeStokes_of hn hd hp hab hb hcs
  have S := h.stepSetup hn hp hab hb 0 project (fun _ => Or.inl (by simp))
  have hC := h.vcube.cells
  have he : 0 < n ^ d := by positivity
  have hi : 0 < cs.vmesh.nodesPerElem := by rw [hC.npe]; positivity
  have hlt := hC.lt 0 he 0 hi
  have hDn : DirichletNode cs.masks [("boundary", .dirichlet)] (vnode 0 0) := by
    refine (h.dirichlet_iff hb hlt).mpr ⟨by simp, ?_⟩
    obtain ⟨k1, hk1⟩ := hwall
    refine ⟨k1, hk1, Or.inl ?_⟩
    rw [hC.coords 0 he 0 hi k1]
    unfold gridPoint centre
    have hz : ∀ N, digit N d k1 0 = 0 := fun N => by simp [digit]
    rw [hz, hz, hC.first]
    push_cast
    ring
  obtain ⟨h1, h2⟩ := C101_dirichlet_violated (mu := mu) (timeOrder := timeOrder) S hdt htime hlt hDn k htol hatol
  refine ⟨vnode 0 0, hlt, fun us ps f st hf hf' hst => ?_, h2⟩
  have h3 := h1 us ps f st (fun j hj => ?_) hf' hst
  · have hnum : cs.sem.numV = cs.vmesh.numNodes := by
      obtain ⟨_, _, hvm, _⟩ := S.setup.fields
      unfold StokesSEM.numV
      rw [hvm]
    rwa [vDot_unit _ (by rw [hnum]; exact hlt)] at h3
  · by_cases hjn : j < cs.vmesh.numNodes
    · exact hf j hjn ((h.dirichlet_iff hb hjn).mp hj).2
    · exact hf' j (not_lt.mp hjn)

/-- On every cube mesh of order at least four whose boundary is closed by walls or periodic, there is a loss of the pressure
for which the reverse pass of an exactly solved step returns zero for the force, though the loss depends on the force. -/
theorem C101_cube_pressure_violated (hn : 1 ≤ n) (hd : 1 ≤ d) (hp : 4 ≤ p) (hab : a < b) (hb : CubeBCs d per bcs)
    (hcs : cubeStokes n d p over a b per bcs = .ok cs) (hclosed : bcs ≠ [] ∨ ∀ k : Fin d, (k : ℕ) ∈ per) (hmu : 0 ≤ mu)
    (hdt : 0 < dt) (htime : 1 ≤ timeOrder) :
    ∃ ctP ct, (∀ j, cs.sem.numP ≤ j → ctP j = 0) ∧
      cs.sem.oneStepVjp cs.low mu dt timeOrder 0 none true 0 0 0 ctP = .ok ct ∧ ct.f = 0 ∧ (∀ i, ct.us i = 0) ∧
      ∃ f st st', (∀ j, DirichletNode cs.masks bcs j → f j = 0) ∧ (∀ j, cs.vmesh.numNodes ≤ j → f j = 0) ∧
        cs.sem.oneStep cs.low (List.ofFn fun _ : Fin timeOrder => (0 : Vel ℝ d)) [0, 0] 0 mu dt timeOrder 0 none none true 0 0 =
          .ok st ∧
        cs.sem.oneStep cs.low (List.ofFn fun _ : Fin timeOrder => (0 : Vel ℝ d)) [0, 0] f mu dt timeOrder 0 none none true 0 0 =
          .ok st' ∧
        nodeDot cs.sem.numP ctP st'.p ≠ nodeDot cs.sem.numP ctP st.p := by
  have hp' : 3 ≤ p := by omega
  obtain ⟨vnode, pnode, l, h⟩ := cubeStokes_of hn hd hp' hab hb hcs
  have S := h.stepSetup hn hp' hab hb 0 true (fun _ => hclosed)
  refine C101_pressure_violated S hmu hdt htime (fun hng => ?_)
  obtain ⟨r, h1, _⟩ := noGradient_cube h hn hp' hb hng
  exact h.mass_varies hcs hn hp ⟨r, h1⟩

/-- A periodic square, a filter, the null space projected out: the derivative of the difference of two nodal pressures plus a
nodal velocity. -/
example : ∃ cs : CubeStokes 2, cubeStokes 4 2 4 0 0 1 [0, 1] [] = .ok cs ∧
    ∃ ct, cs.sem.oneStepVjp cs.low (1/10) (1/100) 2 (1/20) none true 0 0 (vUnit 0 0) (fun j => pUnit 0 j - pUnit 1 j) = .ok ct := by
  have hb : CubeBCs 2 [0, 1] [] := Or.inr rfl
  obtain ⟨cs, hcs⟩ := C92_create (over := 0) (n := 4) (d := 2) (p := 4) (a := 0) (b := 1) (by norm_num) (by norm_num)
    (by norm_num) (by norm_num) [0, 1] hb
  obtain ⟨vnode, pnode, l, h⟩ := cubeStokes_of (by norm_num) (by norm_num) (by norm_num) (by norm_num) hb hcs
  have hnum := h.pnum (by norm_num)
  norm_num at hnum
  have hv0 := h.vcube.cells.lt 0 (by norm_num) 0 (by rw [h.vcube.cells.npe]; norm_num)
  obtain ⟨ct, hct, _⟩ := C101_cube (project := true) (alpha := 1/20) (mu := 1/10) (dt := 1/100) (timeOrder := 2)
    (ctU := vUnit 0 0) (ctP := fun j => pUnit 0 j - pUnit 1 j) (by norm_num) (by norm_num) (by norm_num) (by norm_num) hcs
    (fun _ k => by fin_cases k <;> simp) (by norm_num) (by norm_num) (by norm_num)
    (fun j hj => by
      funext k
      have : j ≠ 0 := by omega
      simp [vUnit, this])
    (fun j hj => by
      rw [hnum] at hj
      have h0 : j ≠ 0 := by omega
      have h1 : j ≠ 1 := by omega
      simp [pUnit, h0, h1])
    (fun _ => by
      rw [hnum, Finset.sum_sub_distrib]
      simp [pUnit])
  exact ⟨cs, hcs, ct, hct⟩

/-- A channel with walls: the reverse pass for the velocity of a wall node fails with the tolerances of the training script. -/
example : ∃ cs : CubeStokes 2, cubeStokes 3 2 4 1 (-1) 1 [0] [("boundary", .dirichlet)] = .ok cs ∧
    ∃ j0 < cs.vmesh.numNodes, cs.sem.oneStepVjp cs.low (1/10) (1/100) 2 0 none true 0 (1/10000000) (vUnit j0 1) 0 = .error "nan" := by
  have hw : ∃ k : Fin 2, (k : ℕ) ∉ [0] := ⟨1, by simp⟩
  obtain ⟨cs, hcs⟩ := C92_create (over := 1) (n := 3) (d := 2) (p := 4) (a := -1) (b := 1) (by norm_num) (by norm_num)
    (by norm_num) (by norm_num) [0] (Or.inl ⟨rfl, hw⟩)
  obtain ⟨j0, h1, _, h2⟩ := C101_cube_dirichlet_violated (mu := 1/10) (dt := 1/100) (timeOrder := 2) (tol := 0)
    (atol := 1/10000000) (by norm_num) (by norm_num) (by norm_num) (by norm_num) hw hcs (by norm_num) (by norm_num)
    (by norm_num) (by norm_num) true 1
  exact ⟨cs, hcs, j0, h1, h2⟩

/-- The meshes of `C101_cube_pressure_violated`. -/
example : ∃ cs : CubeStokes 3, cubeStokes 2 3 4 0 0 1 [0, 1, 2] [] = .ok cs ∧
    ∃ ctP ct, cs.sem.oneStepVjp cs.low (1/10) (1/100) 3 0 none true 0 0 0 ctP = .ok ct ∧ ct.f = 0 := by
  have hb : CubeBCs 3 [0, 1, 2] [] := Or.inr rfl
  obtain ⟨cs, hcs⟩ := C92_create (over := 0) (n := 2) (d := 3) (p := 4) (a := 0) (b := 1) (by norm_num) (by norm_num)
    (by norm_num) (by norm_num) [0, 1, 2] hb
  obtain ⟨ctP, ct, _, h1, h2, _⟩ := C101_cube_pressure_violated (mu := 1/10) (dt := 1/100) (timeOrder := 3) (by norm_num)
    (by norm_num) (by norm_num) (by norm_num) hb hcs (Or.inr fun k => by fin_cases k <;> simp) (by norm_num) (by norm_num)
    (by norm_num)
  exact ⟨cs, hcs, ctP, ct, h1, h2⟩

end cube

end Verif.NS
