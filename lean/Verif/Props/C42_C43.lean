import Verif.Lemmas.StokesFilter

/-!
# C42, C43: one step of the Stokes solver

`StokesSetup` is the situation of C40. Arrays are functions of the node number; those given to the step are zero beyond
the last node (`VSpace`). `Aligned` meshes are those whose neighbouring elements have parallel local axes, as the meshes
of `unit_cube_mesh`.
-/

set_option linter.unusedSectionVars false

namespace Verif.NS

open Verif.Core Verif.Linalg Verif.Spec

variable {K : Type*} [Field K] [LinearOrder K] {d : ℕ}

/-- The right hand side of the velocity solve. -/
def stepRhs (sem : StokesSEM K d) (us : List (Vel K d)) (pExt : ℕ → K) (f : Vel K d) (mu dt : K) (timeOrder : ℕ)
    (b : Fin (timeOrder + 1) → K) : Option (Vel K d) → Vel K d
  | none => f + sem.Dt pExt - sem.B (fun p k => (1 / dt) * StokesSEM.history (List.ofFn (fun i : Fin timeOrder => b i.castSucc)) us p k)
  | some ub => f + sem.Dt pExt - sem.B (fun p k => (1 / dt) * StokesSEM.history (List.ofFn (fun i : Fin timeOrder => b i.castSucc)) us p k)
      - sem.H mu dt (b (Fin.last timeOrder)) ub

/-- Adding the boundary values. -/
def lift (u : Vel K d) : Option (Vel K d) → Vel K d
  | none => u
  | some ub => u + ub

variable {vmesh pmesh : Mesh K d} {quad overQuad : Quadrature1D K} {masks : List (String × (ℕ → Bool))}
  {bcs : List (String × BCType)} {sem : StokesSEM K d} {low : Nodes1D K} {us : List (Vel K d)} {ps : List (ℕ → K)}
  {f : Vel K d} {mu dt : K} {timeOrder : ℕ} {alpha : K} {uBoundary : Option (Vel K d)}
  {precond : Option ((ℕ → K) → ℕ → K)} {project : Bool} {tol atol : K} {st : StokesSEM.Step K d}

/-- What a successful step went through. -/
theorem oneStep_ok (h : sem.oneStep low us ps f mu dt timeOrder alpha uBoundary precond project tol atol = .ok st) :
    ∃ c pExt b us0 dp, (extkCoeffs 1 : Option (Fin 2 → K)) = some c ∧ StokesSEM.extrapolate c ps = some pExt ∧
      (bdfkCoeffs timeOrder : Option (Fin (timeOrder + 1) → K)) = some b ∧ dt ≠ 0 ∧
      cg sem.vDot (sem.H mu dt (b (Fin.last timeOrder))) (vExchange sem.vspace.mesh)
        (stepRhs sem us pExt f mu dt timeOrder b uBoundary) 0 tol atol (10 * (sem.numV * d)) =
          some (us0, st.uResidual, st.uIterations) ∧
      sem.filter low alpha (lift us0 uBoundary) = some st.uStar ∧
      cg (nodeDot sem.numP) (sem.E dt (b (Fin.last timeOrder))) (sem.precondFn (StokesSEM.choosePrecond precond project))
        (-sem.D st.uStar) 0 tol atol (10 * sem.numP) = some (dp, st.pResidual, st.pIterations) ∧
      st.u = st.uStar + sem.Q dt (b (Fin.last timeOrder)) (sem.Dt dp) ∧ st.p = pExt + dp := by
  unfold StokesSEM.oneStep at h
  simp only at h
  split at h
  · exact absurd h (by simp)
  rename_i c hc
  split at h
  · exact absurd h (by simp)
  rename_i pExt hp
  split at h
  · exact absurd h (by simp)
  rename_i b hb
  split at h
  · exact absurd h (by simp)
  rename_i hnan
  push Not at hnan
  cases uBoundary with
  | none =>
    simp only at h
    split at h
    · exact absurd h (by simp)
    rename_i us0 res1 n1 hcg1
    split at h
    · exact absurd h (by simp)
    rename_i uStar hf
    split at h
    · exact absurd h (by simp)
    rename_i dp res2 n2 hcg2
    simp only [Except.ok.injEq] at h
    subst h
    exact ⟨c, pExt, b, us0, dp, hc, hp, hb, hnan.2.1, hcg1, hf, hcg2, rfl, rfl⟩
  | some ub =>
    simp only at h
    split at h
    · exact absurd h (by simp)
    rename_i us0 res1 n1 hcg1
    split at h
    · exact absurd h (by simp)
    rename_i uStar hf
    split at h
    · exact absurd h (by simp)
    rename_i dp res2 n2 hcg2
    simp only [Except.ok.injEq] at h
    subst h
    exact ⟨c, pExt, b, us0, dp, hc, hp, hb, hnan.2.1, hcg1, hf, hcg2, rfl, rfl⟩

/-- The extrapolated pressure is `2 pₙ - pₙ₋₁`. -/
theorem extrapolate_eq [IsStrictOrderedRing K] {c : Fin 2 → K} (hc : (extkCoeffs 1 : Option (Fin 2 → K)) = some c)
    (l : List (ℕ → K)) (p2 p1 : ℕ → K) :
    StokesSEM.extrapolate c (l ++ [p2, p1]) = some (fun j => 2 * p1 j - p2 j) := by
  have h0 := C36_closed_form 1 c hc 0
  have h1 := C36_closed_form 1 c hc 1
  norm_num at h0 h1
  unfold StokesSEM.extrapolate
  simp only [List.reverse_append, List.reverse_cons, List.reverse_nil, List.nil_append, List.cons_append]
  congr 1
  funext j
  rw [h0, h1]
  ring

theorem D_step (dt beta : K) (u : Vel K d) (dp : ℕ → K) :
    sem.D (u + sem.Q dt beta (sem.Dt dp)) = sem.D u + sem.E dt beta dp := (DLin sem).map_add u _

/-- If the pressure solve is exact (its residual `-D u* - E dp` vanishes, `dp` being the change against the
extrapolated pressure), the returned velocity has zero divergence, whatever the preconditioner. -/
theorem C42_exact [IsStrictOrderedRing K] (h : sem.oneStep low us ps f mu dt timeOrder alpha uBoundary precond project tol atol = .ok st)
    (b : Fin (timeOrder + 1) → K) (hb : bdfkCoeffs timeOrder = some b) (l : List (ℕ → K)) (p2 p1 : ℕ → K)
    (hps : ps = l ++ [p2, p1])
    (hexact : sem.E dt (b (Fin.last timeOrder)) (fun j => st.p j - (2 * p1 j - p2 j)) = -sem.D st.uStar) (j : ℕ) :
    sem.D st.u j = 0 := by
  obtain ⟨c, pExt, b', us0, dp, hc, hp, hb', _, _, _, _, hu, hpst⟩ := oneStep_ok h
  rw [hb, Option.some.injEq] at hb'
  subst hb'
  rw [hps, extrapolate_eq hc, Option.some.injEq] at hp
  have hdp : (fun j => st.p j - (2 * p1 j - p2 j)) = dp := by
    funext j
    rw [hpst, ← hp]
    simp
  rw [hdp] at hexact
  rw [hu, D_step, hexact]
  simp

/-- The reported residual of the pressure solve is that of the divergence of the returned velocity; if the iteration
limit was not reached it meets the tolerances. -/
theorem C42_residual (hv : sem.Valid)
    (h : sem.oneStep low us ps f mu dt timeOrder alpha uBoundary precond project tol atol = .ok st) :
    st.pResidual = ∑ j ∈ Finset.range sem.numP, (-sem.D st.u j) *
        sem.precondFn (StokesSEM.choosePrecond precond project) (-sem.D st.u) j ∧
      st.pIterations ≤ 10 * sem.numP ∧
      (st.pIterations < 10 * sem.numP →
        st.pResidual ≤ max (tol ^ 2 * ∑ j ∈ Finset.range sem.numP, sem.D st.uStar j * sem.D st.uStar j) (atol ^ 2)) := by
  obtain ⟨c, pExt, b, us0, dp, _, _, _, _, _, _, hcg, hu, _⟩ := oneStep_ok h
  obtain ⟨h1, h2, h3⟩ := C44_exit (nodeDot sem.numP) (ELin sem hv.pwf dt (b (Fin.last timeOrder))) _ _ _ _ _ _ _ _ _ hcg
  have hr : -sem.D st.uStar - sem.E dt (b (Fin.last timeOrder)) dp = -sem.D st.u := by
    rw [hu, D_step]; abel
  rw [ELin_apply, hr] at h2
  refine ⟨h2, h1, fun hlt => (h3 hlt).trans_eq ?_⟩
  congr 2
  unfold nodeDot
  exact Finset.sum_congr rfl fun j _ => by simp

/-- Membership in `VSpace` in terms of the Dirichlet nodes. -/
theorem StokesSetup.mem_VSpace [IsStrictOrderedRing K] (H : StokesSetup vmesh pmesh quad overQuad masks bcs sem) (u : Vel K d) :
    u ∈ VSpace sem ↔ (∀ j, DirichletNode masks bcs j → u j = 0) ∧ ∀ j, vmesh.numNodes ≤ j → u j = 0 := by
  obtain ⟨_, _, hvm, _, hmask, _, _⟩ := H.fields
  constructor
  · intro h
    refine ⟨fun j hj => h j (Or.inr ((hmask j).1 hj)), fun j hj => h j (Or.inl ?_)⟩
    unfold StokesSEM.numV
    rw [hvm]
    exact hj
  · rintro ⟨h1, h2⟩ j (hj | hj)
    · unfold StokesSEM.numV at hj
      rw [hvm] at hj
      exact h2 j hj
    · refine h1 j ?_
      by_contra hD
      rw [(hmask j).2 hD] at hj
      exact one_ne_zero hj

theorem StokesSetup.massOutside (H : StokesSetup vmesh pmesh quad overQuad masks bcs sem) (j : ℕ)
    (hj : sem.numV ≤ j) (k : Fin d) : sem.massDiag j k = 0 := by
  obtain ⟨mask, _, hc⟩ := H.create
  obtain ⟨_, _, _, _, _, hm⟩ := StokesSEM.create_fields hc
  obtain ⟨_, _, hvm, _⟩ := H.fields
  rw [hm]
  refine vScatter_outside vmesh _ j ?_ k
  rw [← hvm]
  exact hj

theorem StokesSetup.massPos' [IsStrictOrderedRing K] (H : StokesSetup vmesh pmesh quad overQuad masks bcs sem) (j : ℕ)
    (hj : j < sem.numV) (k : Fin d) : 0 < sem.massDiag j k := by
  obtain ⟨_, _, hvm, _⟩ := H.fields
  refine H.massPos j ?_ k
  rw [← hvm]
  exact hj

theorem StokesSetup.stiff [IsStrictOrderedRing K] (H : StokesSetup vmesh pmesh quad overQuad masks bcs sem)
    (ul : ℕ → ℕ → Fin d → K) : 0 ≤ vStiffForm sem.vspace ul ul := by
  obtain ⟨_, _, hvm, _⟩ := H.fields
  exact vStiff_nonneg sem.vspace (fun q hq => (H.quadWeights q hq).le)
    (fun m hm q hq => (H.jacobians m (by rw [← hvm]; exact hm) q hq).le) ul

theorem H_mem (hout : ∀ j, sem.numV ≤ j → ∀ k, sem.massDiag j k = 0) (mu dt beta : K) (u : Vel K d) :
    sem.H mu dt beta u ∈ VSpace sem :=
  (VSpace sem).add_mem ((VSpace sem).smul_mem (beta / dt) (B_mem hout)) ((VSpace sem).smul_mem mu (A_mem u))

theorem stepRhs_mem (hout : ∀ j, sem.numV ≤ j → ∀ k, sem.massDiag j k = 0) (hf : f ∈ VSpace sem) (pExt : ℕ → K)
    (b : Fin (timeOrder + 1) → K) (ub : Option (Vel K d)) :
    stepRhs sem us pExt f mu dt timeOrder b ub ∈ VSpace sem := by
  have h1 := (VSpace sem).sub_mem ((VSpace sem).add_mem hf (Dt_mem pExt)) (B_mem hout (u := fun p k => (1 / dt) *
    StokesSEM.history (List.ofFn (fun i : Fin timeOrder => b i.castSucc)) us p k))
  cases ub with
  | none => exact h1
  | some ub => exact (VSpace sem).sub_mem h1 (H_mem hout _ _ _ _)

/-- The velocity part of a step, before the filter. -/
theorem us0_mem [IsStrictOrderedRing K] (H : StokesSetup vmesh pmesh quad overQuad masks bcs sem) {b : Vel K d}
    (hb : b ∈ VSpace sem) {beta : K} {us0 : Vel K d} {res : K} {n maxiter : ℕ}
    (h : cg sem.vDot (sem.H mu dt beta) (vExchange sem.vspace.mesh) b 0 tol atol maxiter = some (us0, res, n)) :
    us0 ∈ TSpace sem :=
  cg_range _ _ _ (VSpace sem) (TSpace sem) _ _ _ _ _ hb (TSpace sem).zero_mem (fun v _ => H_mem H.massOutside _ _ _ v)
    (fun _ hv => exchange_mem H.valid hv) _ _ _ h

/-- Without boundary values every successful step, converged or not, returns a velocity that is zero on the Dirichlet
nodes. The Dirichlet nodes fill whole faces of the elements. -/
theorem C42_dirichlet [IsStrictOrderedRing K] (H : StokesSetup vmesh pmesh quad overQuad masks bcs sem)
    (F : FilterSetup vmesh low) (hface : FaceClosed vmesh low (DirichletNode masks bcs))
    (hf : ∀ j, DirichletNode masks bcs j → f j = 0) (hf' : ∀ j, vmesh.numNodes ≤ j → f j = 0)
    (h : sem.oneStep low us ps f mu dt timeOrder alpha none precond project tol atol = .ok st) :
    (∀ j, DirichletNode masks bcs j → st.u j = 0) ∧ ∀ j, DirichletNode masks bcs j → st.uStar j = 0 := by
  obtain ⟨c, pExt, b, us0, dp, _, _, _, _, hcg, hfil, _, hu, _⟩ := oneStep_ok h
  have hmem := us0_mem H (stepRhs_mem H.massOutside ((H.mem_VSpace f).mpr ⟨hf, hf'⟩) _ _ _) hcg
  obtain ⟨_, _, hvm, _, hmask, _, _⟩ := H.fields
  have hface' : FaceClosed sem.vspace.mesh low (fun p => sem.mask p = 0) := by
    rw [hvm]
    intro m hm n hn j hj p q hp hq hs hz
    refine (hmask q).1 (hface m hm n hn j hj p q hp hq hs ?_)
    by_contra hD
    rw [(hmask p).2 hD] at hz
    exact one_ne_zero hz
  have h1 : st.uStar ∈ VSpace sem := filter_VSpace (by rw [hvm]; exact F) (by rw [hvm]; exact H.vrange) hface' alpha _ hmem.1 _ hfil
  have h2 : st.u ∈ VSpace sem := by
    rw [hu]
    exact (VSpace sem).add_mem h1 (Q_mem H.valid _ _ (Dt_mem dp)).1
  exact ⟨((H.mem_VSpace _).mp h2).1, ((H.mem_VSpace _).mp h1).1⟩

/-- With boundary values and without the filter (`alpha = 0`) the returned velocity has the given values on the
Dirichlet nodes. -/
theorem C42_boundary [IsStrictOrderedRing K] (H : StokesSetup vmesh pmesh quad overQuad masks bcs sem)
    (F : FilterSetup vmesh low) (hf : ∀ j, DirichletNode masks bcs j → f j = 0) (hf' : ∀ j, vmesh.numNodes ≤ j → f j = 0)
    (ub : Vel K d) (h : sem.oneStep low us ps f mu dt timeOrder 0 (some ub) precond project tol atol = .ok st) (j : ℕ)
    (hj : DirichletNode masks bcs j) : st.u j = ub j := by
  obtain ⟨c, pExt, b, us0, dp, _, _, _, _, hcg, hfil, _, hu, _⟩ := oneStep_ok h
  have hmem := us0_mem H (stepRhs_mem H.massOutside ((H.mem_VSpace f).mpr ⟨hf, hf'⟩) _ _ _) hcg
  obtain ⟨_, _, hvm, _⟩ := H.fields
  rw [filter_zero (by rw [hvm]; exact F), Option.some.injEq] at hfil
  have h2 := ((H.mem_VSpace _).mp (Q_mem H.valid dt (b (Fin.last timeOrder)) (Dt_mem dp)).1).1 j hj
  have h1 := ((H.mem_VSpace _).mp hmem.1).1 j hj
  rw [hu, ← hfil, lift, Pi.add_apply, Pi.add_apply, h1, h2, zero_add, add_zero]

/-- The situation in which a step is certain to succeed. -/
structure StepSetup (vmesh pmesh : Mesh K d) (quad overQuad : Quadrature1D K) (masks : List (String × (ℕ → Bool)))
    (bcs : List (String × BCType)) (sem : StokesSEM K d) (low : Nodes1D K) (alpha : K) (project : Bool) : Prop where
  setup : StokesSetup vmesh pmesh quad overQuad masks bcs sem
  filter : FilterSetup vmesh low
  /-- The filter is off, or Dirichlet nodes fill whole faces and the elements are aligned. -/
  faces : alpha = 0 ∨ FaceClosed vmesh low (DirichletNode masks bcs) ∧ Aligned vmesh low
  /-- The null space is projected out only if the constants are in it. -/
  pressure : project = true → PressureSetup pmesh quad sem ∧ sem.Closed

theorem StepSetup.filter_mem [IsStrictOrderedRing K] (S : StepSetup vmesh pmesh quad overQuad masks bcs sem low alpha project)
    (u : Vel K d) (hu : u ∈ TSpace sem) : ∃ w ∈ TSpace sem, sem.filter low alpha u = some w := by
  obtain ⟨_, _, hvm, _, hmask, _, _⟩ := S.setup.fields
  have F : FilterSetup sem.vspace.mesh low := by rw [hvm]; exact S.filter
  rcases S.faces with h0 | ⟨hface, hal⟩
  · exact ⟨u, hu, by rw [h0]; exact filter_zero F u⟩
  · obtain ⟨w, hw, _⟩ := filter_eq (sem := sem) F alpha u
    refine ⟨w, ?_, hw⟩
    obtain ⟨mask, _, hc⟩ := S.setup.create
    obtain ⟨_, _, _, _, hdiag, _⟩ := StokesSEM.create_fields hc
    have hface' : FaceClosed sem.vspace.mesh low (fun p => sem.mask p = 0) := by
      rw [hvm]
      intro m hm n hn j hj p q hp hq hs hz
      refine (hmask q).1 (hface m hm n hn j hj p q hp hq hs ?_)
      by_contra hD
      rw [(hmask p).2 hD] at hz
      exact one_ne_zero hz
    exact filter_TSpace F (by rw [hvm]; exact S.setup.vrange) hface' (by rw [hvm]; exact hal) (by rw [hvm]; exact hdiag)
      (by rw [hvm]; exact S.setup.covered) alpha u hu w hw

theorem StokesSetup.finite [IsStrictOrderedRing K] (H : StokesSetup vmesh pmesh quad overQuad masks bcs sem) : sem.finite := by
  intro p hp
  refine ⟨?_, fun k => (H.valid.massPos p hp k).ne'⟩
  obtain ⟨mask, _, hc⟩ := H.create
  obtain ⟨_, _, _, _, hdiag, _⟩ := StokesSEM.create_fields hc
  obtain ⟨_, _, hvm, _⟩ := H.fields
  have hp' : p < vmesh.numNodes := by rw [← hvm]; exact hp
  obtain ⟨m, hm, n, hn, he⟩ := H.covered p hp'
  rw [hdiag, Mesh.scatter_apply]
  apply ne_of_gt
  refine Finset.sum_pos' (fun m _ => Finset.sum_nonneg fun n _ => ?_) ⟨m, Finset.mem_range.mpr hm,
    Finset.sum_pos' (fun n _ => ?_) ⟨n, Finset.mem_range.mpr hn, ?_⟩⟩
  · split
    · rw [mul_one]; unfold maskOf; split <;> simp
    · exact le_rfl
  · split
    · rw [mul_one]; unfold maskOf; split <;> simp
    · exact le_rfl
  · rw [he, if_pos (writePos_nat hp'), maskOf_nat]; simp

/-- Both solves of a step succeed within the iteration limits and meet their tolerances; the returned velocity agrees on
copies, is zero on the Dirichlet nodes, and its divergence is at most the tolerance of the pressure solve. -/
theorem C42_step [IsStrictOrderedRing K] (S : StepSetup vmesh pmesh quad overQuad masks bcs sem low alpha project)
    (hf : ∀ j, DirichletNode masks bcs j → f j = 0) (hf' : ∀ j, vmesh.numNodes ≤ j → f j = 0) (hmu : 0 ≤ mu) (hdt : 0 < dt)
    (htime : 1 ≤ timeOrder) (hps : 2 ≤ ps.length) :
    ∃ st, sem.oneStep low us ps f mu dt timeOrder alpha none none project tol atol = .ok st ∧
      (∀ j, DirichletNode masks bcs j → st.u j = 0) ∧
      (∀ i < vmesh.numNodes, ∀ j < vmesh.numNodes, SameNode vmesh i j → st.u i = st.u j) ∧
      st.uIterations ≤ sem.numV * d ∧ st.pIterations ≤ sem.numP ∧
      ∑ j ∈ Finset.range sem.numP, sem.D st.u j * sem.D st.u j ≤
        max (tol ^ 2 * ∑ j ∈ Finset.range sem.numP, sem.D st.uStar j * sem.D st.uStar j) (atol ^ 2) := by
  have H := S.setup
  have hv := H.valid
  have hfm := (H.mem_VSpace f).mpr ⟨hf, hf'⟩
  obtain ⟨c, hc, _⟩ := C36_exact (K := K) 1 le_rfl
  obtain ⟨b, hb, _⟩ := C37_exact (K := K) timeOrder htime
  have hbeta := (C37_leading timeOrder b hb).2
  obtain ⟨l, p2, p1, rfl⟩ : ∃ l p2 p1, ps = l ++ [p2, p1] := by
    rcases hr : ps.reverse with _ | ⟨p1, _ | ⟨p2, l⟩⟩
    · rw [← List.length_reverse, hr] at hps; simp at hps
    · rw [← List.length_reverse, hr] at hps; simp at hps
    · refine ⟨l.reverse, p2, p1, ?_⟩
      rw [← List.reverse_reverse ps, hr]
      simp
  obtain ⟨us0, res1, n1, hcg1, hus0, hn1, _, _⟩ := velocity_solve hv H.massOutside H.massPos' H.stiff mu dt
    (b (Fin.last timeOrder)) hmu hdt hbeta _ (stepRhs_mem (us := us) (mu := mu) (dt := dt) H.massOutside hfm
      (fun j => 2 * p1 j - p2 j) b none) tol atol
  obtain ⟨uStar, huT, hfil⟩ := S.filter_mem us0 hus0
  have hneg : -sem.D uStar ∈ PSpace sem := (PSpace sem).neg_mem (D_mem huT)
  have hdb : 0 < dt / b (Fin.last timeOrder) := div_pos hdt hbeta
  have hpress : ∃ dp res2 n2, cg (nodeDot sem.numP) (sem.E dt (b (Fin.last timeOrder)))
      (sem.precondFn (StokesSEM.choosePrecond none project)) (-sem.D uStar) 0 tol atol (10 * sem.numP) = some (dp, res2, n2) ∧
      n2 ≤ sem.numP ∧
      res2 = nodeDot sem.numP (-sem.D uStar - sem.E dt (b (Fin.last timeOrder)) dp)
        (-sem.D uStar - sem.E dt (b (Fin.last timeOrder)) dp) ∧
      res2 ≤ max (tol ^ 2 * nodeDot sem.numP (-sem.D uStar) (-sem.D uStar)) (atol ^ 2) := by
    cases hproj : project with
    | false =>
      obtain ⟨x, r, n, h1, _, h2, h3, h4⟩ := pressure_solve hv dt (b (Fin.last timeOrder)) hdb (-sem.D uStar) hneg tol atol
      exact ⟨x, r, n, h1, h2, h3, h4⟩
    | true =>
      obtain ⟨HP, hcl⟩ := S.pressure hproj
      obtain ⟨x, r, n, h1, _, h2, h3, h4⟩ := pressure_solve_project hv HP hcl dt (b (Fin.last timeOrder)) hdb (-sem.D uStar)
        hneg tol atol
      exact ⟨x, r, n, h1, h2, h3, h4⟩
  obtain ⟨dp, res2, n2, hcg2, hn2, hr2, hres2⟩ := hpress
  have hnan : ¬ (¬ sem.finite ∨ dt = 0 ∨ b (Fin.last timeOrder) = 0 ∨
      ((StokesSEM.choosePrecond (K := K) none project).isProject = true ∧
        nodeDot sem.numP (fun _ => 1) (sem.pressureB (fun _ => 1)) = 0)) := by
    push Not
    refine ⟨H.finite, hdt.ne', hbeta.ne', ?_⟩
    cases hproj : project with
    | false => simp [StokesSEM.choosePrecond, StokesSEM.PPrecond.isProject]
    | true =>
      intro _
      obtain ⟨HP, _⟩ := S.pressure hproj
      rw [mean_eq HP]
      have : integrate sem.pspace (scalarFn sem.pspace (pmesh.gather (fun _ => (1 : K)))) = integrate sem.pspace (fun _ _ => 1) := by
        apply integrate_congr
        intro m hm q hq
        exact gather_one HP 1 m (by rw [← HP.mesh_eq]; exact hm) q hq
      rw [this]
      exact HP.volume
  have hu : sem.D (uStar + sem.Q dt (b (Fin.last timeOrder)) (sem.Dt dp)) =
      -(-sem.D uStar - sem.E dt (b (Fin.last timeOrder)) dp) := by rw [D_step]; abel
  refine ⟨⟨uStar + sem.Q dt (b (Fin.last timeOrder)) (sem.Dt dp), (fun j => 2 * p1 j - p2 j) + dp, uStar, res1, n1, res2, n2⟩,
    ?_, ?_, ?_, hn1, hn2, ?_⟩
  · unfold StokesSEM.oneStep
    simp only [hc, extrapolate_eq hc, hb]
    rw [if_neg hnan]
    have hcg1' := hcg1
    unfold stepRhs at hcg1'
    simp only [hcg1', hfil, hcg2]
  · exact ((H.mem_VSpace _).mp ((VSpace sem).add_mem huT.1 (Q_mem hv _ _ (Dt_mem dp)).1)).1
  · intro i hi j hj hs
    obtain ⟨_, _, hvm, _⟩ := H.fields
    have hT := (TSpace sem).add_mem huT (Q_mem hv dt (b (Fin.last timeOrder)) (Dt_mem (sem := sem) dp))
    funext k
    rw [← hvm] at hi hj hs
    exact hT.2 k i hi j hj hs
  · simp only
    have e1 : ∀ x : ℕ → K, ∑ j ∈ Finset.range sem.numP, (-x) j * (-x) j = nodeDot sem.numP x x := by
      intro x; unfold nodeDot; exact Finset.sum_congr rfl fun j _ => by simp
    rw [hu, e1, ← hr2]
    refine hres2.trans_eq ?_
    congr 2
    unfold nodeDot
    exact Finset.sum_congr rfl fun j _ => by simp

/-- With zero tolerances the returned velocity has zero divergence. -/
theorem C42_divergence_free [IsStrictOrderedRing K] (S : StepSetup vmesh pmesh quad overQuad masks bcs sem low alpha project)
    (hf : ∀ j, DirichletNode masks bcs j → f j = 0) (hf' : ∀ j, vmesh.numNodes ≤ j → f j = 0) (hmu : 0 ≤ mu) (hdt : 0 < dt)
    (htime : 1 ≤ timeOrder) (hps : 2 ≤ ps.length) :
    ∃ st, sem.oneStep low us ps f mu dt timeOrder alpha none none project 0 0 = .ok st ∧ (∀ j, sem.D st.u j = 0) ∧
      ∀ j, DirichletNode masks bcs j → st.u j = 0 := by
  obtain ⟨st, h, hD, _, _, _, hdiv⟩ := C42_step (us := us) (tol := 0) (atol := 0) S hf hf' hmu hdt htime hps
  refine ⟨st, h, fun j => ?_, hD⟩
  have h0 : ∑ j ∈ Finset.range sem.numP, sem.D st.u j * sem.D st.u j ≤ 0 := hdiv.trans_eq (by simp)
  have h1 := (Finset.sum_eq_zero_iff_of_nonneg (fun j _ => mul_self_nonneg (sem.D st.u j))).mp
    (le_antisymm h0 (Finset.sum_nonneg fun j _ => mul_self_nonneg (sem.D st.u j)))
  by_cases hj : j < sem.numP
  · exact mul_self_eq_zero.mp (h1 j (Finset.mem_range.mpr hj))
  · exact D_outside sem _ j (not_lt.mp hj)

/-- Every time order of at least two works with exactly that many previous velocities and pressures. Missing: order one,
see `C43_violated`. -/
theorem C43_partial [IsStrictOrderedRing K] (S : StepSetup vmesh pmesh quad overQuad masks bcs sem low alpha project)
    (hf : ∀ j, DirichletNode masks bcs j → f j = 0) (hf' : ∀ j, vmesh.numNodes ≤ j → f j = 0) (hmu : 0 ≤ mu) (hdt : 0 < dt)
    (htime : 2 ≤ timeOrder) (hps : ps.length = timeOrder) :
    ∃ st, sem.oneStep low us ps f mu dt timeOrder alpha none none project tol atol = .ok st := by
  obtain ⟨st, h, _⟩ := C42_step (us := us) (ps := ps) (timeOrder := timeOrder) (tol := tol) (atol := atol) S hf hf' hmu hdt (by omega) (by omega)
  exact ⟨st, h⟩

/-- The history enters with one coefficient per velocity, oldest first. -/
theorem C43_history {n : ℕ} (beta : Fin n → K) (U : Fin n → Vel K d) (p : ℕ) (k : Fin d) :
    StokesSEM.history (List.ofFn beta) (List.ofFn U) p k = ∑ i, beta i * U i p k := by
  unfold StokesSEM.history
  have : (List.ofFn beta).zip (List.ofFn U) = List.ofFn (fun i => (beta i, U i)) := by
    apply List.ext_getElem
    · simp
    · intro i h1 h2; simp
  rw [this, List.map_ofFn, List.sum_ofFn]
  rfl

/-- With time order one and one previous pressure every call fails: the linear extrapolation needs two pressures. -/
theorem C43_violated [IsStrictOrderedRing K] (sem : StokesSEM K d) (low : Nodes1D K) (us : List (Vel K d)) (p : ℕ → K)
    (f : Vel K d) (mu dt alpha : K) (uBoundary : Option (Vel K d)) (precond : Option ((ℕ → K) → ℕ → K)) (project : Bool)
    (tol atol : K) : sem.oneStep low us [p] f mu dt 1 alpha uBoundary precond project tol atol = .error "IndexError" := by
  obtain ⟨c, hc, _⟩ := C36_exact (K := K) 1 le_rfl
  unfold StokesSEM.oneStep
  simp only [hc, StokesSEM.extrapolate, List.reverse_singleton]

/-! ### Concrete cases: the element of C40, with the filter; first open on one side, then enclosed -/

/-- Two Gauss-Lobatto points. -/
def exLow : Nodes1D ℚ := ⟨.gaussLobattoLegendre, 2, ![-1, 1], ![-1, 1]⟩

theorem exLow_shared (r : ℕ) (hr : r < 3) : SharedPoint exVMesh.grid exLow r ↔ (r = 0 ∨ r = 2) := by
  constructor
  · rintro ⟨h, c, hc⟩
    interval_cases r
    · exact Or.inl rfl
    · exact absurd hc ((by decide +kernel : ∀ c : Fin 2, ![(-1 : ℚ), 1] c ≠ ![(-1 : ℚ), 0, 1] 1) c)
    · exact Or.inr rfl
  · rintro (rfl | rfl)
    · exact ⟨hr, (0 : Fin 2), rfl⟩
    · exact ⟨hr, (1 : Fin 2), rfl⟩

theorem exLow_filter : FilterSetup exVMesh exLow := by
  refine ⟨by decide, by decide, by decide, ⟨2, by norm_num, by decide +kernel⟩, ?_, ⟨2, by norm_num, by decide +kernel⟩, ?_⟩
  · change Function.Injective ![(-1 : ℚ), 0, 1]
    intro a b; fin_cases a <;> fin_cases b <;> norm_num
  · change Function.Injective ![(-1 : ℚ), 1]
    intro a b; fin_cases a <;> fin_cases b <;> norm_num

theorem exDigits (n : ℕ) : digit exVMesh.grid.numPoints 2 0 n = n / 3 % 3 ∧ digit exVMesh.grid.numPoints 2 1 n = n % 3 := by
  change n / 3 ^ (2 - 1 - 0) % 3 = _ ∧ n / 3 ^ (2 - 1 - 1) % 3 = _
  simp

theorem exSameFace {n j : ℕ} (h : SameFace exVMesh exLow n j) :
    ((n / 3 % 3 = 0 ∨ n / 3 % 3 = 2) → j / 3 % 3 = n / 3 % 3) ∧ ((n % 3 = 0 ∨ n % 3 = 2) → j % 3 = n % 3) := by
  have h0 := h 0 (by omega)
  have h1 := h 1 (by omega)
  rw [(exDigits n).1, (exDigits j).1] at h0
  rw [(exDigits n).2, (exDigits j).2] at h1
  rw [exLow_shared _ (Nat.mod_lt _ (by omega))] at h0 h1
  exact ⟨h0, h1⟩

theorem exAligned_aux : ∀ n n' j j' : Fin 9, n.1 % 6 = n'.1 % 6 →
    ((n.1 / 3 % 3 = 0 ∨ n.1 / 3 % 3 = 2) → j.1 / 3 % 3 = n.1 / 3 % 3) → ((n.1 % 3 = 0 ∨ n.1 % 3 = 2) → j.1 % 3 = n.1 % 3) →
    ((n'.1 / 3 % 3 = 0 ∨ n'.1 / 3 % 3 = 2) → j'.1 / 3 % 3 = n'.1 / 3 % 3) →
    ((n'.1 % 3 = 0 ∨ n'.1 % 3 = 2) → j'.1 % 3 = n'.1 % 3) →
    (¬ (n.1 / 3 % 3 = 0 ∨ n.1 / 3 % 3 = 2) → j.1 / 3 % 3 = j'.1 / 3 % 3) →
    (¬ (n.1 % 3 = 0 ∨ n.1 % 3 = 2) → j.1 % 3 = j'.1 % 3) → j.1 % 6 = j'.1 % 6 := by decide +kernel

theorem exAligned : Aligned exVMesh exLow := by
  intro m _ n hn m' _ n' hn' p q hp hq hs
  have hn9 : n < 9 := hn
  have hn9' : n' < 9 := hn'
  have hp' : n = p := by exact_mod_cast (show (n : ℤ) = p from hp)
  have hq' : n' = q := by exact_mod_cast (show (n' : ℤ) = q from hq)
  subst hp' hq'
  have hmod : n % 6 = n' % 6 := by
    rcases hs with rfl | hs
    · rfl
    · exact_mod_cast (show ((n % 6 : ℕ) : ℤ) = ((n' % 6 : ℕ) : ℤ) from hs.1)
  constructor
  · intro k hk
    interval_cases k
    · rw [(exDigits n).1, (exDigits n').1, exLow_shared _ (Nat.mod_lt _ (by omega)), exLow_shared _ (Nat.mod_lt _ (by omega))]
      omega
    · rw [(exDigits n).2, (exDigits n').2]
      omega
  · intro j hj j' hj' hf hf' hrest
    have hj9 : j < 9 := hj
    have hj9' : j' < 9 := hj'
    have r0 := hrest 0 (by omega)
    have r1 := hrest 1 (by omega)
    rw [(exDigits n).1, (exDigits j).1, (exDigits j').1, exLow_shared _ (Nat.mod_lt _ (by omega))] at r0
    rw [(exDigits n).2, (exDigits j).2, (exDigits j').2, exLow_shared _ (Nat.mod_lt _ (by omega))] at r1
    have f := exSameFace hf
    have f' := exSameFace hf'
    refine ⟨j, j', rfl, rfl, hj9, hj9', ?_⟩
    have h6 : j % 6 = j' % 6 := exAligned_aux ⟨n, hn9⟩ ⟨n', hn9'⟩ ⟨j, hj9⟩ ⟨j', hj9'⟩ hmod f.1 f.2 f'.1 f'.2 r0 r1
    have hne : ((j % 6 : ℕ) : ℤ) ≠ -1 := by omega
    exact Or.inr ⟨by change ((j % 6 : ℕ) : ℤ) = ((j' % 6 : ℕ) : ℤ); rw [h6], hne⟩

/-- The first case: Dirichlet nodes on one side, no projection. -/
theorem exStep_open : ∃ sem, StepSetup exVMesh exPMesh exVQuad exVQuad exSMasks exSBCs sem exLow (1/20) false := by
  obtain ⟨sem, H⟩ := exStokes_setup
  refine ⟨sem, H, exLow_filter, Or.inr ⟨?_, exAligned⟩, by simp⟩
  intro m _ n hn j hj p q hp hq hs hD
  have hp' : n = p := by exact_mod_cast (show (n : ℤ) = p from hp)
  have hq' : j = q := by exact_mod_cast (show (j : ℤ) = q from hq)
  subst hp' hq'
  have h3 := exStokes_dirichlet hD
  have := (exSameFace hs).2 (Or.inl h3)
  exact ⟨"wall", fun j => j % 3 == 0, by simp [exSBCs], by simp [exSMasks], by simp; omega⟩

/-- All nodes but the middle one are in the group `"wall"`. -/
def exSMasks2 : List (String × (ℕ → Bool)) := [("wall", fun j => j != 4)]

theorem exStokes_dirichlet2 {j : ℕ} : DirichletNode exSMasks2 exSBCs j ↔ j ≠ 4 := by
  constructor
  · rintro ⟨g, w, hg, hl, hw⟩
    have hgw : g = "wall" := by simpa [exSBCs] using hg
    subst hgw
    have : w = fun j => j != 4 := by simpa [exSMasks2] using hl.symm
    subst this
    simpa using hw
  · intro h
    exact ⟨"wall", fun j => j != 4, by simp [exSBCs], by simp [exSMasks2], by simpa using h⟩

theorem exStep_check : (match interiorMask (K := ℚ) exSMasks2 exSBCs with
    | none => false
    | some mask => match StokesSEM.create exVMesh exPMesh exVQuad exVQuad mask with
      | none => false
      | some sem => decide ((∀ q < sem.vspace.numQuad, 0 < sem.vspace.weights.getD q 0) ∧
          (∀ m < exVMesh.numElements, ∀ q < sem.vspace.numQuad, 0 < sem.vspace.jacdets m q) ∧
          integrate sem.pspace (fun _ _ => 1) ≠ 0 ∧
          ∀ j < sem.numV, ∀ k, vExchange sem.vspace.mesh (sem.Dt (fun _ => 1)) j k = 0)) = true := by decide +kernel

/-- The second case: enclosed, with the default projection. -/
theorem exStep_enclosed : ∃ sem, StepSetup exVMesh exPMesh exVQuad exVQuad exSMasks2 exSBCs sem exLow (1/20) true := by
  have h := exStep_check
  revert h
  cases hmask : interiorMask (K := ℚ) exSMasks2 exSBCs with
  | none => intro h; exact absurd h (by simp)
  | some mask =>
    cases hc : StokesSEM.create exVMesh exPMesh exVQuad exVQuad mask with
    | none => simp only [hc]; intro h; exact absurd h (by simp)
    | some sem =>
      simp only [hc]
      intro h
      have h' := of_decide_eq_true h
      have hvn : Function.Injective exVMesh.grid.value := by
        change Function.Injective ![(-1 : ℚ), 0, 1]
        intro a b; fin_cases a <;> fin_cases b <;> norm_num
      have hpn : Function.Injective exPMesh.grid.value := by
        change Function.Injective ![(-1/2 : ℚ), 1/2]
        intro a b; fin_cases a <;> fin_cases b <;> norm_num
      have H : StokesSetup exVMesh exPMesh exVQuad exVQuad exSMasks2 exSBCs sem := by
        refine ⟨⟨mask, hmask, hc⟩, exStokes_inRange _ _, exStokes_inRange _ _, by decide, by decide, by decide,
          ⟨2, by norm_num, by decide +kernel⟩, ⟨-1, by norm_num, by decide +kernel⟩, hvn, hpn, rfl,
          ⟨_, exStokes_samples _ _ (by decide), exStokes_samples _ _ (by decide)⟩, h'.1, h'.2.1, ?_, ?_⟩
        · intro j hj
          exact ⟨0, by decide, j, hj, rfl⟩
        · intro i hi j hj hs hD
          have hi9 : i < 9 := hi
          have hj9 : j < 9 := hj
          rw [exStokes_dirichlet2] at hD ⊢
          rcases hs with rfl | hs
          · exact hD
          · have h1 : i % 6 = j % 6 := by exact_mod_cast (show ((i % 6 : ℕ) : ℤ) = ((j % 6 : ℕ) : ℤ) from hs.1)
            omega
      refine ⟨sem, H, exLow_filter, Or.inr ⟨?_, exAligned⟩, fun _ => ⟨⟨(StokesSEM.create_fields hc).2.1, by decide,
        ⟨-1, by norm_num, by decide +kernel⟩, hpn, ?_, ?_, h'.2.2.1⟩, h'.2.2.2⟩⟩
      · intro m _ n hn j hj p q hp hq hs hD
        have hn9 : n < 9 := hn
        have hj9 : j < 9 := hj
        have hp' : n = p := by exact_mod_cast (show (n : ℤ) = p from hp)
        have hq' : j = q := by exact_mod_cast (show (j : ℤ) = q from hq)
        subst hp' hq'
        rw [exStokes_dirichlet2] at hD ⊢
        have := exSameFace hs
        omega
      · intro m hm n hn
        have : n < 2 ^ 2 := hn
        simp only [exPMesh, exStokesMesh, exPGrid]
        omega
      · intro i _ j _ hij
        exact_mod_cast (show (i : ℤ) = (j : ℤ) from hij)

/-- A force on the middle node. -/
def exForce : Vel ℚ 2 := fun j k => if j = 4 then (if k = 0 then 1 else 2) else 0

/-- The theorems apply to two steps of the scheme of order two. -/
example : ∃ (sem : StokesSEM ℚ 2) (st : StokesSEM.Step ℚ 2), sem.oneStep exLow [exForce, 0] [fun _ => 0, fun j => j] exForce (1/10) (1/100) 2 (1/20) none none true 0 0 =
    .ok st ∧ (∀ j, sem.D st.u j = 0) ∧ ∀ j, DirichletNode exSMasks2 exSBCs j → st.u j = 0 := by
  obtain ⟨sem, S⟩ := exStep_enclosed
  obtain ⟨st, h⟩ := C42_divergence_free (us := [exForce, 0]) (ps := [fun _ => 0, fun j => j]) (f := exForce) (mu := 1/10) (dt := 1/100)
    (timeOrder := 2) S (fun j hj => by rw [exStokes_dirichlet2] at hj; funext k; simp [exForce, hj])
    (fun j hj => by have hj' : 9 ≤ j := hj; funext k; simp only [exForce]; rw [if_neg (by omega)]; rfl) (by norm_num) (by norm_num) (by norm_num) (by simp)
  exact ⟨sem, st, h⟩

example : ∃ (sem : StokesSEM ℚ 2), ∃ st, sem.oneStep exLow [exForce, 0] [fun _ => 0, fun j => j] exForce (1/10) (1/100) 2 (1/20) none none false (1/1000) 0 =
    .ok st := by
  obtain ⟨sem, S⟩ := exStep_open
  exact ⟨sem, C43_partial (us := [exForce, 0]) (ps := [fun _ => 0, fun j => j]) (f := exForce) (mu := 1/10) (dt := 1/100)
    (timeOrder := 2) S (fun j hj => by have := exStokes_dirichlet hj; funext k; simp only [exForce]; rw [if_neg (by omega)]; rfl)
    (fun j hj => by have hj' : 9 ≤ j := hj; funext k; simp only [exForce]; rw [if_neg (by omega)]; rfl) (by norm_num) (by norm_num) (by norm_num) rfl⟩

end Verif.NS
