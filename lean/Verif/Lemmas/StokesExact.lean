import Verif.Props.C42_C43

/-!
# A step that starts from the exact right hand side returns the exact solution
-/

set_option linter.unusedSectionVars false

namespace Verif.NS

open Verif.Core Verif.Linalg Verif.Spec

variable {K : Type*} [Field K] [LinearOrder K] {d : ℕ}

/-- Conjugate gradients leave zero alone when the right hand side vanishes. -/
theorem cg_zero [IsStrictOrderedRing K] {V : Type*} [AddCommGroup V] [Module K V] (dot : V → V → K) (A M : V → V)
    (hA : A 0 = 0) (hdot : ∀ x, dot 0 x = 0) (tol atol : K) (maxiter : ℕ) : cg dot A M 0 0 tol atol maxiter = some (0, 0, 0) := by
  have h0 : cgInit dot A M (0 : V) 0 = ⟨0, 0, 0, M 0, 0⟩ := by
    unfold cgInit
    simp [hA, hdot]
  have hb : 0 ≤ cgBound dot (0 : V) tol atol := by
    unfold cgBound
    exact le_max_of_le_right (sq_nonneg _)
  unfold cg
  rw [h0]
  cases maxiter with
  | zero => rfl
  | succ m =>
    rw [cgLoop, if_neg]
    unfold cgCond
    simp only [not_and]
    intro h
    exact absurd h (not_lt.mpr hb)

variable {vmesh pmesh : Mesh K d} {quad overQuad : Quadrature1D K} {masks : List (String × (ℕ → Bool))}
  {bcs : List (String × BCType)} {sem : StokesSEM K d} {low : Nodes1D K} {us : List (Vel K d)} {ps : List (ℕ → K)}
  {f : Vel K d} {mu dt : K} {timeOrder : ℕ} {alpha : K} {ub : Option (Vel K d)}
  {precond : Option ((ℕ → K) → ℕ → K)} {project : Bool} {tol atol : K}

theorem vDot_add (x y z : Vel K d) : sem.vDot x (y + z) = sem.vDot x y + sem.vDot x z := by
  unfold StokesSEM.vDot
  simp [mul_add, Finset.sum_add_distrib]

theorem vDot_sub (x y z : Vel K d) : sem.vDot x (y - z) = sem.vDot x y - sem.vDot x z := by
  unfold StokesSEM.vDot
  simp [mul_sub, Finset.sum_sub_distrib]

/-- The residual of a converged velocity solve vanishes on the whole space. -/
theorem residual_zero [IsStrictOrderedRing K] {r x : Vel K d} (hx : x ∈ TSpace sem)
    (h : sem.vDot r (vExchange sem.vspace.mesh r) = 0) : sem.vDot x r = 0 := by
  apply vDot_exchange_zero hx
  unfold StokesSEM.vDot at h
  rw [Finset.sum_comm] at h
  have hnn : ∀ k, 0 ≤ ∑ j ∈ Finset.range sem.numV, r j k * vExchange sem.vspace.mesh r j k := by
    intro k
    have := exchange_psd sem.vspace.mesh (fun _ => 1) (fun p => r p k) (fun _ _ _ _ _ => rfl) (fun _ _ => zero_le_one)
    simp only [one_mul] at this
    refine this.trans_eq (Finset.sum_congr rfl fun j _ => mul_comm _ _)
  have hz := (Finset.sum_eq_zero_iff_of_nonneg (fun k _ => hnn k)).mp h
  intro j hj k
  have hk := hz k (Finset.mem_univ k)
  have e1 : ∑ j ∈ Finset.range sem.numV, r j k * vExchange sem.vspace.mesh r j k =
      ∑ j ∈ Finset.range sem.numV, vExchange sem.vspace.mesh r j k / sem.vspace.mesh.exchange (fun _ => (1 : K)) j *
        vExchange sem.vspace.mesh r j k := by
    have := sum_continuous sem.vspace.mesh (fun j => vExchange sem.vspace.mesh r j k) (fun j => r j k)
      (fun i hi j hj hs => exchange_same sem.vspace.mesh _ hi hj hs)
    refine Eq.trans (Finset.sum_congr rfl fun j _ => mul_comm _ _) this
  rw [e1] at hk
  have hnn' : ∀ j ∈ Finset.range sem.numV, 0 ≤ vExchange sem.vspace.mesh r j k /
      sem.vspace.mesh.exchange (fun _ => (1 : K)) j * vExchange sem.vspace.mesh r j k := by
    intro j hj
    have h2 := exchange_one_pos (K := K) sem.vspace.mesh j (Finset.mem_range.mp hj)
    rw [div_mul_eq_mul_div]
    exact div_nonneg (mul_self_nonneg _) h2.le
  have h3 := (Finset.sum_eq_zero_iff_of_nonneg hnn').mp hk j (Finset.mem_range.mpr hj)
  have h2 := exchange_one_pos (K := K) sem.vspace.mesh j hj
  rw [div_mul_eq_mul_div, div_eq_zero_iff] at h3
  exact mul_self_eq_zero.mp (h3.resolve_right h2.ne')

/-- A step whose velocity solve gives `v`, and whose filtered velocity has no divergence. -/
theorem step_filtered [IsStrictOrderedRing K] (H : StokesSetup vmesh pmesh quad overQuad masks bcs sem)
    (hf : f ∈ VSpace sem) (hmu : 0 ≤ mu) (hdt : 0 < dt) {β : Fin (timeOrder + 1) → K} (hβ : bdfkCoeffs timeOrder = some β)
    {older : List (ℕ → K)} {p2 p1 : ℕ → K} {v : Vel K d} (hv : v ∈ TSpace sem)
    (hmom : ∀ x ∈ TSpace sem, sem.vDot x (sem.H mu dt (β (Fin.last timeOrder)) (lift v ub)) =
      sem.vDot x (f + sem.Dt (fun j => 2 * p1 j - p2 j) - sem.B (fun p k => (1 / dt) *
        StokesSEM.history (List.ofFn (fun i : Fin timeOrder => β i.castSucc)) us p k)))
    {y : Vel K d} (hfil : sem.filter low alpha (lift v ub) = some y) (hdiv : sem.D y = 0)
    (hvol : nodeDot sem.numP (fun _ => 1) (sem.pressureB (fun _ => 1)) ≠ 0) :
    ∃ st, sem.oneStep low us (older ++ [p2, p1]) f mu dt timeOrder alpha ub precond project 0 0 = .ok st ∧
      st.u = y ∧ st.p = (fun j => 2 * p1 j - p2 j) := by
  have hval := H.valid
  obtain ⟨c, hc, _⟩ := C36_exact (K := K) 1 le_rfl
  have hbeta := (C37_leading timeOrder β hβ).2
  set pExt : ℕ → K := fun j => 2 * p1 j - p2 j with hpE
  obtain ⟨us0, res1, n1, hcg1, hus0, _, hr1, hres1⟩ := velocity_solve hval H.massOutside H.massPos' H.stiff mu dt
    (β (Fin.last timeOrder)) hmu hdt hbeta _ (stepRhs_mem (us := us) (mu := mu) (dt := dt) H.massOutside hf
      pExt β ub) 0 0
  have hlin : ∀ a b : Vel K d, sem.H mu dt (β (Fin.last timeOrder)) (a + b) =
      sem.H mu dt (β (Fin.last timeOrder)) a + sem.H mu dt (β (Fin.last timeOrder)) b := by
    intro a b
    have := (HLin sem hval.vwf mu dt (β (Fin.last timeOrder))).map_add a b
    rwa [HLin_apply, HLin_apply, HLin_apply] at this
  have hlin' : ∀ a b : Vel K d, sem.H mu dt (β (Fin.last timeOrder)) (a - b) =
      sem.H mu dt (β (Fin.last timeOrder)) a - sem.H mu dt (β (Fin.last timeOrder)) b := by
    intro a b
    have := (HLin sem hval.vwf mu dt (β (Fin.last timeOrder))).map_sub a b
    rwa [HLin_apply, HLin_apply, HLin_apply] at this
  have hyp := velocity_cgHyp hval H.massOutside H.massPos' H.stiff mu dt (β (Fin.last timeOrder)) hmu hdt hbeta
  -- the residual vanishes
  have hzero : sem.vDot (stepRhs sem us pExt f mu dt timeOrder β ub - sem.H mu dt (β (Fin.last timeOrder)) us0)
      (vExchange sem.vspace.mesh (stepRhs sem us pExt f mu dt timeOrder β ub - sem.H mu dt (β (Fin.last timeOrder)) us0)) = 0 := by
    rw [← hr1]
    apply le_antisymm
    · refine hres1.trans_eq (by simp)
    · rw [hr1]
      have hm : stepRhs sem us pExt f mu dt timeOrder β ub - sem.H mu dt (β (Fin.last timeOrder)) us0 ∈ VSpace sem :=
        (VSpace sem).sub_mem (stepRhs_mem H.massOutside hf _ _ _) (H_mem H.massOutside _ _ _ _)
      exact hyp.psdM ⟨_, hm⟩
  -- so does the one of `v`
  have hv0 : ∀ x ∈ TSpace sem, sem.vDot x (stepRhs sem us pExt f mu dt timeOrder β ub -
      sem.H mu dt (β (Fin.last timeOrder)) v) = 0 := by
    intro x hx
    have h1 := hmom x hx
    cases ub with
    | none =>
      simp only [lift] at h1
      simp only [stepRhs]
      rw [vDot_sub, ← h1, sub_self]
    | some w =>
      simp only [lift] at h1
      rw [hlin, vDot_add] at h1
      simp only [stepRhs]
      rw [vDot_sub, vDot_sub, ← h1]
      ring
  have heq : us0 = v := by
    have hsub : us0 - v ∈ TSpace sem := (TSpace sem).sub_mem hus0 hv
    have h1 := residual_zero hsub hzero
    have h2 := hv0 _ hsub
    rw [vDot_sub] at h1 h2
    have h3 : sem.vDot (us0 - v) (sem.H mu dt (β (Fin.last timeOrder)) (us0 - v)) = 0 := by
      rw [hlin', vDot_sub]; linarith
    rw [H_dot hval (VSpace_masked hsub.1)] at h3
    have hs := mul_nonneg hmu (H.stiff (vGather sem.vspace.mesh (us0 - v)))
    have hnn : ∀ j ∈ Finset.range sem.numV, ∀ k ∈ Finset.univ, 0 ≤ sem.massDiag j k * ((us0 - v) j k * (us0 - v) j k) :=
      fun j hj k _ => mul_nonneg (H.massPos' j (Finset.mem_range.mp hj) k).le (mul_self_nonneg _)
    have hm0 := Finset.sum_nonneg fun j hj => Finset.sum_nonneg (hnn j hj)
    have hq : 0 < β (Fin.last timeOrder) / dt := div_pos hbeta hdt
    have hmz : ∑ j ∈ Finset.range sem.numV, ∑ k, sem.massDiag j k * ((us0 - v) j k * (us0 - v) j k) = 0 := by
      have h4 := mul_nonneg hq.le hm0
      have : β (Fin.last timeOrder) / dt *
          ∑ j ∈ Finset.range sem.numV, ∑ k, sem.massDiag j k * ((us0 - v) j k * (us0 - v) j k) = 0 := by linarith
      exact (mul_eq_zero.mp this).resolve_left hq.ne'
    funext j k
    by_cases hj : j < sem.numV
    · have h5 := (Finset.sum_eq_zero_iff_of_nonneg fun j hj => Finset.sum_nonneg (hnn j hj)).mp hmz j (Finset.mem_range.mpr hj)
      have h6 := (Finset.sum_eq_zero_iff_of_nonneg (hnn j (Finset.mem_range.mpr hj))).mp h5 k (Finset.mem_univ k)
      have h7 := mul_self_eq_zero.mp ((mul_eq_zero.mp h6).resolve_left (H.massPos' j hj k).ne')
      exact sub_eq_zero.mp h7
    · rw [hus0.1 j (Or.inl (not_lt.mp hj)), hv.1 j (Or.inl (not_lt.mp hj))]
  subst heq
  have hcg2 : cg (nodeDot sem.numP) (sem.E dt (β (Fin.last timeOrder)))
      (sem.precondFn (StokesSEM.choosePrecond precond project)) (-sem.D y) 0 0 0 (10 * sem.numP) = some (0, 0, 0) := by
    rw [hdiv, neg_zero]
    apply cg_zero
    · rw [← ELin_apply sem hval.pwf, map_zero]
    · intro x; simp [nodeDot]
  have hnan : ¬ (¬ sem.finite ∨ dt = 0 ∨ β (Fin.last timeOrder) = 0 ∨
      ((StokesSEM.choosePrecond precond project).isProject = true ∧
        nodeDot sem.numP (fun _ => 1) (sem.pressureB (fun _ => 1)) = 0)) := by
    push Not
    exact ⟨H.finite, hdt.ne', hbeta.ne', fun _ => hvol⟩
  have hQ0 : sem.Q dt (β (Fin.last timeOrder)) (sem.Dt 0) = 0 := by
    have h1 : sem.Dt (0 : ℕ → K) = 0 := by
      have := (DtLin sem hval.pwf).map_zero
      exact this
    rw [h1]
    exact (QLin sem dt (β (Fin.last timeOrder))).map_zero
  refine ⟨⟨y + sem.Q dt (β (Fin.last timeOrder)) (sem.Dt 0), pExt + 0, y, res1, n1, 0, 0⟩, ?_, ?_, ?_⟩
  · unfold StokesSEM.oneStep
    simp only [hc, extrapolate_eq hc, hβ]
    rw [if_neg hnan]
    cases ub with
    | none =>
      have hcg1' := hcg1
      unfold stepRhs at hcg1'
      simp only [hpE] at hcg1'
      simp only [lift] at hfil hcg2
      simp only [hcg1', hfil, hcg2]
      rfl
    | some w =>
      have hcg1' := hcg1
      unfold stepRhs at hcg1'
      simp only [hpE] at hcg1'
      simp only [lift] at hfil hcg2
      simp only [hcg1', hfil, hcg2]
      rfl
  · rw [hQ0, add_zero]
  · rw [add_zero]

/-- A step from values that satisfy the equations returns the next ones when the filter leaves them alone. -/
theorem step_exact [IsStrictOrderedRing K] (H : StokesSetup vmesh pmesh quad overQuad masks bcs sem)
    (hf : f ∈ VSpace sem) (hmu : 0 ≤ mu) (hdt : 0 < dt) {β : Fin (timeOrder + 1) → K} (hβ : bdfkCoeffs timeOrder = some β)
    {older : List (ℕ → K)} {p2 p1 : ℕ → K} {v : Vel K d} (hv : v ∈ TSpace sem)
    (hmom : ∀ x ∈ TSpace sem, sem.vDot x (sem.H mu dt (β (Fin.last timeOrder)) (lift v ub)) =
      sem.vDot x (f + sem.Dt (fun j => 2 * p1 j - p2 j) - sem.B (fun p k => (1 / dt) *
        StokesSEM.history (List.ofFn (fun i : Fin timeOrder => β i.castSucc)) us p k)))
    (hfil : sem.filter low alpha (lift v ub) = some (lift v ub)) (hdiv : sem.D (lift v ub) = 0)
    (hvol : nodeDot sem.numP (fun _ => 1) (sem.pressureB (fun _ => 1)) ≠ 0) :
    ∃ st, sem.oneStep low us (older ++ [p2, p1]) f mu dt timeOrder alpha ub precond project 0 0 = .ok st ∧
      st.u = lift v ub ∧ st.p = (fun j => 2 * p1 j - p2 j) :=
  step_filtered H hf hmu hdt hβ hv hmom hfil hdiv hvol

end Verif.NS
