import Verif.Model.RolloutGrad
import Verif.Lemmas.StokesGrad
import Verif.Lemmas.NSConv
import Mathlib.Analysis.Calculus.Deriv.Pow
import Mathlib.Analysis.Calculus.FDeriv.Pi

/-!
# The derivative of the advection term
-/

set_option linter.unusedSectionVars false

namespace Verif.NS

open Verif.Core Verif.Linalg Verif.Spec

section algebra

variable {K : Type*} [Field K] [LinearOrder K] {d : ℕ} {sem : StokesSEM K d}

/-- The advection form with different transported and transporting velocities. -/
def conv3 (fs : FESpace K d) (al bl vl : ℕ → ℕ → Fin d → K) : K :=
  integrate fs (fun m q => ∑ i, ∑ j, vectorFn fs al m q i * vectorGrad fs bl m q i j * vectorFn fs vl m q j)

theorem vectorFn_add' {fs : FESpace K d} (hwf : fs.WF) (a b : ℕ → ℕ → Fin d → K) (m q : ℕ) (i : Fin d) :
    vectorFn fs (a + b) m q i = vectorFn fs a m q i + vectorFn fs b m q i := by
  unfold vectorFn
  exact hwf.add _ _ q

theorem vectorFn_smul' {fs : FESpace K d} (hwf : fs.WF) (r : K) (a : ℕ → ℕ → Fin d → K) (m q : ℕ) (i : Fin d) :
    vectorFn fs (r • a) m q i = r * vectorFn fs a m q i := by
  unfold vectorFn
  exact hwf.smul _ _ q

theorem vectorGrad_add' (fs : FESpace K d) (a b : ℕ → ℕ → Fin d → K) (m q : ℕ) (i j : Fin d) :
    vectorGrad fs (a + b) m q i j = vectorGrad fs a m q i j + vectorGrad fs b m q i j := by
  rw [vectorGrad_scalar, vectorGrad_scalar, vectorGrad_scalar]
  exact scalarGrad_add fs _ _ m q i

theorem vectorGrad_smul' (fs : FESpace K d) (r : K) (a : ℕ → ℕ → Fin d → K) (m q : ℕ) (i j : Fin d) :
    vectorGrad fs (r • a) m q i j = r * vectorGrad fs a m q i j := by
  rw [vectorGrad_scalar, vectorGrad_scalar]
  exact scalarGrad_smul fs r _ m q i

theorem conv3_add_left {fs : FESpace K d} (hwf : fs.WF) (a a' b v : ℕ → ℕ → Fin d → K) :
    conv3 fs (a + a') b v = conv3 fs a b v + conv3 fs a' b v := by
  unfold conv3
  rw [← integrate_add]
  congr 1
  funext m q
  simp only [← Finset.sum_add_distrib]
  refine Finset.sum_congr rfl fun i _ => Finset.sum_congr rfl fun j _ => ?_
  rw [vectorFn_add' hwf]; ring

theorem conv3_add_right {fs : FESpace K d} (a b b' v : ℕ → ℕ → Fin d → K) :
    conv3 fs a (b + b') v = conv3 fs a b v + conv3 fs a b' v := by
  unfold conv3
  rw [← integrate_add]
  congr 1
  funext m q
  simp only [← Finset.sum_add_distrib]
  refine Finset.sum_congr rfl fun i _ => Finset.sum_congr rfl fun j _ => ?_
  rw [vectorGrad_add']; ring

theorem conv3_smul_left {fs : FESpace K d} (hwf : fs.WF) (r : K) (a b v : ℕ → ℕ → Fin d → K) :
    conv3 fs (r • a) b v = r * conv3 fs a b v := by
  unfold conv3
  rw [← integrate_mul]
  congr 1
  funext m q
  simp only [Finset.mul_sum]
  refine Finset.sum_congr rfl fun i _ => Finset.sum_congr rfl fun j _ => ?_
  rw [vectorFn_smul' hwf]; ring

theorem conv3_smul_right {fs : FESpace K d} (r : K) (a b v : ℕ → ℕ → Fin d → K) :
    conv3 fs a (r • b) v = r * conv3 fs a b v := by
  unfold conv3
  rw [← integrate_mul]
  congr 1
  funext m q
  simp only [Finset.mul_sum]
  refine Finset.sum_congr rfl fun i _ => Finset.sum_congr rfl fun j _ => ?_
  rw [vectorGrad_smul']; ring

theorem vConvJvp_eq (fs : FESpace K d) (u h v : ℕ → ℕ → Fin d → K) :
    vConvJvp fs u h v = conv3 fs h u v + conv3 fs u h v := by
  unfold vConvJvp conv3
  rw [← integrate_add]
  congr 1
  funext m q
  simp only [← Finset.sum_add_distrib]
  refine Finset.sum_congr rfl fun i _ => Finset.sum_congr rfl fun j _ => ?_
  ring

/-- The operator with different velocities. -/
def Conv3 (sem : StokesSEM K d) (a b : Vel K d) : Vel K d :=
  sem.masked (vScatter sem.vspace.mesh (vectorCovector (conv3 sem.overint (vGather sem.vspace.mesh a) (vGather sem.vspace.mesh b))))

theorem C_eq_Conv3 (u : Vel K d) : sem.C u = Conv3 sem u u := rfl

theorem masked_scatter_add (F G H : (ℕ → ℕ → Fin d → K) → K) (h : ∀ v, F v = G v + H v) :
    sem.masked (vScatter sem.vspace.mesh (vectorCovector F)) = sem.masked (vScatter sem.vspace.mesh (vectorCovector G)) +
      sem.masked (vScatter sem.vspace.mesh (vectorCovector H)) := by
  have : vectorCovector F = vectorCovector G + vectorCovector H := by
    funext m n k
    exact h _
  rw [this, vScatter_add]
  funext p k
  simp [StokesSEM.masked, mul_add]

theorem masked_scatter_smul (r : K) (F G : (ℕ → ℕ → Fin d → K) → K) (h : ∀ v, F v = r * G v) :
    sem.masked (vScatter sem.vspace.mesh (vectorCovector F)) = r • sem.masked (vScatter sem.vspace.mesh (vectorCovector G)) := by
  have : vectorCovector F = r • vectorCovector G := by
    funext m n k
    exact h _
  rw [this, vScatter_smul]
  funext p k
  simp [StokesSEM.masked, mul_left_comm]

theorem Conv3_add_left (hwf : sem.overint.WF) (a a' b : Vel K d) : Conv3 sem (a + a') b = Conv3 sem a b + Conv3 sem a' b :=
  masked_scatter_add _ _ _ fun v => by rw [vGather_add, conv3_add_left hwf]

theorem Conv3_add_right (a b b' : Vel K d) : Conv3 sem a (b + b') = Conv3 sem a b + Conv3 sem a b' :=
  masked_scatter_add _ _ _ fun v => by rw [vGather_add, conv3_add_right]

theorem Conv3_smul_left (hwf : sem.overint.WF) (r : K) (a b : Vel K d) : Conv3 sem (r • a) b = r • Conv3 sem a b :=
  masked_scatter_smul _ _ _ fun v => by rw [vGather_smul, conv3_smul_left hwf]

theorem Conv3_smul_right (r : K) (a b : Vel K d) : Conv3 sem a (r • b) = r • Conv3 sem a b :=
  masked_scatter_smul _ _ _ fun v => by rw [vGather_smul, conv3_smul_right]

theorem Cjvp_eq (u h : Vel K d) : sem.Cjvp u h = Conv3 sem h u + Conv3 sem u h :=
  masked_scatter_add _ _ _ fun v => vConvJvp_eq _ _ _ _

/-- The derivative of the advection term is a linear map. -/
def CjvpLin (hwf : sem.overint.WF) (u : Vel K d) : Vel K d →ₗ[K] Vel K d where
  toFun := sem.Cjvp u
  map_add' a b := by
    simp only [Cjvp_eq, Conv3_add_left hwf, Conv3_add_right]
    abel
  map_smul' r a := by
    simp only [Cjvp_eq, Conv3_smul_left hwf, Conv3_smul_right, smul_add, RingHom.id_apply]

theorem C_expand (hwf : sem.overint.WF) (u h : Vel K d) : sem.C (u + h) = sem.C u + sem.Cjvp u h + sem.C h := by
  simp only [C_eq_Conv3, Cjvp_eq, Conv3_add_left hwf, Conv3_add_right]
  abel

theorem C_smul (hwf : sem.overint.WF) (r : K) (u : Vel K d) : sem.C (r • u) = (r * r) • sem.C u := by
  simp only [C_eq_Conv3, Conv3_smul_left hwf, Conv3_smul_right, smul_smul]

end algebra

section analysis

variable {d : ℕ} {sem : StokesSEM ℝ d}
  {vmesh pmesh : Mesh ℝ d} {quad overQuad : Quadrature1D ℝ} {masks : List (String × (ℕ → Bool))}
  {bcs : List (String × BCType)}

variable {E : Type*} [NormedAddCommGroup E] [NormedSpace ℝ E] {θ₀ : E}

theorem vDot_diff (a : Vel ℝ d) {u : E → Vel ℝ d} (hu : ∀ j l, DifferentiableAt ℝ (fun θ => u θ j l) θ₀) :
    DifferentiableAt ℝ (fun θ => sem.vDot a (u θ)) θ₀ := by
  unfold StokesSEM.vDot
  exact DifferentiableAt.fun_sum fun j _ => DifferentiableAt.fun_sum fun l _ => (hu j l).const_mul _

/-- A velocity from its values at the nodes. -/
def ofNodes (sem : StokesSEM ℝ d) (x : Fin sem.numV × Fin d → ℝ) : Vel ℝ d :=
  fun j l => if h : j < sem.numV then x (⟨j, h⟩, l) else 0

theorem ofNodes_smul (t : ℝ) (x : Fin sem.numV × Fin d → ℝ) : ofNodes sem (t • x) = t • ofNodes sem x := by
  funext j l
  simp only [ofNodes, Pi.smul_apply, smul_eq_mul]
  split <;> simp

/-- The advection term vanishes to second order at zero. -/
theorem C_flat (H : StokesSetup vmesh pmesh quad overQuad masks bcs sem) (hwf : sem.overint.WF) (y : Vel ℝ d) :
    HasFDerivAt (fun x => sem.vDot y (sem.C (ofNodes sem x))) (0 : (Fin sem.numV × Fin d → ℝ) →L[ℝ] ℝ) 0 := by
  have hc : ∀ j l, ContDiff ℝ 1 fun x : Fin sem.numV × Fin d → ℝ => ofNodes sem x j l := by
    intro j l
    unfold ofNodes
    split
    · exact contDiff_apply ℝ ℝ _
    · exact contDiff_const
  have hd : DifferentiableAt ℝ (fun x => sem.vDot y (sem.C (ofNodes sem x))) 0 :=
    vDot_diff y fun j l => (C_contDiff H hc j l).differentiable (by norm_num) 0
  have hz : fderiv ℝ (fun x => sem.vDot y (sem.C (ofNodes sem x))) 0 = 0 := by
    ext1 x
    have h1 : HasDerivAt (fun t : ℝ => sem.vDot y (sem.C (ofNodes sem (t • x))))
        (fderiv ℝ (fun x => sem.vDot y (sem.C (ofNodes sem x))) 0 x) 0 := by
      have hline : HasDerivAt (fun t : ℝ => t • x) x 0 := by
        simpa using (hasDerivAt_id (0 : ℝ)).smul_const x
      have hd' := hd.hasFDerivAt
      have h0 : (0 : Fin sem.numV × Fin d → ℝ) = (0 : ℝ) • x := by simp
      rw [h0] at hd'
      have := hd'.comp_hasDerivAt (0 : ℝ) hline
      rw [← h0] at this
      exact this
    have h2 : HasDerivAt (fun t : ℝ => sem.vDot y (sem.C (ofNodes sem (t • x)))) 0 0 := by
      have e : (fun t : ℝ => sem.vDot y (sem.C (ofNodes sem (t • x)))) = fun t => t ^ 2 * sem.vDot y (sem.C (ofNodes sem x)) := by
        funext t
        rw [ofNodes_smul, C_smul hwf, vDot_smul_right, pow_two]
      rw [e]
      simpa using ((hasDerivAt_pow 2 (0 : ℝ)).mul_const (sem.vDot y (sem.C (ofNodes sem x))))
    rw [h1.unique h2]
    rfl
  rw [← hz]
  exact hd.hasFDerivAt

/-- `Cvjp` is the transposed derivative of the advection term. -/
theorem C_grad (H : StokesSetup vmesh pmesh quad overQuad masks bcs sem) {u : E → Vel ℝ d}
    (hu : ∀ j l, DifferentiableAt ℝ (fun θ => u θ j l) θ₀) (hout : ∀ θ j, sem.numV ≤ j → u θ j = u θ₀ j) (y : Vel ℝ d) :
    HasFDerivAt (fun θ => sem.vDot y (sem.C (u θ)) - sem.vDot (sem.Cvjp (u θ₀) y) (u θ)) (0 : E →L[ℝ] ℝ) θ₀ := by
  obtain ⟨hover, hom⟩ := H.over
  have hwf := FESpace.build_wf (FESpace.create_build hover).1 H.vpoints
  have hx : HasFDerivAt (fun θ => fun p : Fin sem.numV × Fin d => u θ p.1 p.2 - u θ₀ p.1 p.2)
      (fderiv ℝ (fun θ => fun p : Fin sem.numV × Fin d => u θ p.1 p.2 - u θ₀ p.1 p.2) θ₀) θ₀ := by
    refine DifferentiableAt.hasFDerivAt (differentiableAt_pi.mpr fun p => ?_)
    exact (hu p.1 p.2).sub_const _
  have hflat := C_flat H hwf y
  have h0 : (0 : Fin sem.numV × Fin d → ℝ) = (fun θ => fun p : Fin sem.numV × Fin d => u θ p.1 p.2 - u θ₀ p.1 p.2) θ₀ := by
    funext p
    simp
  rw [h0] at hflat
  have hcomp := hflat.comp θ₀ hx
  rw [ContinuousLinearMap.zero_comp] at hcomp
  have hof : ∀ θ, ofNodes sem (fun p : Fin sem.numV × Fin d => u θ p.1 p.2 - u θ₀ p.1 p.2) = u θ - u θ₀ := by
    intro θ
    funext j l
    unfold ofNodes
    split
    · rfl
    · rename_i h
      rw [Pi.sub_apply, Pi.sub_apply, hout θ j (not_lt.mp h), sub_self]
  have e : (fun θ => sem.vDot y (sem.C (u θ)) - sem.vDot (sem.Cvjp (u θ₀) y) (u θ)) = fun θ =>
      ((fun x => sem.vDot y (sem.C (ofNodes sem x))) ∘ fun θ => fun p : Fin sem.numV × Fin d => u θ p.1 p.2 - u θ₀ p.1 p.2) θ +
        (sem.vDot y (sem.C (u θ₀)) - sem.vDot (sem.Cvjp (u θ₀) y) (u θ₀)) := by
    funext θ
    simp only [Function.comp_apply, hof]
    have h1 := C_expand hwf (u θ₀) (u θ - u θ₀)
    rw [add_sub_cancel] at h1
    have h2 : sem.vDot (sem.Cvjp (u θ₀) y) (u θ - u θ₀) = sem.vDot (sem.Cjvp (u θ₀) (u θ - u θ₀)) y :=
      vvT_dot (CjvpLin hwf (u θ₀)) (fun j hj => by rw [Pi.sub_apply, hout θ j hj, sub_self]) y
    rw [h1, vDot_add_right, vDot_add_right, vDot_comm y (sem.Cjvp _ _), ← h2, vDot_sub_right]
    ring
  rw [e]
  exact hcomp.add_const _

/-- The advection term of a differentiable family of velocities. -/
theorem C_diff (H : StokesSetup vmesh pmesh quad overQuad masks bcs sem) {u : E → Vel ℝ d}
    (hu : ∀ j l, DifferentiableAt ℝ (fun θ => u θ j l) θ₀) (hout : ∀ θ j, sem.numV ≤ j → u θ j = u θ₀ j) (j : ℕ) (l : Fin d) :
    DifferentiableAt ℝ (fun θ => sem.C (u θ) j l) θ₀ := by
  by_cases hj : j < sem.numV
  · have h := (C_grad H hu hout (vUnit j l)).differentiableAt.add (vDot_diff (sem := sem) (sem.Cvjp (u θ₀) (vUnit j l)) hu)
    refine h.congr_of_eventuallyEq (Filter.Eventually.of_forall fun θ => ?_)
    simp [vDot_unit j hj]
  · have : (fun θ => sem.C (u θ) j l) = fun _ => 0 := by
      funext θ
      have := (C_mem (sem := sem) (u θ)) j (Or.inl (not_lt.mp hj))
      rw [this]; rfl
    rw [this]
    exact differentiableAt_const _

end analysis

end Verif.NS
