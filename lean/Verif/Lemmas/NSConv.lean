import Verif.Lemmas.StokesConv
import Verif.Lemmas.TimeTrunc
import Verif.Props.C71
import Mathlib.Analysis.Calculus.MeanValue
import Mathlib.Analysis.InnerProductSpace.Calculus
import Mathlib.Analysis.Calculus.ContDiff.Basic
import Mathlib.Analysis.Calculus.ContDiff.Operations

/-!
# The advection term along runs of Navier-Stokes steps

It depends smoothly on the velocity, hence Lipschitz continuously on bounded sets.
-/

set_option linter.unusedSectionVars false

namespace Verif.NS

open Verif.Core Verif.Linalg Verif.Spec

variable {d : ℕ} {sem : StokesSEM ℝ d}
  {vmesh pmesh : Mesh ℝ d} {quad overQuad : Quadrature1D ℝ} {masks : List (String × (ℕ → Bool))}
  {bcs : List (String × BCType)} {low : Nodes1D ℝ} {mu dt : ℝ} {k : ℕ} {project : Bool}

variable {E : Type} [NormedAddCommGroup E] [NormedSpace ℝ E] {N : WithTop ℕ∞}

theorem gather_contDiff (mesh : Mesh ℝ d) {u : E → ℕ → ℝ} (hu : ∀ j, ContDiff ℝ N fun s => u s j) (m n : ℕ) :
    ContDiff ℝ N fun s => mesh.gather (u s) m n := by
  by_cases hn : n < mesh.nodesPerElem
  · simp only [Mesh.gather_apply _ _ _ _ hn]
    split_ifs
    · exact hu _
    · exact contDiff_const
  · have : ∀ s, mesh.gather (u s) m n = 0 := by
      intro s
      unfold Mesh.gather Mesh.row Verif.Core.gather
      rw [List.getD_eq_default]
      simpa using hn
    simp only [this]
    exact contDiff_const

theorem interpolate_sum {fs : FESpace ℝ d} (hwf : fs.WF) (x : ℕ → ℝ) {q : ℕ} (hq : q < fs.numQuad) :
    fs.interpolate x q = ∑ n ∈ Finset.range fs.mesh.nodesPerElem, x n * fs.interpolate (fun i => if i = n then 1 else 0) q := by
  classical
  have h0 : fs.interpolate 0 q = 0 := by
    have := hwf.smul 0 0 q
    simpa using this
  have hs : ∀ s : Finset ℕ, fs.interpolate (∑ n ∈ s, x n • (fun i => if i = n then (1 : ℝ) else 0)) q =
      ∑ n ∈ s, x n * fs.interpolate (fun i => if i = n then 1 else 0) q := by
    intro s
    induction s using Finset.induction_on with
    | empty => simpa using h0
    | insert a s ha ih => rw [Finset.sum_insert ha, Finset.sum_insert ha, hwf.add, hwf.smul, ih]
  rw [← hs]
  refine hwf.local_ _ _ (fun n hn => ?_) q hq
  rw [Finset.sum_apply, Finset.sum_eq_single n]
  · simp
  · intro b _ hb
    simp [hb.symm]
  · intro h
    exact absurd (Finset.mem_range.mpr hn) h

theorem interpolate_contDiff {fs : FESpace ℝ d} (hwf : fs.WF) {x : E → ℕ → ℝ} (hx : ∀ n, ContDiff ℝ N fun s => x s n) {q : ℕ}
    (hq : q < fs.numQuad) : ContDiff ℝ N fun s => fs.interpolate (x s) q := by
  simp only [fun s => interpolate_sum hwf (x s) hq]
  exact ContDiff.sum fun n _ => (hx n).mul contDiff_const

/-- The advection term of a velocity that depends smoothly on a parameter. -/
theorem C_contDiff (H : StokesSetup vmesh pmesh quad overQuad masks bcs sem) {u : E → Vel ℝ d}
    (hu : ∀ j l, ContDiff ℝ N fun s => u s j l) (j : ℕ) (l : Fin d) : ContDiff ℝ N fun s => sem.C (u s) j l := by
  obtain ⟨hover, hom⟩ := H.over
  have hwf := FESpace.build_wf (FESpace.create_build hover).1 H.vpoints
  have hg : ∀ m n (i : Fin d), ContDiff ℝ N fun s => vGather sem.vspace.mesh (u s) m n i := fun m n i =>
    gather_contDiff _ (fun j => hu j i) m n
  unfold StokesSEM.C StokesSEM.masked vScatter
  simp only [Mesh.scatter_apply]
  refine contDiff_const.mul (ContDiff.sum fun m _ => ContDiff.sum fun n _ => ?_)
  split_ifs
  · refine contDiff_const.mul ?_
    unfold vectorCovector vConvForm integrate
    refine ContDiff.sum fun m _ => ContDiff.sum fun q hq => ?_
    refine ContDiff.mul (ContDiff.mul ?_ contDiff_const) contDiff_const
    refine ContDiff.sum fun i _ => ContDiff.sum fun i' _ => ?_
    refine ContDiff.mul (ContDiff.mul ?_ ?_) contDiff_const
    · exact interpolate_contDiff hwf (fun n => hg m n i) (Finset.mem_range.mp hq)
    · unfold vectorGrad elemGrad NMat.apply
      exact ContDiff.sum fun r _ => (ContDiff.sum fun n _ => contDiff_const.mul (hg m n i')).mul contDiff_const
  · exact contDiff_const

theorem C_mem (u : Vel ℝ d) : sem.C u ∈ VSpace sem := masked_mem fun j hj => funext fun k => vScatter_outside _ _ j hj k

/-- Smooth maps of velocities are Lipschitz continuous on bounded sets. -/
theorem smooth_lip (H : StokesSetup vmesh pmesh quad overQuad masks bcs sem) (G : Vel ℝ d → Vel ℝ d)
    (hG : ∀ u : EuclideanSpace ℝ (Fin sem.numV × Fin d) → Vel ℝ d, (∀ j l, ContDiff ℝ 1 fun s => u s j l) →
      ∀ j l, ContDiff ℝ 1 fun s => G (u s) j l) (R : ℝ) :
    ∃ L, 0 ≤ L ∧ ∀ x y : Vel ℝ d, (∀ j, sem.numV ≤ j → x j = 0) → (∀ j, sem.numV ≤ j → y j = 0) → ‖massCoord sem x‖ ≤ R →
      ‖massCoord sem y‖ ≤ R → ‖massCoord sem (G x - G y)‖ ≤ L * ‖massCoord sem (x - y)‖ := by
  obtain ⟨g, hg⟩ : ∃ g : EuclideanSpace ℝ (Fin sem.numV × Fin d) → EuclideanSpace ℝ (Fin sem.numV × Fin d),
    g = fun s => massCoord sem (G (massCoordInv sem s)) := ⟨_, rfl⟩
  have hinv : ∀ j l, ContDiff ℝ 1 fun s : EuclideanSpace ℝ (Fin sem.numV × Fin d) => massCoordInv sem s j l := by
    intro j l
    exact (LinearMap.toContinuousLinearMap ((LinearMap.proj (R := ℝ) (φ := fun _ : Fin d => ℝ) l).comp
      ((LinearMap.proj (R := ℝ) (φ := fun _ : ℕ => Fin d → ℝ) j).comp (massCoordInv sem)))).contDiff
  have hgc : ContDiff ℝ 1 g := by
    rw [hg, contDiff_euclidean]
    intro i
    simp only [massCoord_apply]
    exact contDiff_const.mul (hG _ hinv _ _)
  have hcomp := isCompact_closedBall (0 : EuclideanSpace ℝ (Fin sem.numV × Fin d)) R
  obtain ⟨M, hM⟩ := hcomp.exists_bound_of_continuousOn (f := fderiv ℝ g) (hgc.continuous_fderiv (by norm_num)).continuousOn
  refine ⟨max M 0, le_max_right _ _, fun x y hx hy hxR hyR => ?_⟩
  have h1 := (convex_closedBall (0 : EuclideanSpace ℝ (Fin sem.numV × Fin d)) R).norm_image_sub_le_of_norm_fderiv_le
    (𝕜 := ℝ) (f := g) (C := max M 0) (fun z _ => hgc.differentiable (by norm_num) z) (fun z hz => (hM z hz).trans (le_max_left _ _))
    (x := massCoord sem y) (y := massCoord sem x) (by simpa using hyR) (by simpa using hxR)
  rw [hg] at h1
  simp only [massCoordInv_apply H.massPos' hx, massCoordInv_apply H.massPos' hy] at h1
  rw [map_sub, map_sub]
  exact h1

/-- The advection term is Lipschitz continuous on bounded sets. -/
theorem C_lip (H : StokesSetup vmesh pmesh quad overQuad masks bcs sem) (R : ℝ) :
    ∃ L, 0 ≤ L ∧ ∀ x y : Vel ℝ d, (∀ j, sem.numV ≤ j → x j = 0) → (∀ j, sem.numV ≤ j → y j = 0) → ‖massCoord sem x‖ ≤ R →
      ‖massCoord sem y‖ ≤ R → ‖massCoord sem (sem.C x - sem.C y)‖ ≤ L * ‖massCoord sem (x - y)‖ :=
  smooth_lip H sem.C (fun _ hu => C_contDiff H hu) R

end Verif.NS
