import Verif.Model.QFunction
import Verif.Lemmas.CubeCells
import Verif.Lemmas.TensorPoly
import Mathlib.Analysis.Calculus.FDeriv.Mul
import Mathlib.Analysis.Calculus.FDeriv.Comp
import Mathlib.Analysis.Calculus.FDeriv.Pi

/-! Lemmas about q-functions: derivatives of polynomials, values and gradients of nodal functions on curved elements. -/

namespace Verif.Core

open Verif.Spec MvPolynomial Filter Topology

variable {d : ℕ}

/-- The derivative of a polynomial function. -/
theorem hasFDerivAt_eval (p : MvPolynomial (Fin d) ℝ) (x : Fin d → ℝ) :
    HasFDerivAt (fun y : Fin d → ℝ => eval y p)
      (∑ i, eval x (pderiv i p) • (ContinuousLinearMap.proj i : (Fin d → ℝ) →L[ℝ] ℝ)) x := by
  induction p using MvPolynomial.induction_on with
  | C a =>
    simp only [eval_C, pderiv_C, map_zero, zero_smul, Finset.sum_const_zero]
    exact hasFDerivAt_const a x
  | add p q hp hq =>
    simp only [map_add, add_smul, Finset.sum_add_distrib]
    exact hp.add hq
  | mul_X p j hp =>
    have hX : HasFDerivAt (fun y : Fin d → ℝ => y j) (ContinuousLinearMap.proj j : (Fin d → ℝ) →L[ℝ] ℝ) x :=
      (ContinuousLinearMap.proj j : (Fin d → ℝ) →L[ℝ] ℝ).hasFDerivAt
    have h := hp.mul hX
    have e : (fun y : Fin d → ℝ => eval y (p * X j)) = fun y => eval y p * y j := by
      funext y; rw [eval_mul, eval_X]
    rw [e]
    refine h.congr_fderiv ?_
    have h2 : ∀ i, eval x (pderiv i (p * X j)) = eval x (pderiv i p) * x j + eval x p * (if i = j then 1 else 0) := by
      intro i
      rw [Derivation.leibniz, pderiv_X, smul_eq_mul, smul_eq_mul, eval_add, eval_mul, eval_mul, eval_X]
      by_cases hij : i = j
      · subst hij; simp; ring
      · have : (Pi.single i (1 : MvPolynomial (Fin d) ℝ) : Fin d → MvPolynomial (Fin d) ℝ) j = 0 :=
          Pi.single_eq_of_ne (Ne.symm hij) _
        rw [this]; simp [hij]; ring
    simp only [h2, add_smul, Finset.sum_add_distrib]
    have h3 : ∑ i, (eval x p * (if i = j then (1 : ℝ) else 0)) • (ContinuousLinearMap.proj i : (Fin d → ℝ) →L[ℝ] ℝ) =
        eval x p • (ContinuousLinearMap.proj j : (Fin d → ℝ) →L[ℝ] ℝ) := by
      rw [Finset.sum_eq_single j]
      · simp
      · intro b _ hb; simp [hb]
      · simp
    rw [h3, Finset.smul_sum, add_comm]
    congr 1
    refine Finset.sum_congr rfl fun i _ => ?_
    rw [smul_smul, mul_comm]

/-- `p` is the polynomial with the nodal values `x` on the grid of an element. -/
structure IsPatch (grid : Nodes1D ℝ) (d : ℕ) (x : ℕ → ℝ) (p : MvPolynomial (Fin d) ℝ) : Prop where
  deg : ∀ k, p.degreeOf k < grid.numPoints
  nodal : ∀ j < grid.numPoints ^ d, eval (gridPoint d grid.value j) p = x j

/-- `F` is the polynomial map from the reference cube to element `m`. -/
def IsElemMap (mesh : Mesh ℝ d) (m : ℕ) (F : Fin d → MvPolynomial (Fin d) ℝ) : Prop :=
  ∀ j, IsPatch mesh.grid d (fun n => mesh.elementCoords m n j) (F j)

/-- The image of a reference point. -/
noncomputable def elemPoint (F : Fin d → MvPolynomial (Fin d) ℝ) (ξ : Fin d → ℝ) : Fin d → ℝ := fun j => eval ξ (F j)

theorem hasFDerivAt_elemPoint (F : Fin d → MvPolynomial (Fin d) ℝ) (ξ : Fin d → ℝ) :
    HasFDerivAt (elemPoint F)
      (ContinuousLinearMap.pi fun j => ∑ i, eval ξ (pderiv i (F j)) • (ContinuousLinearMap.proj i : (Fin d → ℝ) →L[ℝ] ℝ)) ξ :=
  hasFDerivAt_pi.mpr fun j => hasFDerivAt_eval (F j) ξ

/-- Data of a space as the code builds it: the weights of the interpolation are the barycentric weights of distinct
nodes, and the node tables of the mesh and of the quadrature are the same when they have the same type and length. -/
structure GoodSpace (mesh : Mesh ℝ d) (quad : Quadrature1D ℝ) (fs : FESpace ℝ d) : Prop where
  created : FESpace.create mesh quad = some fs
  points : 0 < mesh.grid.numPoints
  weights : TrueWeights mesh.grid.bary mesh.grid.value
  distinct : Function.Injective mesh.grid.value
  tables : mesh.grid.same quad.nodes → quad.nodes = mesh.grid

variable {mesh : Mesh ℝ d} {quad : Quadrature1D ℝ} {fs : FESpace ℝ d}

theorem GoodSpace.value (h : GoodSpace mesh quad fs) {x : ℕ → ℝ} {p : MvPolynomial (Fin d) ℝ}
    (hp : IsPatch mesh.grid d x p) {q : ℕ} (hq : q < fs.numQuad) :
    fs.interpolate x q = eval (gridPoint d quad.nodes.value q) p := by
  obtain ⟨hb, _⟩ := FESpace.create_build h.created
  by_cases hs : mesh.grid.same quad.nodes
  · obtain ⟨_, _, _, _, _, _, _, _, hnq, _, hint, _⟩ := FESpace.build_fields hb
    have ht := h.tables hs
    rw [hint, if_pos hs, ← hp.nodal q (by rw [hnq, ht] at hq; exact hq), ht]
  · exact fe_poly hb h.points h.weights h.distinct hs p hp.deg x (fun i hi => (hp.nodal i hi).symm) hq

theorem GoodSpace.grad (h : GoodSpace mesh quad fs) {x : ℕ → ℝ} {p : MvPolynomial (Fin d) ℝ}
    (hp : IsPatch mesh.grid d x p) {q : ℕ} (hq : q < fs.numQuad) (k : Fin d) :
    elemGrad fs x q k = eval (gridPoint d quad.nodes.value q) (pderiv k p) :=
  fe_grad (FESpace.create_build h.created).1 h.points h.weights h.distinct p hp.deg x
    (fun i hi => (hp.nodal i hi).symm) hq k

theorem GoodSpace.coords (h : GoodSpace mesh quad fs) {m : ℕ} {F : Fin d → MvPolynomial (Fin d) ℝ}
    (hF : IsElemMap mesh m F) {q : ℕ} (hq : q < fs.numQuad) :
    fs.quadCoords m q = elemPoint F (gridPoint d quad.nodes.value q) := by
  obtain ⟨hb, _⟩ := FESpace.create_build h.created
  have hmesh := FESpace.build_mesh hb
  funext j
  rw [(FESpace.build_wf hb h.points).coords, hmesh, h.value (hF j) hq]
  rfl

theorem GoodSpace.jac (h : GoodSpace mesh quad fs) {m : ℕ} {F : Fin d → MvPolynomial (Fin d) ℝ}
    (hF : IsElemMap mesh m F) {q : ℕ} (hq : q < fs.numQuad) :
    jacobian fs.mesh fs.gradMat m q = Matrix.of fun i j => eval (gridPoint d quad.nodes.value q) (pderiv i (F j)) := by
  obtain ⟨hb, _⟩ := FESpace.create_build h.created
  have hmesh := FESpace.build_mesh hb
  have hwf := FESpace.build_wf hb h.points
  ext i j
  rw [Matrix.of_apply, ← h.grad (hF j) hq i]
  unfold elemGrad NMat.apply
  rw [hwf.cols, hmesh]
  unfold jacobian
  rw [Matrix.of_apply]
  refine Finset.sum_congr rfl fun n _ => ?_
  rw [mul_comm]

/-- `f` is, near the image of the reference point `ξ`, the function with nodal values `x` on element `m`: pulled back to
the reference cube it is the polynomial with these values. -/
def RepresentsAt (mesh : Mesh ℝ d) (m : ℕ) (x : ℕ → ℝ) (ξ : Fin d → ℝ) (f : (Fin d → ℝ) → ℝ) : Prop :=
  ∀ F p, IsElemMap mesh m F → IsPatch mesh.grid d x p →
    (∀ᶠ η in 𝓝 ξ, f (elemPoint F η) = eval η p) ∧ DifferentiableAt ℝ f (elemPoint F ξ)

/-- Polynomials with given nodal values exist. -/
theorem GoodSpace.patch (h : GoodSpace mesh quad fs) (x : ℕ → ℝ) : ∃ p, IsPatch mesh.grid d x p := by
  obtain ⟨p, h1, h2⟩ := exists_samples (d := d) h.points mesh.grid.value h.distinct x
  exact ⟨p, h1, h2⟩

theorem GoodSpace.elemMap (h : GoodSpace mesh quad fs) (m : ℕ) : ∃ F, IsElemMap mesh m F := by
  choose F hF using fun j : Fin d => h.patch (fun n => mesh.elementCoords m n j)
  exact ⟨F, hF⟩

/-- The gradient that the code computes is the derivative of the represented function, on curved elements too. -/
theorem GoodSpace.scalarGrad_eq (h : GoodSpace mesh quad fs) {m : ℕ} (hm : m < mesh.numElements) {ul : ℕ → ℕ → ℝ}
    {F : Fin d → MvPolynomial (Fin d) ℝ} (hF : IsElemMap mesh m F) {q : ℕ} (hq : q < fs.numQuad)
    {f : (Fin d → ℝ) → ℝ} (hf : RepresentsAt mesh m (ul m) (gridPoint d quad.nodes.value q) f) (j : Fin d) :
    Core.scalarGrad fs ul m q j = fderiv ℝ f (elemPoint F (gridPoint d quad.nodes.value q)) (Pi.single j 1) := by
  obtain ⟨hb, hreg⟩ := FESpace.create_build h.created
  have hmesh := FESpace.build_mesh hb
  have hwf := FESpace.build_wf hb h.points
  obtain ⟨p, hp⟩ := h.patch (ul m)
  obtain ⟨hev, hdiff⟩ := hf F p hF hp
  obtain ⟨ξ, hξ⟩ : ∃ ξ, ξ = gridPoint d quad.nodes.value q := ⟨_, rfl⟩
  rw [← hξ] at hev hdiff ⊢
  have hcomp : HasFDerivAt (fun η => f (elemPoint F η)) _ ξ :=
    HasFDerivAt.comp ξ hdiff.hasFDerivAt (hasFDerivAt_elemPoint F ξ)
  have huniq := (hcomp.congr_of_eventuallyEq (hev.mono fun η hη => hη.symm)).unique (hasFDerivAt_eval p ξ)
  have hchain : ∀ i, elemGrad fs (ul m) q i =
      ∑ k, jacobian fs.mesh fs.gradMat m q i k * fderiv ℝ f (elemPoint F ξ) (Pi.single k 1) := by
    intro i
    have h1 := congrArg (fun L : (Fin d → ℝ) →L[ℝ] ℝ => L (Pi.single i 1)) huniq
    simp only [ContinuousLinearMap.comp_apply, _root_.sum_apply, _root_.smul_apply,
      ContinuousLinearMap.proj_apply, smul_eq_mul] at h1
    rw [Finset.sum_eq_single i (fun b _ hb => by rw [Pi.single_eq_of_ne hb, mul_zero]) (by simp),
      Pi.single_eq_same, mul_one] at h1
    rw [h.grad hp hq i, ← hξ, ← h1, h.jac hF hq, ← hξ]
    have h2 : (ContinuousLinearMap.pi fun j => ∑ i, eval ξ (pderiv i (F j)) •
        (ContinuousLinearMap.proj i : (Fin d → ℝ) →L[ℝ] ℝ)) (Pi.single i (1 : ℝ)) =
        ∑ k, eval ξ (pderiv i (F k)) • (Pi.single k (1 : ℝ) : Fin d → ℝ) := by
      funext k
      rw [Finset.sum_apply, ContinuousLinearMap.coe_pi']
      simp only [_root_.sum_apply, _root_.smul_apply, ContinuousLinearMap.proj_apply, smul_eq_mul, Pi.smul_apply]
      rw [Finset.sum_eq_single i (fun b _ hb => by rw [Pi.single_eq_of_ne hb, mul_zero]) (by simp),
        Finset.sum_eq_single k (fun b _ hb => by rw [Pi.single_eq_of_ne (Ne.symm hb), mul_zero]) (by simp),
        Pi.single_eq_same, Pi.single_eq_same]
    rw [h2, map_sum]
    refine Finset.sum_congr rfl fun k _ => ?_
    rw [map_smul, smul_eq_mul, Matrix.of_apply]
  have hdet : (jacobian fs.mesh fs.gradMat m q).det ≠ 0 := by
    rw [← hwf.det]; exact hreg m (by rw [hmesh]; exact hm) q hq
  unfold Core.scalarGrad
  simp only [hchain, hwf.inv, Finset.sum_mul]
  rw [Finset.sum_comm]
  have h3 : ∀ k, ∑ i, jacobian fs.mesh fs.gradMat m q i k * fderiv ℝ f (elemPoint F ξ) (Pi.single k 1) *
      matInv (jacobian fs.mesh fs.gradMat m q) j i =
      fderiv ℝ f (elemPoint F ξ) (Pi.single k 1) * (1 : Matrix (Fin d) (Fin d) ℝ) j k := by
    intro k
    rw [← matInv_mul hdet, Matrix.mul_apply, Finset.mul_sum]
    exact Finset.sum_congr rfl fun i _ => by ring
  rw [Finset.sum_congr rfl fun k _ => h3 k]
  simp [Matrix.one_apply]

end Verif.Core
