import Verif.Lemmas.BoxQuad
import Verif.Props.C46_C61

/-!
# Finite element spaces on meshes of equal cubes
-/

namespace Verif.Core

open Verif.Spec MeasureTheory MvPolynomial

section general

variable {K : Type*} [Field K] [LinearOrder K] {d : ℕ}

/-- A space differentiates polynomials of the degree of its elements exactly in reference coordinates. -/
theorem fe_grad {mesh : Mesh K d} {quad : Quadrature1D K} {fs : FESpace K d} (h : FESpace.build mesh quad = some fs)
    (hn : 0 < mesh.grid.numPoints) (hw : TrueWeights mesh.grid.bary mesh.grid.value)
    (hinj : Function.Injective mesh.grid.value)
    (P : MvPolynomial (Fin d) K) (hdeg : ∀ k, P.degreeOf k < mesh.grid.numPoints) (x : ℕ → K)
    (hx : ∀ i < mesh.nodesPerElem, x i = eval (gridPoint d mesh.grid.value i) P) {q : ℕ} (hq : q < fs.numQuad) :
    ∀ k, elemGrad fs x q k = eval (gridPoint d quad.nodes.value q) (pderiv k P) := by
  obtain ⟨M1, A, W, hM1, hA, hW, hd, hmesh, hnq, _, hint, hG, _, _, _⟩ := FESpace.build_fields h
  have hwf := FESpace.build_wf h hn
  have hnq0 : 0 < quad.nodes.numPoints := by
    rcases Nat.eq_zero_or_pos quad.nodes.numPoints with h0 | h0
    · rw [hnq, h0, zero_pow hd] at hq; omega
    · exact h0
  intro k
  obtain ⟨M, B, hM, hB, hgrad⟩ := C34_gradients (d := d) hnq0 hn mesh.grid.bary
    mesh.grid.value hw hinj quad.nodes.value k
  rw [hM1, Option.some.injEq] at hM
  subst hM
  rw [hG k, Option.some.injEq] at hB
  subst hB
  rw [← hgrad P hdeg q (by rw [← hnq]; exact hq)]
  unfold elemGrad
  apply NMat.apply_congr
  intro n hn'
  rw [hwf.cols, hmesh] at hn'
  exact hx n hn'

/-- A space reproduces polynomials of the degree of its elements. -/
theorem fe_poly {mesh : Mesh K d} {quad : Quadrature1D K} {fs : FESpace K d} (h : FESpace.build mesh quad = some fs)
    (hn : 0 < mesh.grid.numPoints) (hw : TrueWeights mesh.grid.bary mesh.grid.value)
    (hinj : Function.Injective mesh.grid.value) (hns : ¬ mesh.grid.same quad.nodes)
    (P : MvPolynomial (Fin d) K) (hdeg : ∀ k, P.degreeOf k < mesh.grid.numPoints) (x : ℕ → K)
    (hx : ∀ i < mesh.nodesPerElem, x i = eval (gridPoint d mesh.grid.value i) P) {q : ℕ} (hq : q < fs.numQuad) :
    fs.interpolate x q = eval (gridPoint d quad.nodes.value q) P := by
  obtain ⟨M1, A, W, hM1, hA, hW, hd, hmesh, hnq, _, hint, hG, _, _, _⟩ := FESpace.build_fields h
  have hwf := FESpace.build_wf h hn
  have hnq0 : 0 < quad.nodes.numPoints := by
    rcases Nat.eq_zero_or_pos quad.nodes.numPoints with h0 | h0
    · rw [hnq, h0, zero_pow hd] at hq; omega
    · exact h0
  obtain ⟨M, B, hM, hB, hpoly⟩ := C34_polynomials (d := d) hnq0 hn (Nat.one_le_iff_ne_zero.mpr hd) mesh.grid.bary
    mesh.grid.value hw hinj quad.nodes.value
  rw [hM1, Option.some.injEq] at hM
  subst hM
  rw [hA, Option.some.injEq] at hB
  subst hB
  rw [hwf.local_ x (fun j => eval (gridPoint d mesh.grid.value j) P) (fun n hn' => hx n (by rw [← hmesh]; exact hn')) q hq]
  rw [hint, if_neg hns]
  exact hpoly P hdeg q (by rw [← hnq]; exact hq)

end general

variable {d : ℕ}

/-- Centre of cell `e` of a grid of `n ^ d` cubes of half width `c` with lower corner `a`. -/
noncomputable def centre (n d : ℕ) (a c : ℝ) (e : ℕ) : Fin d → ℝ := fun k => a + c * (2 * digit n d k e + 1)

/-- A mesh whose elements are the cells of a grid of cubes, with or without shared nodes. -/
structure AffCells (n p : ℕ) (a c : ℝ) (mesh : Mesh ℝ d) (node : ℕ → ℕ → ℕ) : Prop where
  width : 0 < c
  order : 1 ≤ p
  dim : 1 ≤ d
  points : mesh.grid.numPoints = p + 1
  weights : TrueWeights mesh.grid.bary mesh.grid.value
  nodes : Function.Injective mesh.grid.value
  num : mesh.numElements = n ^ d
  lt : ∀ e < n ^ d, ∀ i < mesh.nodesPerElem, node e i < mesh.numNodes
  elem : ∀ e < n ^ d, ∀ i < mesh.nodesPerElem, mesh.elements e i = (node e i : ℕ)
  coords : ∀ e < n ^ d, ∀ i < mesh.nodesPerElem, ∀ k : Fin d,
    mesh.coords (node e i) k = c * gridPoint d mesh.grid.value i k + centre n d a c e k
  onto : ∀ v < mesh.numNodes, ∃ e < n ^ d, ∃ i < mesh.nodesPerElem, node e i = v

/-- A mesh whose elements are the cells of a grid of cubes and share the nodes of their common faces. -/
structure CubeCells (n p : ℕ) (a c : ℝ) (mesh : Mesh ℝ d) (node : ℕ → ℕ → ℕ) : Prop extends AffCells n p a c mesh node where
  first : at0 mesh.grid.value 0 = -1
  last : at0 mesh.grid.value p = 1
  within : ∀ i < p + 1, -1 ≤ at0 mesh.grid.value i ∧ at0 mesh.grid.value i ≤ 1
  shared : ∀ e < n ^ d, ∀ i < mesh.nodesPerElem, ∀ e' < n ^ d, ∀ i' < mesh.nodesPerElem,
    (∀ k < d, digit n d k e * p + digit (p + 1) d k i = digit n d k e' * p + digit (p + 1) d k i') → node e i = node e' i'

/-- `U` are the element polynomials of the nodal values `u`. -/
def CellField (mesh : Mesh ℝ d) (p : ℕ) (u : ℕ → ℝ) (U : ℕ → MvPolynomial (Fin d) ℝ) : Prop :=
  ∀ e < mesh.numElements, (∀ k, (U e).degreeOf k ≤ p) ∧
    ∀ i < mesh.nodesPerElem, ∀ v : ℕ, mesh.elements e i = v → eval (mesh.coords v) (U e) = u v

namespace CubeCells

/-- Quadrature point `q` of cell `e`. -/
noncomputable def pt (n : ℕ) (a c : ℝ) (quad : Quadrature1D ℝ) (e q : ℕ) : Fin d → ℝ :=
  fun k => c * gridPoint d quad.nodes.value q k + centre n d a c e k

/-- Cell `e`. -/
def cell (n d : ℕ) (a c : ℝ) (e : ℕ) : Set (Fin d → ℝ) :=
  Set.Icc (fun k => centre n d a c e k - c) (fun k => centre n d a c e k + c)

end CubeCells

namespace AffCells

open CubeCells (pt cell)

variable {n p : ℕ} {a c : ℝ} {mesh : Mesh ℝ d} {node : ℕ → ℕ → ℕ}

theorem gather (h : AffCells n p a c mesh node) (u : ℕ → ℝ) {e i : ℕ} (he : e < n ^ d) (hi : i < mesh.nodesPerElem) :
    mesh.gather u e i = u (node e i) := by
  rcases gather_node mesh u e i (node e i) hi (h.elem e he i hi) with h1 | h1
  · exact h1
  · exact absurd (h.lt e he i hi) h1

theorem inRange (h : AffCells n p a c mesh node) : mesh.InRange := by
  intro e he i hi
  rw [h.num] at he
  rw [h.elem e he i hi]
  have := h.lt e he i hi
  omega

theorem numPos (h : AffCells n p a c mesh node) : 0 < mesh.grid.numPoints := by rw [h.points]; omega

/-- Local values of a field in reference coordinates. -/
theorem sample (h : AffCells n p a c mesh node) {u : ℕ → ℝ} {U : ℕ → MvPolynomial (Fin d) ℝ} (hU : CellField mesh p u U)
    {e i : ℕ} (he : e < n ^ d) (hi : i < mesh.nodesPerElem) :
    mesh.gather u e i = eval (gridPoint d mesh.grid.value i) (affSub c (centre n d a c e) (U e)) := by
  rw [h.gather u he hi, eval_affSub, ← (hU e (by rw [h.num]; exact he)).2 i hi _ (h.elem e he i hi)]
  congr 2
  funext k
  exact h.coords e he i hi k

theorem affDegree (h : AffCells n p a c mesh node) {U : MvPolynomial (Fin d) ℝ} (hU : ∀ k, U.degreeOf k ≤ p) (s : Fin d → ℝ)
    (k : Fin d) : (affSub c s U).degreeOf k < mesh.grid.numPoints := by
  have := degreeOf_affSub c s U k
  have := hU k
  rw [h.points]
  omega

variable {quad : Quadrature1D ℝ} {fs : FESpace ℝ d}

/-- The Jacobian of every element is `c` times the identity. -/
theorem jacobian (h : AffCells n p a c mesh node) (hb : FESpace.build mesh quad = some fs)
    {e q : ℕ} (he : e < n ^ d) (hq : q < fs.numQuad) :
    Verif.Core.jacobian fs.mesh fs.gradMat e q = c • (1 : Matrix (Fin d) (Fin d) ℝ) := by
  have hmesh := FESpace.build_mesh hb
  have hwf := FESpace.build_wf hb h.numPos
  ext i j
  have h1 := (fe_grad hb h.numPos h.weights h.nodes (C c * X j + C (centre n d a c e j)) (fun k => by
    have hX : (affSub c (centre n d a c e) (X j)).degreeOf k < mesh.grid.numPoints :=
      h.affDegree (fun k => by rw [degreeOf_X]; split <;> have := h.order <;> omega) _ k
    unfold affSub at hX
    rwa [bind₁_X_right] at hX) (fun i => mesh.elementCoords e i j) (fun i hi => by
      unfold Mesh.elementCoords
      rw [h.gather _ he hi, h.coords e he i hi]
      simp) hq) i
  rw [hmesh]
  unfold Verif.Core.jacobian
  unfold elemGrad NMat.apply at h1
  rw [hwf.cols, hmesh] at h1
  simp only [Matrix.of_apply, Matrix.smul_apply, smul_eq_mul, Matrix.one_apply]
  rw [Finset.sum_congr rfl fun n _ => mul_comm _ _, h1]
  by_cases hij : i = j
  · subst hij; simp [pderiv_X_self]
  · rw [if_neg hij]
    have : pderiv i (X j : MvPolynomial (Fin d) ℝ) = 0 := pderiv_X_of_ne (Ne.symm hij)
    simp [this]

theorem jacdet (h : AffCells n p a c mesh node) (hb : FESpace.build mesh quad = some fs)
    {e q : ℕ} (he : e < n ^ d) (hq : q < fs.numQuad) : fs.jacdets e q = c ^ d := by
  rw [(FESpace.build_wf hb h.numPos).det, h.jacobian hb he hq, Matrix.det_smul]
  simp

theorem invjac (h : AffCells n p a c mesh node) (hb : FESpace.build mesh quad = some fs)
    {e q : ℕ} (he : e < n ^ d) (hq : q < fs.numQuad) :
    fs.invjacs e q = c⁻¹ • (1 : Matrix (Fin d) (Fin d) ℝ) := by
  have hJ := h.jacobian hb he hq
  have hc : c ≠ 0 := h.width.ne'
  have hdet : (Verif.Core.jacobian fs.mesh fs.gradMat e q).det ≠ 0 := by
    rw [hJ, Matrix.det_smul]; simp [hc]
  have h1 := matInv_mul hdet
  rw [(FESpace.build_wf hb h.numPos).inv]
  have h2 : matInv (Verif.Core.jacobian fs.mesh fs.gradMat e q) * (c • (1 : Matrix (Fin d) (Fin d) ℝ)) = 1 := by
    rw [← hJ]; exact h1
  rw [Matrix.mul_smul, Matrix.mul_one] at h2
  rw [← h2, smul_smul, inv_mul_cancel₀ hc, one_smul]

theorem create (h : AffCells n p a c mesh node) (hb : FESpace.build mesh quad = some fs)
    : FESpace.create mesh quad = some fs := by
  unfold FESpace.create
  rw [hb]
  simp only
  rw [if_pos]
  intro e he q hq
  rw [FESpace.build_mesh hb, h.num] at he
  rw [h.jacdet hb he hq]
  exact pow_ne_zero _ h.width.ne'

theorem scalarFn (h : AffCells n p a c mesh node) (hb : FESpace.build mesh quad = some fs)
    (hns : ¬ mesh.grid.same quad.nodes) {u : ℕ → ℝ} {U : ℕ → MvPolynomial (Fin d) ℝ} (hU : CellField mesh p u U)
    {e q : ℕ} (he : e < n ^ d) (hq : q < fs.numQuad) :
    Verif.Core.scalarFn fs (mesh.gather u) e q = eval (pt n a c quad e q) (U e) := by
  have h1 := (fe_poly hb h.numPos h.weights h.nodes hns (affSub c (centre n d a c e) (U e))
    (h.affDegree (hU e (by rw [h.num]; exact he)).1 _) (mesh.gather u e) (fun i hi => h.sample hU he hi) hq)
  rw [eval_affSub] at h1
  exact h1

theorem scalarGrad (h : AffCells n p a c mesh node) (hb : FESpace.build mesh quad = some fs)
    {u : ℕ → ℝ} {U : ℕ → MvPolynomial (Fin d) ℝ} (hU : CellField mesh p u U)
    {e q : ℕ} (he : e < n ^ d) (hq : q < fs.numQuad) (j : Fin d) :
    Verif.Core.scalarGrad fs (mesh.gather u) e q j = eval (pt n a c quad e q) (pderiv j (U e)) := by
  have h1 := (fe_grad hb h.numPos h.weights h.nodes (affSub c (centre n d a c e) (U e))
    (h.affDegree (hU e (by rw [h.num]; exact he)).1 _) (mesh.gather u e) (fun i hi => h.sample hU he hi) hq)
  unfold Verif.Core.scalarGrad
  rw [h.invjac hb he hq, Finset.sum_eq_single j]
  · rw [h1 j, pderiv_affSub, map_mul, eval_C, eval_affSub]
    simp only [Matrix.smul_apply, Matrix.one_apply_eq, smul_eq_mul, mul_one]
    rw [mul_comm, ← mul_assoc, inv_mul_cancel₀ h.width.ne', one_mul]
    rfl
  · intro i _ hij
    simp [Matrix.one_apply_ne (Ne.symm hij)]
  · intro hj; exact absurd (Finset.mem_univ j) hj

/-- `integrate` of polynomial integrands is the integral over the cells. -/
theorem integrate (h : AffCells n p a c mesh node) (hb : FESpace.build mesh quad = some fs)
    {l : List ℝ} {deg : ℕ} (hl : QuadratureRule quad.weights l deg)
    (hq : quad.nodes.numPoints = l.length) (hv : ∀ q k, gridPoint d quad.nodes.value q k = gridPoint d (vec l l.length) q k)
    (P : ℕ → MvPolynomial (Fin d) ℝ) (hP : ∀ e < n ^ d, ∀ k, (P e).degreeOf k ≤ deg) (w : QFun ℝ)
    (hw : ∀ e < n ^ d, ∀ q < fs.numQuad, w e q = eval (pt n a c quad e q) (P e)) :
    Verif.Core.integrate fs w = ∑ e ∈ Finset.range (n ^ d), ∫ x in cell n d a c e, eval x (P e) := by
  obtain ⟨_, _, W, _, _, hW, _, hmesh, hnq, hfw, _⟩ := FESpace.build_fields hb
  unfold Verif.Core.integrate
  rw [hmesh, h.num]
  refine Finset.sum_congr rfl fun e he => ?_
  rw [Finset.mem_range] at he
  unfold cell
  rw [← box_rule hl h.dim h.width (centre n d a c e) hW (P e) (hP e he), hnq, hq]
  refine Finset.sum_congr rfl fun q hq' => ?_
  have hq'' : q < fs.numQuad := by rw [hnq, hq]; exact Finset.mem_range.mp hq'
  rw [hw e he q hq'', h.jacdet hb he hq'', hfw]
  congr 4
  unfold pt
  funext k
  rw [hv]

end AffCells

end Verif.Core
