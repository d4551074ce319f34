import Verif.Lemmas.FESpace

/-!
# C38, C39: gradients of affine fields and assembled operators
-/

set_option linter.unusedSectionVars false

namespace Verif.Core

variable {K : Type*} [Field K] [LinearOrder K] {d : ℕ}

/-! ### C38 -/

theorem elemGrad_affine {fs : FESpace K d} (hwf : fs.WF) (a : Fin d → K) (c : K) (x : ℕ → K) (m : ℕ)
    (hx : ∀ n < fs.mesh.nodesPerElem, x n = ∑ j, a j * fs.mesh.elementCoords m n j + c) (q : ℕ) (hq : q < fs.numQuad)
    (i : Fin d) : elemGrad fs x q i = ∑ j, a j * jacobian fs.mesh fs.gradMat m q i j := by
  unfold elemGrad NMat.apply
  rw [hwf.cols i]
  have h1 : ∀ n ∈ Finset.range fs.mesh.nodesPerElem, (fs.gradMat i).entry q n * x n =
      (∑ j, a j * (fs.mesh.elementCoords m n j * (fs.gradMat i).entry q n)) + c * ((fs.gradMat i).entry q n * 1) := by
    intro n hn
    rw [hx n (Finset.mem_range.mp hn), mul_add, Finset.mul_sum]
    congr 1
    · exact Finset.sum_congr rfl fun j _ => by ring
    · ring
  rw [Finset.sum_congr rfl h1, Finset.sum_add_distrib, ← Finset.mul_sum]
  have h0 := hwf.rowsum i q hq
  unfold NMat.apply at h0
  rw [hwf.cols i] at h0
  rw [h0, mul_zero, add_zero, Finset.sum_comm]
  apply Finset.sum_congr rfl
  intro j _
  rw [← Finset.mul_sum]
  rfl

/-- The gradient of samples of `a · x + c` is `a` at every quadrature point of every element. -/
theorem C38_scalar (mesh : Mesh K d) (quad : Quadrature1D K) (fs : FESpace K d) (hn : 0 < mesh.grid.numPoints)
    (h : FESpace.create mesh quad = some fs) (a : Fin d → K) (c : K) (ul : ℕ → ℕ → K)
    (hul : ∀ m < mesh.numElements, ∀ n < mesh.nodesPerElem, ul m n = ∑ j, a j * mesh.elementCoords m n j + c) :
    ∀ m < mesh.numElements, ∀ q < quad.nodes.numPoints ^ d, ∀ j, scalarGrad fs ul m q j = a j := by
  obtain ⟨hb, hreg⟩ := FESpace.create_build h
  have hwf := FESpace.build_wf hb hn
  have hmesh := FESpace.build_mesh hb
  have hnq := FESpace.build_numQuad hb
  subst hmesh
  intro m hm q hq j
  have hq' : q < fs.numQuad := by rw [hnq]; exact hq
  have hdet : (jacobian fs.mesh fs.gradMat m q).det ≠ 0 := by rw [← hwf.det]; exact hreg m hm q hq'
  unfold scalarGrad
  have h1 : ∀ i, elemGrad fs (ul m) q i * fs.invjacs m q j i =
      ∑ l, a l * (matInv (jacobian fs.mesh fs.gradMat m q) j i * jacobian fs.mesh fs.gradMat m q i l) := by
    intro i
    rw [elemGrad_affine hwf a c (ul m) m (hul m hm) q hq' i, hwf.inv, Finset.sum_mul]
    exact Finset.sum_congr rfl fun l _ => by ring
  rw [Finset.sum_congr rfl fun i _ => h1 i, Finset.sum_comm]
  have h2 : ∀ l, ∑ i, a l * (matInv (jacobian fs.mesh fs.gradMat m q) j i * jacobian fs.mesh fs.gradMat m q i l) =
      a l * (1 : Matrix (Fin d) (Fin d) K) j l := by
    intro l
    rw [← matInv_mul hdet, Matrix.mul_apply, Finset.mul_sum]
  rw [Finset.sum_congr rfl fun l _ => h2 l]
  simp [Matrix.one_apply]

/-- Vector fields: entry `(j, k)` of the gradient of `x ↦ Σ_j a j k x_j + c k` is `a j k` (derivative of component `k`
along axis `j`), and the divergence is the trace of `a`. -/
theorem C38_vector (mesh : Mesh K d) (quad : Quadrature1D K) (fs : FESpace K d) (hn : 0 < mesh.grid.numPoints)
    (h : FESpace.create mesh quad = some fs) (a : Fin d → Fin d → K) (c : Fin d → K) (ul : ℕ → ℕ → Fin d → K)
    (hul : ∀ m < mesh.numElements, ∀ n < mesh.nodesPerElem, ∀ k,
      ul m n k = ∑ j, a j k * mesh.elementCoords m n j + c k) :
    ∀ m < mesh.numElements, ∀ q < quad.nodes.numPoints ^ d,
      (∀ j k, vectorGrad fs ul m q j k = a j k) ∧ divFn fs ul m q = ∑ j, a j j := by
  have hg : ∀ m < mesh.numElements, ∀ q < quad.nodes.numPoints ^ d, ∀ j k, vectorGrad fs ul m q j k = a j k := by
    intro m hm q hq j k
    exact C38_scalar mesh quad fs hn h (fun j => a j k) (c k) (fun m n => ul m n k)
      (fun m hm n hn => hul m hm n hn k) m hm q hq j
  intro m hm q hq
  exact ⟨hg m hm q hq, Finset.sum_congr rfl fun j _ => hg m hm q hq j j⟩

/-- The same for a field given on the nodes of a mesh without padding: gather, then differentiate. -/
theorem C38_nodal (mesh : Mesh K d) (quad : Quadrature1D K) (fs : FESpace K d) (hn : 0 < mesh.grid.numPoints)
    (h : FESpace.create mesh quad = some fs) (hpos : ∀ m < mesh.numElements, ∀ n < mesh.nodesPerElem,
      mesh.elements m n ≠ -1) (a : Fin d → K) (c : K) :
    ∀ m < mesh.numElements, ∀ q < quad.nodes.numPoints ^ d, ∀ j,
      scalarGrad fs (mesh.gather (fun p => ∑ j, a j * mesh.coords p j + c)) m q j = a j := by
  apply C38_scalar mesh quad fs hn h a c
  intro m hm n hn'
  rw [mesh.gather_apply _ _ _ hn', if_pos (hpos m hm n hn')]
  congr 1
  apply Finset.sum_congr rfl
  intro j _
  unfold Mesh.elementCoords
  rw [mesh.gather_apply _ _ _ hn', if_pos (hpos m hm n hn')]

/-! ### C39 -/

/-- `F` is linear and reads only the entries of the local array inside its shape. -/
structure LocalLinear {α : Type*} [AddCommGroup α] [Module K α] (M nn : ℕ) (F : (ℕ → ℕ → α) → K) : Prop where
  add : ∀ v w, F (v + w) = F v + F w
  smul : ∀ (c : K) v, F (c • v) = c * F v
  local_ : ∀ v w, (∀ m < M, ∀ n < nn, v m n = w m n) → F v = F w

theorem LocalLinear.zero {α : Type*} [AddCommGroup α] [Module K α] {M nn : ℕ} {F : (ℕ → ℕ → α) → K}
    (h : LocalLinear M nn F) : F 0 = 0 := by
  have := h.smul 0 0
  rwa [zero_smul, zero_mul] at this

theorem LocalLinear.sum {α ι : Type*} [AddCommGroup α] [Module K α] {M nn : ℕ} {F : (ℕ → ℕ → α) → K}
    (h : LocalLinear M nn F) (s : Finset ι) (g : ι → ℕ → ℕ → α) : F (∑ i ∈ s, g i) = ∑ i ∈ s, F (g i) := by
  classical
  induction s using Finset.induction_on with
  | empty => simpa using h.zero
  | insert i s hi ih => rw [Finset.sum_insert hi, h.add, ih, Finset.sum_insert hi]

theorem unitLocal_sum (M nn : ℕ) (c : ℕ → ℕ → K) (m n : ℕ) (hm : m < M) (hn : n < nn) :
    ∑ m' ∈ Finset.range M, ∑ n' ∈ Finset.range nn, c m' n' * unitLocal m' n' m n = c m n := by
  rw [Finset.sum_eq_single m, Finset.sum_eq_single n]
  · simp [unitLocal]
  · intro b _ hb; simp [unitLocal, Ne.symm hb]
  · intro h; exact absurd (Finset.mem_range.mpr hn) h
  · intro b _ hb
    apply Finset.sum_eq_zero
    intro n' _
    simp [unitLocal, Ne.symm hb]
  · intro h; exact absurd (Finset.mem_range.mpr hm) h

/-- The local covector of a linear functional represents it. -/
theorem C39_local_covector {M nn : ℕ} {F : (ℕ → ℕ → K) → K} (hF : LocalLinear M nn F) (v : ℕ → ℕ → K) :
    ∑ m ∈ Finset.range M, ∑ n ∈ Finset.range nn, v m n * scalarCovector F m n = F v := by
  have h1 : F v = F (∑ m ∈ Finset.range M, ∑ n ∈ Finset.range nn, v m n • unitLocal m n) := by
    apply hF.local_
    intro m hm n hn
    simp only [Finset.sum_apply, Pi.smul_apply, smul_eq_mul]
    exact (unitLocal_sum M nn v m n hm hn).symm
  rw [h1, hF.sum]
  apply Finset.sum_congr rfl
  intro m _
  rw [hF.sum]
  apply Finset.sum_congr rfl
  intro n _
  rw [hF.smul]
  rfl

theorem C39_local_covector_vector {M nn : ℕ} {F : (ℕ → ℕ → Fin d → K) → K} (hF : LocalLinear M nn F)
    (v : ℕ → ℕ → Fin d → K) :
    ∑ m ∈ Finset.range M, ∑ n ∈ Finset.range nn, ∑ k, v m n k * vectorCovector F m n k = F v := by
  have h1 : F v = F (∑ m ∈ Finset.range M, ∑ n ∈ Finset.range nn, ∑ k, v m n k •
      (fun m' n' k' => if k' = k then unitLocal m n m' n' else 0)) := by
    apply hF.local_
    intro m hm n hn
    funext k
    simp only [Finset.sum_apply, Pi.smul_apply, smul_eq_mul]
    have h2 : ∀ m' ∈ Finset.range M, ∀ n' ∈ Finset.range nn,
        (∑ k', v m' n' k' * (if k = k' then unitLocal m' n' m n else 0)) = v m' n' k * unitLocal m' n' m n := by
      intro m' _ n' _
      simp
    rw [Finset.sum_congr rfl fun m' hm' => Finset.sum_congr rfl fun n' hn' => h2 m' hm' n' hn']
    exact (unitLocal_sum M nn (fun m n => v m n k) m n hm hn).symm
  rw [h1, hF.sum]
  apply Finset.sum_congr rfl
  intro m _
  rw [hF.sum]
  apply Finset.sum_congr rfl
  intro n _
  rw [hF.sum]
  apply Finset.sum_congr rfl
  intro k _
  rw [hF.smul]
  rfl

/-- `mesh.scatter(local_covector(form, ...))` represents the functional on nodal vectors: its dot product with every
nodal `v` is the value of the form at `v`. -/
theorem C39_covector (mesh : Mesh K d) (hm : mesh.InRange) (F : (ℕ → ℕ → K) → K)
    (hF : LocalLinear mesh.numElements mesh.nodesPerElem F) (v : ℕ → K) :
    ∑ j ∈ Finset.range mesh.numNodes, v j * mesh.scatter (scalarCovector F) j = F (mesh.gather v) := by
  rw [← mesh.gather_scatter_adjoint hm, C39_local_covector hF]

/-- Entry `j` of the assembled covector is the value of the form at the nodal basis function of node `j`. -/
theorem C39_basis (mesh : Mesh K d) (hm : mesh.InRange) (F : (ℕ → ℕ → K) → K)
    (hF : LocalLinear mesh.numElements mesh.nodesPerElem F) (j : ℕ) (hj : j < mesh.numNodes) :
    mesh.scatter (scalarCovector F) j = F (mesh.gather (fun p => if p = j then 1 else 0)) := by
  rw [← C39_covector mesh hm F hF, Finset.sum_eq_single j]
  · simp
  · intro b _ hb; simp [hb]
  · intro h; exact absurd (Finset.mem_range.mpr hj) h

/-- Forms that are pointwise linear in the value and the gradient of the test function. -/
theorem C39_forms (fs : FESpace K d) (hwf : fs.WF) (c0 : QFun K) (c1 : QFun (Fin d → K)) :
    LocalLinear fs.mesh.numElements fs.mesh.nodesPerElem
      (fun vl => integrate fs (fun m q => c0 m q * scalarFn fs vl m q + ∑ j, c1 m q j * scalarGrad fs vl m q j)) := by
  have hadd : ∀ v w m q j, scalarGrad fs (v + w) m q j = scalarGrad fs v m q j + scalarGrad fs w m q j := by
    intro v w m q j
    unfold scalarGrad elemGrad
    rw [← Finset.sum_add_distrib]
    apply Finset.sum_congr rfl
    intro i _
    rw [Pi.add_apply, NMat.apply_add, add_mul]
  have hsmul : ∀ (c : K) v m q j, scalarGrad fs (c • v) m q j = c * scalarGrad fs v m q j := by
    intro c v m q j
    unfold scalarGrad elemGrad
    rw [Finset.mul_sum]
    apply Finset.sum_congr rfl
    intro i _
    rw [Pi.smul_apply, NMat.apply_smul, mul_assoc]
  refine ⟨?_, ?_, ?_⟩
  · intro v w
    unfold integrate
    rw [← Finset.sum_add_distrib]
    refine Finset.sum_congr rfl fun m _ => ?_
    rw [← Finset.sum_add_distrib]
    refine Finset.sum_congr rfl fun q _ => ?_
    simp only [hadd, scalarFn, Pi.add_apply, hwf.add, mul_add, Finset.sum_add_distrib]
    ring
  · intro c v
    unfold integrate
    rw [Finset.mul_sum]
    refine Finset.sum_congr rfl fun m _ => ?_
    rw [Finset.mul_sum]
    refine Finset.sum_congr rfl fun q _ => ?_
    have : ∀ j, c1 m q j * (c * scalarGrad fs v m q j) = c * (c1 m q j * scalarGrad fs v m q j) := fun j => by ring
    simp only [hsmul, scalarFn, Pi.smul_apply, hwf.smul, this, ← Finset.mul_sum]
    ring
  · intro v w hvw
    unfold integrate
    refine Finset.sum_congr rfl fun m hm => Finset.sum_congr rfl fun q hq => ?_
    have h1 : scalarFn fs v m q = scalarFn fs w m q :=
      hwf.local_ _ _ (fun n hn => hvw m (Finset.mem_range.mp hm) n hn) q (Finset.mem_range.mp hq)
    have h2 : ∀ j, scalarGrad fs v m q j = scalarGrad fs w m q j := by
      intro j
      unfold scalarGrad elemGrad
      refine Finset.sum_congr rfl fun i _ => ?_
      rw [NMat.apply_congr _ (v m) (w m) q (fun n hn => hvw m (Finset.mem_range.mp hm) n (by rw [hwf.cols] at hn; exact hn))]
    simp only [h1, h2]

theorem massForm_linear (fs : FESpace K d) (hwf : fs.WF) (ul : ℕ → ℕ → K) :
    LocalLinear fs.mesh.numElements fs.mesh.nodesPerElem (massForm fs ul) := by
  have := C39_forms fs hwf (fun m q => scalarFn fs ul m q) (fun _ _ _ => 0)
  simp only [zero_mul, Finset.sum_const_zero, add_zero] at this
  exact this

theorem stiffForm_linear (fs : FESpace K d) (hwf : fs.WF) (ul : ℕ → ℕ → K) :
    LocalLinear fs.mesh.numElements fs.mesh.nodesPerElem (stiffForm fs ul) := by
  have := C39_forms fs hwf (fun _ _ => 0) (fun m q j => scalarGrad fs ul m q j)
  simp only [zero_mul, zero_add] at this
  exact this

section ops

variable (mesh : Mesh K d) (quad : Quadrature1D K) (fs : FESpace K d) (hn : 0 < mesh.grid.numPoints)
  (hm : mesh.InRange)

include hn hm

/-- `⟨B u, v⟩ = ∫ u v` and `⟨A u, v⟩ = ∫ ∇u · ∇v` for all nodal vectors. -/
theorem C39_mass (h : FESpace.build mesh quad = some fs) (u v : ℕ → K) :
    ∑ j ∈ Finset.range mesh.numNodes, v j * massOp fs u j =
      integrate fs (fun m q => scalarFn fs (mesh.gather u) m q * scalarFn fs (mesh.gather v) m q) := by
  have hmesh := FESpace.build_mesh h
  have hwf := FESpace.build_wf h hn
  subst hmesh
  exact C39_covector fs.mesh hm _ (massForm_linear fs hwf _) v

theorem C39_stiffness (h : FESpace.create mesh quad = some fs) (u v : ℕ → K) :
    ∑ j ∈ Finset.range mesh.numNodes, v j * stiffOp fs u j =
      integrate fs (fun m q => ∑ j, scalarGrad fs (mesh.gather u) m q j * scalarGrad fs (mesh.gather v) m q j) := by
  obtain ⟨hb, _⟩ := FESpace.create_build h
  have hmesh := FESpace.build_mesh hb
  have hwf := FESpace.build_wf hb hn
  subst hmesh
  exact C39_covector fs.mesh hm _ (stiffForm_linear fs hwf _) v

/-- Both operators are symmetric. -/
theorem C39_symmetric (h : FESpace.create mesh quad = some fs) (u v : ℕ → K) :
    (∑ j ∈ Finset.range mesh.numNodes, v j * massOp fs u j = ∑ j ∈ Finset.range mesh.numNodes, u j * massOp fs v j) ∧
    (∑ j ∈ Finset.range mesh.numNodes, v j * stiffOp fs u j = ∑ j ∈ Finset.range mesh.numNodes, u j * stiffOp fs v j) := by
  obtain ⟨hb, _⟩ := FESpace.create_build h
  constructor
  · rw [C39_mass mesh quad fs hn hm hb, C39_mass mesh quad fs hn hm hb]
    congr 1
    funext m q
    ring
  · rw [C39_stiffness mesh quad fs hn hm h, C39_stiffness mesh quad fs hn hm h]
    congr 1
    funext m q
    exact Finset.sum_congr rfl fun j _ => mul_comm _ _

/-- Both are positive semidefinite when the quadrature weights and the Jacobian determinants are nonnegative. -/
theorem C39_semidefinite [IsStrictOrderedRing K] (h : FESpace.create mesh quad = some fs)
    (hw : ∀ x ∈ fs.weights, 0 ≤ x)
    (hdet : ∀ m < mesh.numElements, ∀ q < fs.numQuad, 0 ≤ fs.jacdets m q) (u : ℕ → K) :
    0 ≤ ∑ j ∈ Finset.range mesh.numNodes, u j * massOp fs u j ∧
    0 ≤ ∑ j ∈ Finset.range mesh.numNodes, u j * stiffOp fs u j := by
  obtain ⟨hb, _⟩ := FESpace.create_build h
  have hmesh := FESpace.build_mesh hb
  have hw' : ∀ q, 0 ≤ fs.weights.getD q 0 := by
    intro q
    by_cases hq : q < fs.weights.length
    · rw [List.getD_eq_getElem _ _ hq]; exact hw _ (List.getElem_mem hq)
    · rw [List.getD_eq_default _ _ (not_lt.mp hq)]
  rw [C39_mass mesh quad fs hn hm hb, C39_stiffness mesh quad fs hn hm h]
  subst hmesh
  constructor
  · refine Finset.sum_nonneg fun m hm' => Finset.sum_nonneg fun q hq => ?_
    exact mul_nonneg (mul_nonneg (mul_self_nonneg _) (hdet m (Finset.mem_range.mp hm') q (Finset.mem_range.mp hq))) (hw' q)
  · refine Finset.sum_nonneg fun m hm' => Finset.sum_nonneg fun q hq => ?_
    exact mul_nonneg (mul_nonneg (Finset.sum_nonneg fun j _ => mul_self_nonneg _)
      (hdet m (Finset.mem_range.mp hm') q (Finset.mem_range.mp hq))) (hw' q)

/-- Constants are in the kernel of the stiffness operator (mesh without padding). -/
theorem C39_constants (h : FESpace.create mesh quad = some fs)
    (hpos : ∀ m < mesh.numElements, ∀ n < mesh.nodesPerElem, mesh.elements m n ≠ -1) (c : K) :
    ∀ j < mesh.numNodes, stiffOp fs (fun _ => c) j = 0 := by
  obtain ⟨hb, _⟩ := FESpace.create_build h
  have hmesh := FESpace.build_mesh hb
  have hnq := FESpace.build_numQuad hb
  have hwf := FESpace.build_wf hb hn
  intro j hj
  have hgrad := C38_nodal mesh quad fs hn h hpos (fun _ => 0) c
  simp only [zero_mul, Finset.sum_const_zero, zero_add] at hgrad
  subst hmesh
  unfold stiffOp
  rw [C39_basis fs.mesh hm _ (stiffForm_linear fs hwf _) j hj]
  unfold stiffForm integrate
  refine Finset.sum_eq_zero fun m hm' => Finset.sum_eq_zero fun q hq => ?_
  have hz : ∀ i, scalarGrad fs (fs.mesh.gather (fun _ => c)) m q i = 0 := fun i =>
    hgrad m (Finset.mem_range.mp hm') q (by rw [← hnq]; exact Finset.mem_range.mp hq) i
  simp only [hz, zero_mul, Finset.sum_const_zero]

end ops

/-! ### A concrete case: one skewed bilinear element that is not a parallelogram -/

/-- Two Newton-Cotes points. -/
def exGrid : Nodes1D ℚ := ⟨.newtonCotes, 2, ![-1, 1], ![1, -1]⟩

/-- The element. -/
def exMesh : Mesh ℚ 2 where
  numNodes := 4
  numElements := 1
  grid := exGrid
  coords := fun p => (![![0, 0], ![1/2, 2], ![3, 0], ![4, 5]] : Fin 4 → Fin 2 → ℚ) (Fin.ofNat 4 p)
  elements := fun _ n => n
  nodeIndices := fun n => n

/-- Two quadrature points per axis, off the grid points. -/
def exQuad : Quadrature1D ℚ := ⟨⟨.gaussLegendre, 2, ![-1/2, 1/2], ![1, -1]⟩, [1, 1]⟩

theorem exMesh_inRange : exMesh.InRange := by
  intro m hm n hn
  right
  have : n < 4 := hn
  exact ⟨by simp [exMesh], by simp only [exMesh]; omega⟩

theorem exMesh_create : (FESpace.create exMesh exQuad).isSome = true := by decide +kernel

/-- All determinants of the example are positive and all weights nonnegative. -/
theorem exMesh_positive : (match FESpace.create exMesh exQuad with
    | none => false
    | some fs => decide ((∀ x ∈ fs.weights, 0 ≤ x) ∧ ∀ m < exMesh.numElements, ∀ q < fs.numQuad, 0 ≤ fs.jacdets m q)) =
    true := by decide +kernel

/-- The hypotheses of `C38_nodal`, `C39_semidefinite` and `C39_constants` hold for it. -/
example : ∃ fs, FESpace.create exMesh exQuad = some fs ∧ 0 < exMesh.grid.numPoints ∧ exMesh.InRange ∧
    (∀ m < exMesh.numElements, ∀ n < exMesh.nodesPerElem, exMesh.elements m n ≠ -1) ∧
    (∀ x ∈ fs.weights, 0 ≤ x) ∧ ∀ m < exMesh.numElements, ∀ q < fs.numQuad, 0 ≤ fs.jacdets m q := by
  have h := exMesh_positive
  revert h
  cases hc : FESpace.create exMesh exQuad with
  | none => intro h; exact absurd h (by simp)
  | some fs =>
    intro h
    have h' := of_decide_eq_true h
    refine ⟨fs, rfl, by decide, exMesh_inRange, ?_, h'.1, h'.2⟩
    intro m _ n _
    simp only [exMesh]
    omega

end Verif.Core
