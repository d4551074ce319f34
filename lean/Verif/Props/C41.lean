import Verif.Props.C40

/-!
# C41: `_pressure_project_out_nullspace` subtracts the mean
-/

set_option linter.unusedSectionVars false

namespace Verif.NS

open Verif.Core Verif.Linalg

variable {K : Type*} [Field K] [LinearOrder K] {d : ℕ}

/-- What the pressure space is created from: no padding, all nodes distinct (Gauss points lie inside the elements). -/
structure PressureSetup (pmesh : Mesh K d) (quad : Quadrature1D K) (sem : StokesSEM K d) : Prop where
  build : FESpace.build pmesh quad = some sem.pspace
  points : 0 < pmesh.grid.numPoints
  weights : TrueWeights pmesh.grid.bary pmesh.grid.value
  nodes : Function.Injective pmesh.grid.value
  range : ∀ m < pmesh.numElements, ∀ n < pmesh.nodesPerElem, 0 ≤ pmesh.elements m n ∧ pmesh.elements m n < pmesh.numNodes
  distinct : ∀ i < pmesh.numNodes, ∀ j < pmesh.numNodes, pmesh.nodeIndices i = pmesh.nodeIndices j → i = j
  /-- The domain has a volume. -/
  volume : integrate sem.pspace (fun _ _ => 1) ≠ 0

variable {pmesh : Mesh K d} {quad : Quadrature1D K} {sem : StokesSEM K d}

/-- Interpolation reproduces constants. -/
theorem interpolate_const [IsStrictOrderedRing K] {mesh : Mesh K d} {fs : FESpace K d}
    (h : FESpace.build mesh quad = some fs) (hn : 0 < mesh.grid.numPoints)
    (hw : TrueWeights mesh.grid.bary mesh.grid.value) (hi : Function.Injective mesh.grid.value) (x : ℕ → K) (c : K)
    (hx : ∀ n < mesh.nodesPerElem, x n = c) (q : ℕ) (hq : q < fs.numQuad) : fs.interpolate x q = c := by
  have hwf := FESpace.build_wf h hn
  obtain ⟨M1, A, W, hM1, hA, hW, hd, hmesh, hnq, _, hint, _⟩ := FESpace.build_fields h
  have hq0 : 0 < quad.nodes.numPoints := by
    rcases Nat.eq_zero_or_pos quad.nodes.numPoints with h0 | h0
    · rw [hnq, h0, zero_pow hd] at hq; omega
    · exact h0
  rw [hwf.local_ x (fun _ => c) (fun n hn => hx n (by rw [← hmesh]; exact hn)) q hq, hint]
  split
  · rfl
  · obtain ⟨M, B, hM, hB, hpoly⟩ := C34_polynomials (q := quad.nodes.numPoints) (d := d) hq0 hn
      (Nat.one_le_iff_ne_zero.mpr hd) mesh.grid.bary mesh.grid.value hw hi quad.nodes.value
    rw [hM1, Option.some.injEq] at hM
    subst hM
    rw [hA, Option.some.injEq] at hB
    subst hB
    have := hpoly (MvPolynomial.C c) (fun k => by rw [MvPolynomial.degreeOf_C]; exact hn) q (by rw [← hnq]; exact hq)
    simpa using this

theorem PressureSetup.mesh_eq (H : PressureSetup pmesh quad sem) : sem.pspace.mesh = pmesh := FESpace.build_mesh H.build

theorem gather_one [IsStrictOrderedRing K] (H : PressureSetup pmesh quad sem) (c : K) (m : ℕ) (hm : m < pmesh.numElements)
    (q : ℕ) (hq : q < sem.pspace.numQuad) : scalarFn sem.pspace (pmesh.gather (fun _ => c)) m q = c := by
  apply interpolate_const H.build H.points H.weights H.nodes _ _ _ q hq
  intro n hn
  rw [pmesh.gather_apply _ _ _ hn, if_pos (by have := H.range m hm n hn; omega)]

/-- The weights of the mean. -/
theorem mean_eq [IsStrictOrderedRing K] (H : PressureSetup pmesh quad sem) (w : ℕ → K) :
    nodeDot sem.numP (fun _ => 1) (sem.pressureB w) = integrate sem.pspace (scalarFn sem.pspace (pmesh.gather w)) := by
  have hr : pmesh.InRange := fun m hm n hn => Or.inr (H.range m hm n hn)
  have h := C39_mass pmesh quad sem.pspace H.points hr H.build w (fun _ => 1)
  have hm := H.mesh_eq
  unfold nodeDot StokesSEM.numP StokesSEM.pressureB
  rw [hm, h]
  apply integrate_congr
  intro m hm' q hq
  rw [gather_one H 1 m (by rw [← hm]; exact hm') q hq, mul_one]

theorem exchange_distinct (H : PressureSetup pmesh quad sem) (p : ℕ → K) (j : ℕ) (hj : j < pmesh.numNodes) :
    pmesh.exchange p j = p j := by
  rw [exchange_sum pmesh p j hj, Finset.sum_eq_single j]
  · rw [if_pos (SameNode.refl pmesh j)]
  · intro i hi hne
    rw [if_neg]
    rintro (h | h)
    · exact hne h.symm
    · exact hne (H.distinct j hj i (Finset.mem_range.mp hi) h.1).symm
  · intro h; exact absurd (Finset.mem_range.mpr hj) h

theorem integrate_scalar_congr [IsStrictOrderedRing K] (H : PressureSetup pmesh quad sem) (p q : ℕ → K)
    (h : ∀ j < pmesh.numNodes, p j = q j) :
    integrate sem.pspace (scalarFn sem.pspace (pmesh.gather p)) =
      integrate sem.pspace (scalarFn sem.pspace (pmesh.gather q)) := by
  have hwf := FESpace.build_wf H.build H.points
  have hmesh := H.mesh_eq
  apply integrate_congr
  intro m hm i hi
  rw [hmesh] at hm
  apply hwf.local_ _ _ _ i hi
  intro n hn
  rw [hmesh] at hn
  have hr := H.range m hm n hn
  rw [pmesh.gather_apply _ _ _ hn, pmesh.gather_apply _ _ _ hn, h]
  unfold readPos
  split <;> omega

/-- The projection subtracts the mean. -/
theorem C41_mean [IsStrictOrderedRing K] (H : PressureSetup pmesh quad sem) (p : ℕ → K) (j : ℕ) (hj : j < pmesh.numNodes) :
    sem.projectOut p j = p j - integrate sem.pspace (scalarFn sem.pspace (pmesh.gather p)) /
      integrate sem.pspace (fun _ _ => 1) := by
  unfold StokesSEM.projectOut
  simp only
  rw [mean_eq H, mean_eq H, H.mesh_eq, exchange_distinct H p j hj, mul_one]
  rw [integrate_scalar_congr H (pmesh.exchange p) p (fun j hj => exchange_distinct H p j hj)]
  congr 2
  apply integrate_congr
  intro m hm q hq
  exact gather_one H 1 m (by rw [← H.mesh_eq]; exact hm) q hq

/-- The projected pressure has zero mean. -/
theorem C41_zero_mean [IsStrictOrderedRing K] (H : PressureSetup pmesh quad sem) (p : ℕ → K) :
    integrate sem.pspace (scalarFn sem.pspace (pmesh.gather (sem.projectOut p))) = 0 := by
  have hwf := FESpace.build_wf H.build H.points
  set c := integrate sem.pspace (scalarFn sem.pspace (pmesh.gather p)) / integrate sem.pspace (fun _ _ => 1) with hc
  rw [integrate_scalar_congr H (sem.projectOut p) (p + (-c) • (fun _ => (1 : K))) (fun j hj => by
    rw [C41_mean H p j hj, ← hc]; simp [sub_eq_add_neg])]
  rw [Mesh.gather_add, Mesh.gather_smul]
  have h1 : ∀ m q, scalarFn sem.pspace (pmesh.gather p + (-c) • pmesh.gather (fun _ => (1 : K))) m q =
      scalarFn sem.pspace (pmesh.gather p) m q + (-c) * scalarFn sem.pspace (pmesh.gather (fun _ => (1 : K))) m q := by
    intro m q
    unfold scalarFn
    rw [Pi.add_apply, hwf.add, Pi.smul_apply, hwf.smul]
  rw [show scalarFn sem.pspace (pmesh.gather p + (-c) • pmesh.gather (fun _ => (1 : K))) = fun m q =>
    scalarFn sem.pspace (pmesh.gather p) m q + (-c) * scalarFn sem.pspace (pmesh.gather (fun _ => (1 : K))) m q from
    funext fun m => funext fun q => h1 m q]
  rw [integrate_add, integrate_mul]
  have h2 : integrate sem.pspace (fun m q => scalarFn sem.pspace (pmesh.gather (fun _ => (1 : K))) m q) =
      integrate sem.pspace (fun _ _ => 1) := by
    apply integrate_congr
    intro m hm q hq
    exact gather_one H 1 m (by rw [← H.mesh_eq]; exact hm) q hq
  rw [h2, hc, neg_mul, div_mul_cancel₀ _ H.volume]
  exact add_neg_cancel _

/-- Projecting twice is projecting once. -/
theorem C41_idempotent [IsStrictOrderedRing K] (H : PressureSetup pmesh quad sem) (p : ℕ → K) (j : ℕ)
    (hj : j < pmesh.numNodes) : sem.projectOut (sem.projectOut p) j = sem.projectOut p j := by
  rw [C41_mean H (sem.projectOut p) j hj, C41_zero_mean H, zero_div, sub_zero]

/-- As a preconditioner the projection acts like the identity on residuals of zero sum: `⟨r, M s⟩ = ⟨r, s⟩`. -/
theorem C41_inner [IsStrictOrderedRing K] (H : PressureSetup pmesh quad sem) (r s : ℕ → K)
    (hr : ∑ j ∈ Finset.range pmesh.numNodes, r j = 0) :
    ∑ j ∈ Finset.range pmesh.numNodes, r j * sem.projectOut s j = ∑ j ∈ Finset.range pmesh.numNodes, r j * s j := by
  have h1 : ∀ j ∈ Finset.range pmesh.numNodes, r j * sem.projectOut s j = r j * s j - r j *
      (integrate sem.pspace (scalarFn sem.pspace (pmesh.gather s)) / integrate sem.pspace (fun _ _ => 1)) := by
    intro j hj
    rw [C41_mean H s j (Finset.mem_range.mp hj)]
    ring
  rw [Finset.sum_congr rfl h1, Finset.sum_sub_distrib, ← Finset.sum_mul, hr, zero_mul, sub_zero]

theorem exPressure_check : (match interiorMask (K := ℚ) exSMasks exSBCs with
    | none => false
    | some mask => match StokesSEM.create exVMesh exPMesh exVQuad exVQuad mask with
      | none => false
      | some sem => decide (integrate sem.pspace (fun _ _ => 1) ≠ 0)) = true := by decide +kernel

/-- The assumptions hold for the example of C40. -/
example : ∃ sem, PressureSetup exPMesh exVQuad sem := by
  have h := exPressure_check
  revert h
  cases hmask : interiorMask (K := ℚ) exSMasks exSBCs with
  | none => intro h; exact absurd h (by simp)
  | some mask =>
    cases hc : StokesSEM.create exVMesh exPMesh exVQuad exVQuad mask with
    | none => simp only [hc]; intro h; exact absurd h (by simp)
    | some sem =>
      simp only [hc]
      intro h
      obtain ⟨_, hp, _⟩ := StokesSEM.create_fields hc
      refine ⟨sem, hp, by decide, ⟨-1, by norm_num, by decide +kernel⟩, ?_, ?_, ?_, of_decide_eq_true h⟩
      · change Function.Injective ![(-1/2 : ℚ), 1/2]
        intro a b; fin_cases a <;> fin_cases b <;> norm_num
      · intro m hm n hn
        have : n < 2 ^ 2 := hn
        simp only [exPMesh, exStokesMesh, exPGrid]
        omega
      · intro i _ j _ hij
        exact_mod_cast (show (i : ℤ) = (j : ℤ) from hij)

end Verif.NS
