import Verif.Lemmas.Stokes

/-! The Stokes operators as linear maps, adjointness and definiteness under assumptions on the fields of `StokesSEM`. -/

set_option linter.unusedSectionVars false

namespace Verif.NS

open Verif.Core Verif.Linalg

variable {K : Type*} [Field K] [LinearOrder K] {d : ℕ}

/-- What the proofs use of the two spaces and the mask. -/
structure StokesSEM.Valid (sem : StokesSEM K d) : Prop where
  vwf : sem.vspace.WF
  pwf : sem.pspace.WF
  vrange : sem.vspace.mesh.InRange
  prange : sem.pspace.mesh.InRange
  elements : sem.pspace.mesh.numElements = sem.vspace.mesh.numElements
  numQuad : sem.pspace.numQuad = sem.vspace.numQuad
  weights : sem.pspace.weights = sem.vspace.weights
  jac : ∀ m < sem.vspace.mesh.numElements, ∀ q < sem.vspace.numQuad, sem.pspace.jacdets m q = sem.vspace.jacdets m q
  mask01 : ∀ j < sem.numV, sem.mask j = 0 ∨ sem.mask j = 1
  maskCont : Continuous sem.vspace.mesh sem.mask
  massPos : ∀ j < sem.numV, ∀ k, 0 < vExchange sem.vspace.mesh sem.massDiag j k

/-- `u` vanishes where the mask does. -/
def StokesSEM.Masked (sem : StokesSEM K d) (u : Vel K d) : Prop := ∀ j < sem.numV, sem.mask j = 0 → ∀ k, u j k = 0

variable {sem : StokesSEM K d}

theorem StokesSEM.Masked.mul (hv : sem.Valid) {u : Vel K d} (hu : sem.Masked u) (j : ℕ) (hj : j < sem.numV) (k : Fin d) :
    sem.mask j * u j k = u j k := by
  rcases hv.mask01 j hj with h | h
  · rw [hu j hj h k, mul_zero]
  · rw [h, one_mul]

theorem integrate_same (hv : sem.Valid) (a : QFun K) : integrate sem.pspace a = integrate sem.vspace a := by
  unfold integrate
  rw [hv.elements, hv.numQuad, hv.weights]
  refine Finset.sum_congr rfl fun m hm => Finset.sum_congr rfl fun q hq => ?_
  rw [hv.jac m (Finset.mem_range.mp hm) q (Finset.mem_range.mp hq)]

/-! ### divergence and gradient -/

theorem pForm_linear (hwf : sem.pspace.WF) (c : QFun K) :
    LocalLinear sem.pspace.mesh.numElements sem.pspace.mesh.nodesPerElem
      (fun ql => integrate sem.pspace (fun m q => c m q * scalarFn sem.pspace ql m q)) := by
  have := C39_forms sem.pspace hwf c (fun _ _ _ => 0)
  simp only [zero_mul, Finset.sum_const_zero, add_zero] at this
  exact this

/-- `⟨D u, p⟩ = ∫ div u · p`, with the integral of the pressure space. -/
theorem D_dot (hwf : sem.pspace.WF) (hr : sem.pspace.mesh.InRange) (u : Vel K d) (p : ℕ → K) :
    nodeDot sem.numP p (sem.D u) = integrate sem.pspace (fun m q =>
      divFn sem.vspace (vGather sem.vspace.mesh u) m q * scalarFn sem.pspace (sem.pspace.mesh.gather p) m q) :=
  C39_covector sem.pspace.mesh hr _ (pForm_linear hwf _) p

/-- `⟨u, Dt p⟩ = ∫ div u · p` for masked `u`, with the integral of the velocity space. -/
theorem Dt_dot (hv : sem.Valid) (u : Vel K d) (hu : sem.Masked u) (p : ℕ → K) :
    sem.vDot u (sem.Dt p) = integrate sem.vspace (fun m q =>
      divFn sem.vspace (vGather sem.vspace.mesh u) m q * scalarFn sem.pspace (sem.pspace.mesh.gather p) m q) := by
  have h := vCovector sem.vspace.mesh hv.vrange _ (divForm_linear sem.vspace hv.vwf
    (fun m q => scalarFn sem.pspace (sem.pspace.mesh.gather p) m q)) u
  rw [← h]
  unfold StokesSEM.vDot
  refine Finset.sum_congr rfl fun j hj => Finset.sum_congr rfl fun k _ => ?_
  conv_rhs => rw [← StokesSEM.Masked.mul hv hu j (Finset.mem_range.mp hj) k]
  unfold StokesSEM.Dt StokesSEM.masked
  ring

theorem D_Dt_adjoint (hv : sem.Valid) (u : Vel K d) (hu : sem.Masked u) (p : ℕ → K) :
    nodeDot sem.numP p (sem.D u) = sem.vDot u (sem.Dt p) := by
  rw [D_dot hv.pwf hv.prange, Dt_dot hv u hu, integrate_same hv]

theorem vDot_comm (u v : Vel K d) : sem.vDot u v = sem.vDot v u := by
  unfold StokesSEM.vDot
  exact Finset.sum_congr rfl fun j _ => Finset.sum_congr rfl fun k _ => mul_comm _ _

theorem Dt_masked (p : ℕ → K) : sem.Masked (sem.Dt p) := by
  intro j _ h k
  simp [StokesSEM.Dt, StokesSEM.masked, h]

theorem vExchange_masked (hv : sem.Valid) (u : Vel K d) (hu : sem.Masked u) : sem.Masked (vExchange sem.vspace.mesh u) := by
  intro j hj h k
  unfold vExchange
  rw [exchange_sum _ _ _ hj]
  refine Finset.sum_eq_zero fun i hi => ?_
  split
  · rename_i h1
    exact hu i (Finset.mem_range.mp hi) (by rw [← hv.maskCont j hj i (Finset.mem_range.mp hi) h1]; exact h) k
  · rfl

theorem Q_masked (hv : sem.Valid) (dt beta : K) (u : Vel K d) (hu : sem.Masked u) : sem.Masked (sem.Q dt beta u) := by
  intro j hj h k
  simp [StokesSEM.Q, StokesSEM.Bi, vExchange_masked hv u hu j hj h k]

theorem massInv_cont (k : Fin d) :
    Continuous sem.vspace.mesh (fun j => 1 / vExchange sem.vspace.mesh sem.massDiag j k) := by
  intro i hi j hj h
  simp only [vExchange]
  rw [exchange_same sem.vspace.mesh _ hi hj h]

theorem vDot_Q (dt beta : K) (u v : Vel K d) :
    sem.vDot (sem.Q dt beta u) v = (dt / beta) * ∑ k, ∑ j ∈ Finset.range sem.numV,
      1 / vExchange sem.vspace.mesh sem.massDiag j k * sem.vspace.mesh.exchange (fun p => u p k) j * v j k := by
  unfold StokesSEM.vDot StokesSEM.Q StokesSEM.Bi
  rw [Finset.sum_comm, Finset.mul_sum]
  refine Finset.sum_congr rfl fun k _ => ?_
  rw [Finset.mul_sum]
  refine Finset.sum_congr rfl fun j _ => ?_
  simp only [vExchange]
  ring

theorem Q_symm (dt beta : K) (u v : Vel K d) : sem.vDot (sem.Q dt beta u) v = sem.vDot (sem.Q dt beta v) u := by
  rw [vDot_Q, vDot_Q]
  congr 1
  exact Finset.sum_congr rfl fun k _ =>
    exchange_weighted_symm sem.vspace.mesh _ (fun p => u p k) (fun p => v p k) (massInv_cont k)

theorem Q_psd [IsStrictOrderedRing K] (hv : sem.Valid) (dt beta : K) (h : 0 ≤ dt / beta) (u : Vel K d) :
    0 ≤ sem.vDot (sem.Q dt beta u) u := by
  rw [vDot_Q]
  refine mul_nonneg h (Finset.sum_nonneg fun k _ => ?_)
  exact exchange_psd sem.vspace.mesh _ (fun p => u p k) (massInv_cont k)
    (fun i hi => one_div_nonneg.mpr (hv.massPos i hi k).le)

theorem E_dot (hv : sem.Valid) (dt beta : K) (p q : ℕ → K) :
    nodeDot sem.numP q (sem.E dt beta p) = sem.vDot (sem.Q dt beta (sem.Dt p)) (sem.Dt q) := by
  unfold StokesSEM.E
  rw [D_Dt_adjoint hv _ (Q_masked hv dt beta _ (Dt_masked p))]

theorem E_symm (hv : sem.Valid) (dt beta : K) (p q : ℕ → K) :
    nodeDot sem.numP q (sem.E dt beta p) = nodeDot sem.numP p (sem.E dt beta q) := by
  rw [E_dot hv, E_dot hv, Q_symm]

theorem E_psd [IsStrictOrderedRing K] (hv : sem.Valid) (dt beta : K) (h : 0 ≤ dt / beta) (p : ℕ → K) :
    0 ≤ nodeDot sem.numP p (sem.E dt beta p) := by
  rw [E_dot hv]
  exact Q_psd hv dt beta h _

/-! ### what `create` gives -/

theorem StokesSEM.create_fields {vmesh pmesh : Mesh K d} {quad overQuad : Quadrature1D K} {mask : ℕ → K}
    (h : StokesSEM.create vmesh pmesh quad overQuad mask = some sem) :
    FESpace.create vmesh quad = some sem.vspace ∧ FESpace.build pmesh quad = some sem.pspace ∧
      FESpace.create vmesh overQuad = some sem.overint ∧
      sem.mask = mask ∧ sem.diagQqt = vmesh.scatter (fun _ _ => 1) ∧
      sem.massDiag = vScatter vmesh (vectorCovector (vMassForm sem.vspace (fun _ _ _ => 1))) := by
  unfold StokesSEM.create at h
  split at h
  · rename_i v o p hv ho hp
    simp only [Option.some.injEq] at h
    subst h
    exact ⟨hv, hp, ho, rfl, rfl, rfl⟩
  · exact absurd h (by simp)

/-- The element maps of a mesh are polynomials sampled at its grid points. -/
def SamplesMaps (mesh : Mesh K d) (φ : ℕ → Fin d → MvPolynomial (Fin d) K) : Prop :=
  ∀ m < mesh.numElements, ∀ j, (∀ k, (φ m j).degreeOf k < mesh.grid.numPoints) ∧
    ∀ n < mesh.nodesPerElem, mesh.elementCoords m n j = MvPolynomial.eval (gridPoint d mesh.grid.value n) (φ m j)

/-- The Jacobian matrix of such a mesh holds the derivatives of the maps. -/
theorem jacobian_maps [IsStrictOrderedRing K] {mesh : Mesh K d} {quad : Quadrature1D K} {fs : FESpace K d} (h : FESpace.build mesh quad = some fs)
    (hn : 0 < mesh.grid.numPoints) (hw : TrueWeights mesh.grid.bary mesh.grid.value)
    (hinj : Function.Injective mesh.grid.value) (φ : ℕ → Fin d → MvPolynomial (Fin d) K) (hφ : SamplesMaps mesh φ)
    (m : ℕ) (hm : m < mesh.numElements) (q : ℕ) (hq : q < fs.numQuad) (i j : Fin d) :
    jacobian fs.mesh fs.gradMat m q i j =
      MvPolynomial.eval (gridPoint d quad.nodes.value q) (MvPolynomial.pderiv i (φ m j)) := by
  obtain ⟨M1, A, W, hM1, hA, hW, hd, hmesh, hnq, _, hint, hG, _, _, _⟩ := FESpace.build_fields h
  have hwf := FESpace.build_wf h hn
  have hq0 : 0 < quad.nodes.numPoints := by
    rcases Nat.eq_zero_or_pos quad.nodes.numPoints with h0 | h0
    · rw [hnq, h0, zero_pow hd] at hq; omega
    · exact h0
  obtain ⟨M, B, hM, hB, hgrad⟩ := C34_gradients (q := quad.nodes.numPoints) (d := d) hq0 hn mesh.grid.bary
    mesh.grid.value hw hinj quad.nodes.value i
  rw [hM1, Option.some.injEq] at hM
  subst hM
  rw [hG i, Option.some.injEq] at hB
  subst hB
  obtain ⟨hdeg, hval⟩ := hφ m hm j
  rw [← hgrad (φ m j) hdeg q (by rw [← hnq]; exact hq)]
  unfold jacobian NMat.apply
  rw [hwf.cols i]
  simp only [Matrix.of_apply]
  refine Finset.sum_congr rfl fun n hn' => ?_
  rw [mul_comm]
  congr 1
  rw [hmesh] at hn' ⊢
  exact hval n (Finset.mem_range.mp hn')

/-- Two meshes that sample the same element maps have the same Jacobian determinants at common quadrature points. -/
theorem jacdets_same [IsStrictOrderedRing K] {vmesh pmesh : Mesh K d} {quad : Quadrature1D K} {vs ps : FESpace K d}
    (hv : FESpace.build vmesh quad = some vs) (hp : FESpace.build pmesh quad = some ps)
    (hvn : 0 < vmesh.grid.numPoints) (hpn : 0 < pmesh.grid.numPoints)
    (hvw : TrueWeights vmesh.grid.bary vmesh.grid.value) (hpw : TrueWeights pmesh.grid.bary pmesh.grid.value)
    (hvi : Function.Injective vmesh.grid.value) (hpi : Function.Injective pmesh.grid.value)
    (hM : pmesh.numElements = vmesh.numElements) (φ : ℕ → Fin d → MvPolynomial (Fin d) K)
    (hφv : SamplesMaps vmesh φ) (hφp : SamplesMaps pmesh φ) (m : ℕ) (hm : m < vmesh.numElements) (q : ℕ)
    (hq : q < vs.numQuad) : ps.jacdets m q = vs.jacdets m q := by
  have hnq : ps.numQuad = vs.numQuad := by rw [FESpace.build_numQuad hv, FESpace.build_numQuad hp]
  rw [(FESpace.build_wf hv hvn).det, (FESpace.build_wf hp hpn).det]
  congr 1
  ext i j
  rw [jacobian_maps hv hvn hvw hvi φ hφv m hm q hq, jacobian_maps hp hpn hpw hpi φ hφp m (by rw [hM]; exact hm) q
    (by rw [hnq]; exact hq)]

end Verif.NS
