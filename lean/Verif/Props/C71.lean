import Verif.Props.C42_C43
import Verif.Props.C41

/-!
# C71: the convection operator

`C71_weak`: tested with a velocity `v` that vanishes on the Dirichlet nodes, `C u` is the quadrature of `((u·∇)u)·v` with
the overintegration points, and `C u` is zero at Dirichlet nodes. `C71_affine`: for an affine velocity the integrand is
the exact `(u·∇)u` at the quadrature points, on curved elements too. `C71_constant`, `C71_quadratic`: a constant
velocity is not advected; `C` is homogeneous of degree two.
-/

set_option linter.unusedSectionVars false

namespace Verif.NS

open Verif.Core Verif.Linalg

variable {K : Type*} [Field K] [LinearOrder K] {d : ℕ}

variable {vmesh pmesh : Mesh K d} {quad overQuad : Quadrature1D K} {masks : List (String × (ℕ → Bool))}
  {bcs : List (String × BCType)} {sem : StokesSEM K d}

theorem vConvForm_linear (fs : FESpace K d) (hwf : fs.WF) (ul : ℕ → ℕ → Fin d → K) :
    LocalLinear fs.mesh.numElements fs.mesh.nodesPerElem (vConvForm fs ul) := by
  refine ⟨fun v w => ?_, fun a v => ?_, fun v w h => ?_⟩
  · unfold vConvForm
    rw [← integrate_add]
    congr 1
    funext m q
    rw [← Finset.sum_add_distrib]
    refine Finset.sum_congr rfl fun i _ => ?_
    rw [← Finset.sum_add_distrib]
    refine Finset.sum_congr rfl fun k _ => ?_
    have : vectorFn fs (v + w) m q k = vectorFn fs v m q k + vectorFn fs w m q k :=
      hwf.add (fun n => v m n k) (fun n => w m n k) q
    rw [this, mul_add]
  · unfold vConvForm
    rw [← integrate_mul]
    congr 1
    funext m q
    rw [Finset.mul_sum]
    refine Finset.sum_congr rfl fun i _ => ?_
    rw [Finset.mul_sum]
    refine Finset.sum_congr rfl fun k _ => ?_
    have : vectorFn fs (a • v) m q k = a * vectorFn fs v m q k := hwf.smul a (fun n => v m n k) q
    rw [this]
    ring
  · apply integrate_congr
    intro m hm q hq
    refine Finset.sum_congr rfl fun i _ => Finset.sum_congr rfl fun k _ => ?_
    have : vectorFn fs v m q k = vectorFn fs w m q k :=
      hwf.local_ _ _ (fun n hn => by simp only [h m hm n hn]) q hq
    rw [this]

/-- The space of the convection term. -/
theorem StokesSetup.over (H : StokesSetup vmesh pmesh quad overQuad masks bcs sem) :
    FESpace.create vmesh overQuad = some sem.overint ∧ sem.overint.mesh = vmesh := by
  obtain ⟨mask, _, hc⟩ := H.create
  have h : FESpace.create vmesh overQuad = some sem.overint := by
    unfold StokesSEM.create at hc
    split at hc
    · rename_i v o p h1 h2 h3
      rw [Option.some.injEq] at hc
      subst hc
      exact h2
    · cases hc
  exact ⟨h, FESpace.build_mesh (FESpace.create_build h).1⟩

theorem C_dot [IsStrictOrderedRing K] (H : StokesSetup vmesh pmesh quad overQuad masks bcs sem) (u v : Vel K d)
    (hv0 : ∀ j, DirichletNode masks bcs j → v j = 0) :
    ∑ j ∈ Finset.range vmesh.numNodes, ∑ k, v j k * sem.C u j k =
      vConvForm sem.overint (vGather vmesh u) (vGather vmesh v) := by
  obtain ⟨hover, hom⟩ := H.over
  obtain ⟨_, _, hvm, _, hmask, _, _⟩ := H.fields
  have hwf := FESpace.build_wf (FESpace.create_build hover).1 H.vpoints
  have hlin := vConvForm_linear sem.overint hwf (vGather vmesh u)
  rw [hom] at hlin
  rw [← vCovector vmesh H.vrange _ hlin v]
  refine Finset.sum_congr rfl fun j hj => Finset.sum_congr rfl fun k _ => ?_
  unfold StokesSEM.C StokesSEM.masked
  rw [hvm]
  by_cases hD : DirichletNode masks bcs j
  · rw [hv0 j hD]; simp
  · rw [(hmask j).2 hD, one_mul]

/-- The weak form of the convection term, and its values at Dirichlet nodes. -/
theorem C71_weak [IsStrictOrderedRing K] (H : StokesSetup vmesh pmesh quad overQuad masks bcs sem) (u : Vel K d) :
    (∀ v : Vel K d, (∀ j, DirichletNode masks bcs j → v j = 0) →
      ∑ j ∈ Finset.range vmesh.numNodes, ∑ k, v j k * sem.C u j k =
        integrate sem.overint (fun m q => ∑ k, (∑ i, vectorFn sem.overint (vGather vmesh u) m q i *
          vectorGrad sem.overint (vGather vmesh u) m q i k) * vectorFn sem.overint (vGather vmesh v) m q k)) ∧
    ∀ j, DirichletNode masks bcs j → sem.C u j = 0 := by
  constructor
  · intro v hv0
    rw [C_dot H u v hv0]
    unfold vConvForm
    congr 1
    funext m q
    rw [Finset.sum_comm]
    refine Finset.sum_congr rfl fun k _ => ?_
    rw [Finset.sum_mul]
  · intro j hD
    obtain ⟨_, _, _, _, hmask, _, _⟩ := H.fields
    funext k
    unfold StokesSEM.C StokesSEM.masked
    rw [(hmask j).1 hD, zero_mul]
    rfl

/-- An affine field on a mesh without padding, at the points of any space on it. -/
theorem affine_values [IsStrictOrderedRing K] {mesh : Mesh K d} {q1 : Quadrature1D K} {fs : FESpace K d}
    (h : FESpace.create mesh q1 = some fs) (hn : 0 < mesh.grid.numPoints)
    (hw : TrueWeights mesh.grid.bary mesh.grid.value) (hi : Function.Injective mesh.grid.value)
    (hpos : ∀ m < mesh.numElements, ∀ n < mesh.nodesPerElem, mesh.elements m n ≠ -1)
    (a : Fin d → Fin d → K) (c : Fin d → K) (m : ℕ) (hm : m < mesh.numElements) (q : ℕ) (hq : q < fs.numQuad) (k : Fin d) :
    vectorFn fs (vGather mesh (fun p k => ∑ j, a j k * mesh.coords p j + c k)) m q k =
        ∑ j, a j k * fs.quadCoords m q j + c k ∧
      ∀ j, vectorGrad fs (vGather mesh (fun p k => ∑ j, a j k * mesh.coords p j + c k)) m q j k = a j k := by
  obtain ⟨hb, hreg⟩ := FESpace.create_build h
  have hwf := FESpace.build_wf hb hn
  have hmesh := FESpace.build_mesh hb
  have hnq := FESpace.build_numQuad hb
  have hg : ∀ n < mesh.nodesPerElem, ∀ k, vGather mesh (fun p k => ∑ j, a j k * mesh.coords p j + c k) m n k =
      ∑ j, a j k * mesh.elementCoords m n j + c k := by
    intro n hn' k
    unfold vGather Mesh.elementCoords
    simp only [mesh.gather_apply _ _ _ hn', if_pos (hpos m hm n hn')]
  constructor
  · have hsum : ∀ (s : Finset (Fin d)), fs.interpolate (fun n => ∑ j ∈ s, a j k * mesh.elementCoords m n j) q =
        ∑ j ∈ s, a j k * fs.quadCoords m q j := by
      intro s
      induction s using Finset.induction_on with
      | empty =>
        have h0 := hwf.smul 0 (fun _ => (0 : K)) q
        simp only [Finset.sum_empty]
        have e : ((0 : K) • fun _ : ℕ => (0 : K)) = fun _ => 0 := by funext n; simp
        rw [e, zero_mul] at h0
        exact h0
      | insert j s hj ih =>
        simp only [Finset.sum_insert hj]
        have e : (fun n => a j k * mesh.elementCoords m n j + ∑ x ∈ s, a x k * mesh.elementCoords m n x) =
            (a j k • fun n => mesh.elementCoords m n j) + fun n => ∑ x ∈ s, a x k * mesh.elementCoords m n x := by
          funext n; simp
        rw [e, hwf.add, hwf.smul, ih, hwf.coords, hmesh]
    unfold vectorFn
    have e1 : fs.interpolate (fun n => vGather mesh (fun p k => ∑ j, a j k * mesh.coords p j + c k) m n k) q =
        fs.interpolate ((fun n => ∑ j, a j k * mesh.elementCoords m n j) + fun _ => c k) q := by
      apply hwf.local_ _ _ _ q hq
      intro n hn'
      rw [hmesh] at hn'
      rw [hg n hn' k]
      rfl
    rw [e1, hwf.add, hsum Finset.univ, interpolate_const hb hn hw hi (fun _ => c k) (c k) (fun _ _ => rfl) q hq]
  · intro j
    refine (C38_vector mesh q1 fs hn h a c _ (fun m' hm' n' hn' k' => ?_) m hm q (by rw [← hnq]; exact hq)).1 j k
    unfold vGather Mesh.elementCoords
    simp only [mesh.gather_apply _ _ _ hn', if_pos (hpos m' hm' n' hn')]

/-- For the affine velocity `u_k(x) = Σ_j a_jk x_j + c_k` the integrand is `(u·∇)u` evaluated exactly. -/
theorem C71_affine [IsStrictOrderedRing K] (H : StokesSetup vmesh pmesh quad overQuad masks bcs sem)
    (hpos : ∀ m < vmesh.numElements, ∀ n < vmesh.nodesPerElem, vmesh.elements m n ≠ -1)
    (a : Fin d → Fin d → K) (c : Fin d → K) (v : Vel K d) (hv0 : ∀ j, DirichletNode masks bcs j → v j = 0) :
    let w : (Fin d → K) → Fin d → K := fun x k => ∑ j, a j k * x j + c k
    ∑ j ∈ Finset.range vmesh.numNodes, ∑ k, v j k * sem.C (fun p => w (vmesh.coords p)) j k =
      integrate sem.overint (fun m q => ∑ k, (∑ i, w (sem.overint.quadCoords m q) i * a i k) *
        vectorFn sem.overint (vGather vmesh v) m q k) := by
  intro w
  obtain ⟨hover, hom⟩ := H.over
  rw [(C71_weak H _).1 v hv0]
  apply integrate_congr
  intro m hm q hq
  rw [hom] at hm
  refine Finset.sum_congr rfl fun k _ => ?_
  congr 1
  refine Finset.sum_congr rfl fun i _ => ?_
  have h1 := affine_values hover H.vpoints H.vweights H.vnodes hpos a c m hm q hq
  have e1 := (h1 i).1
  have e2 := (h1 k).2 i
  exact congrArg₂ (· * ·) e1 e2

/-- A constant velocity is not advected. -/
theorem C71_constant [IsStrictOrderedRing K] (H : StokesSetup vmesh pmesh quad overQuad masks bcs sem)
    (hpos : ∀ m < vmesh.numElements, ∀ n < vmesh.nodesPerElem, vmesh.elements m n ≠ -1) (c : Fin d → K) :
    sem.C (fun _ => c) = 0 := by
  obtain ⟨hover, hom⟩ := H.over
  obtain ⟨_, _, hvm, _, hmask, _, _⟩ := H.fields
  have hz : ∀ vl, vConvForm sem.overint (vGather vmesh (fun _ => c)) vl = 0 := by
    intro vl
    unfold vConvForm integrate
    refine Finset.sum_eq_zero fun m hm => Finset.sum_eq_zero fun q hq => ?_
    rw [Finset.mem_range, hom] at hm
    rw [Finset.mem_range] at hq
    have h1 : ∀ i k, vectorGrad sem.overint (vGather vmesh (fun _ => c)) m q i k = 0 := by
      intro i k
      have := (affine_values hover H.vpoints H.vweights H.vnodes hpos (fun _ _ => 0) c m hm q hq k).2 i
      simpa using this
    beta_reduce
    rw [Finset.sum_eq_zero, zero_mul, zero_mul]
    intro i _
    refine Finset.sum_eq_zero fun k _ => ?_
    rw [h1, mul_zero, zero_mul]
  funext p k
  unfold StokesSEM.C StokesSEM.masked vScatter vectorCovector
  rw [hvm]
  have : (fun m n => vConvForm sem.overint (vGather vmesh (fun _ => c))
      (fun m' n' k' => if k' = k then unitLocal m n m' n' else 0)) = fun _ _ => (0 : K) := by
    funext m n; exact hz _
  rw [this, vmesh.scatter_apply]
  simp

/-- `C` is homogeneous of degree two. -/
theorem C71_quadratic [IsStrictOrderedRing K] (H : StokesSetup vmesh pmesh quad overQuad masks bcs sem) (s : K)
    (u : Vel K d) : sem.C (s • u) = (s ^ 2) • sem.C u := by
  obtain ⟨hover, hom⟩ := H.over
  obtain ⟨_, _, hvm, _, _, _, _⟩ := H.fields
  have hwf := FESpace.build_wf (FESpace.create_build hover).1 H.vpoints
  have hz : ∀ vl, vConvForm sem.overint (vGather vmesh (s • u)) vl = s ^ 2 * vConvForm sem.overint (vGather vmesh u) vl := by
    intro vl
    unfold vConvForm
    rw [← integrate_mul]
    congr 1
    funext m q
    rw [Finset.mul_sum]
    refine Finset.sum_congr rfl fun i _ => ?_
    rw [Finset.mul_sum]
    refine Finset.sum_congr rfl fun k _ => ?_
    rw [vGather_smul]
    have e1 : vectorFn sem.overint (s • vGather vmesh u) m q i = s * vectorFn sem.overint (vGather vmesh u) m q i :=
      hwf.smul s (fun n => vGather vmesh u m n i) q
    have e2 : vectorGrad sem.overint (s • vGather vmesh u) m q i k = s * vectorGrad sem.overint (vGather vmesh u) m q i k :=
      scalarGrad_smul sem.overint s (fun m n => vGather vmesh u m n k) m q i
    rw [e1, e2]
    ring
  funext p k
  have hs : vScatter vmesh (vectorCovector (vConvForm sem.overint (vGather vmesh (s • u)))) =
      (s ^ 2) • vScatter vmesh (vectorCovector (vConvForm sem.overint (vGather vmesh u))) := by
    rw [← vScatter_smul]
    congr 1
    funext m n k'
    exact hz _
  unfold StokesSEM.C StokesSEM.masked
  rw [hvm, hs]
  simp only [Pi.smul_apply, smul_eq_mul]
  ring

/-- The hypotheses hold for the curved element of C40. -/
example : ∃ sem, StokesSetup exVMesh exPMesh exVQuad exVQuad exSMasks exSBCs sem ∧
    (∀ m < exVMesh.numElements, ∀ n < exVMesh.nodesPerElem, exVMesh.elements m n ≠ -1) := by
  obtain ⟨sem, h⟩ := exStokes_setup
  refine ⟨sem, h, ?_⟩
  decide +kernel

end Verif.NS
