import Verif.Lemmas.StokesOps

/-!
# C40: the divergence and its transpose are adjoint, the pressure operator is symmetric positive semidefinite

`StokesSetup` lists what `StokesSEM.create` is given: two meshes of the same elements (velocity on the quadrature points,
pressure on its own points), positive Jacobians and weights, Dirichlet groups closed under copies.
-/

set_option linter.unusedSectionVars false

namespace Verif.NS

open Verif.Core Verif.Linalg

variable {K : Type*} [Field K] [LinearOrder K] {d : ℕ}

/-- The situation in which the Stokes operators are created. -/
structure StokesSetup (vmesh pmesh : Mesh K d) (quad overQuad : Quadrature1D K) (masks : List (String × (ℕ → Bool)))
    (bcs : List (String × BCType)) (sem : StokesSEM K d) : Prop where
  /-- The interior mask is the one of `dirichlet_bc` and the spaces could be created. -/
  create : ∃ mask, interiorMask masks bcs = some mask ∧ StokesSEM.create vmesh pmesh quad overQuad mask = some sem
  vrange : vmesh.InRange
  prange : pmesh.InRange
  vpoints : 0 < vmesh.grid.numPoints
  ppoints : 0 < pmesh.grid.numPoints
  /-- The velocity lives on the quadrature points. -/
  collocated : vmesh.grid.same quad.nodes
  vweights : TrueWeights vmesh.grid.bary vmesh.grid.value
  pweights : TrueWeights pmesh.grid.bary pmesh.grid.value
  vnodes : Function.Injective vmesh.grid.value
  pnodes : Function.Injective pmesh.grid.value
  elements : pmesh.numElements = vmesh.numElements
  /-- Both meshes sample the same polynomial element maps, whose degree both can represent. -/
  maps : ∃ φ, SamplesMaps vmesh φ ∧ SamplesMaps pmesh φ
  quadWeights : ∀ q < sem.vspace.numQuad, 0 < sem.vspace.weights.getD q 0
  jacobians : ∀ m < vmesh.numElements, ∀ q < sem.vspace.numQuad, 0 < sem.vspace.jacdets m q
  /-- Every velocity node belongs to an element. -/
  covered : ∀ j < vmesh.numNodes, ∃ m < vmesh.numElements, ∃ n < vmesh.nodesPerElem, vmesh.elements m n = j
  /-- Copies of a Dirichlet node are Dirichlet nodes. -/
  copies : ∀ i < vmesh.numNodes, ∀ j < vmesh.numNodes, SameNode vmesh i j → DirichletNode masks bcs i →
    DirichletNode masks bcs j

section

variable {vmesh pmesh : Mesh K d} {quad overQuad : Quadrature1D K} {masks : List (String × (ℕ → Bool))}
  {bcs : List (String × BCType)} {sem : StokesSEM K d}

theorem maskOf_nat (j : ℕ) : (maskOf (j : ℤ) : K) = 1 := by
  unfold maskOf
  rw [if_pos (by unfold sentinel; omega)]

theorem writePos_nat {N j : ℕ} (h : j < N) : writePos N (j : ℤ) = some j := by
  unfold writePos
  have h0 : ¬ ((j : ℤ) < 0) := by omega
  simp only [if_neg h0]
  rw [if_pos (by omega)]
  simp

/-- An entry of the local mass diagonal. -/
theorem massCovector (fs : FESpace K d) (hid : ∀ x q, fs.interpolate x q = x q)
    (hq : fs.numQuad = fs.mesh.nodesPerElem) (m n : ℕ) (hm : m < fs.mesh.numElements) (hn : n < fs.mesh.nodesPerElem)
    (ul : ℕ → ℕ → Fin d → K) (k : Fin d) :
    vectorCovector (vMassForm fs ul) m n k = ul m n k * fs.jacdets m n * fs.weights.getD n 0 := by
  unfold vectorCovector vMassForm integrate
  have hkey : ∀ m' q, (∑ k', vectorFn fs ul m' q k' *
      vectorFn fs (fun m' n' k' => if k' = k then unitLocal m n m' n' else 0) m' q k') =
      if m' = m ∧ q = n then ul m' q k else 0 := by
    intro m' q
    simp only [vectorFn, hid]
    rw [Finset.sum_eq_single k]
    · simp [unitLocal]
    · intro b _ hb; simp [hb]
    · intro h; exact absurd (Finset.mem_univ k) h
  simp only [hkey]
  rw [Finset.sum_eq_single m, Finset.sum_eq_single n]
  · simp
  · intro q _ hne; simp [hne]
  · intro h; exact absurd (Finset.mem_range.mpr (by rw [hq]; exact hn)) h
  · intro m' _ hne
    exact Finset.sum_eq_zero fun q _ => by simp [hne]
  · intro h; exact absurd (Finset.mem_range.mpr hm) h

theorem StokesSetup.fields (H : StokesSetup vmesh pmesh quad overQuad masks bcs sem) :
    FESpace.build vmesh quad = some sem.vspace ∧ FESpace.build pmesh quad = some sem.pspace ∧
      sem.vspace.mesh = vmesh ∧ sem.pspace.mesh = pmesh ∧
      (∀ j, (DirichletNode masks bcs j → sem.mask j = 0) ∧ (¬ DirichletNode masks bcs j → sem.mask j = 1)) ∧
      (∀ x q, sem.vspace.interpolate x q = x q) ∧ sem.vspace.numQuad = vmesh.nodesPerElem := by
  obtain ⟨mask, hmask, hc⟩ := H.create
  obtain ⟨hv, hp, _, hm, _, _⟩ := StokesSEM.create_fields hc
  obtain ⟨hvb, _⟩ := FESpace.create_build hv
  refine ⟨hvb, hp, FESpace.build_mesh hvb, FESpace.build_mesh hp, ?_, ?_, ?_⟩
  · intro j
    rw [hm]
    exact interiorMask_spec hmask j
  · obtain ⟨_, _, _, _, _, _, _, _, _, _, hint, _⟩ := FESpace.build_fields hvb
    intro x q
    rw [hint, if_pos H.collocated]
  · rw [FESpace.build_numQuad hvb, Mesh.nodesPerElem, H.collocated.2.2]

/-- The assembled mass diagonal is positive at every node. -/
theorem StokesSetup.massPos [IsStrictOrderedRing K] (H : StokesSetup vmesh pmesh quad overQuad masks bcs sem) (j : ℕ)
    (hj : j < vmesh.numNodes) (k : Fin d) : 0 < sem.massDiag j k := by
  obtain ⟨mask, hmask, hc⟩ := H.create
  obtain ⟨hv, hp, _, _, _, hmd⟩ := StokesSEM.create_fields hc
  obtain ⟨_, _, hvm, _, _, hid, hnq⟩ := H.fields
  have hcov : ∀ m < vmesh.numElements, ∀ n < vmesh.nodesPerElem,
      0 < vectorCovector (vMassForm sem.vspace (fun _ _ _ => 1)) m n k := by
    intro m hm n hn
    rw [massCovector sem.vspace hid (by rw [hvm]; exact hnq) m n (by rw [hvm]; exact hm) (by rw [hvm]; exact hn)]
    rw [one_mul]
    exact mul_pos (H.jacobians m hm n (by rw [hnq]; exact hn)) (H.quadWeights n (by rw [hnq]; exact hn))
  rw [hmd]
  unfold vScatter
  rw [vmesh.scatter_apply]
  have hnn : ∀ m ∈ Finset.range vmesh.numElements, ∀ n ∈ Finset.range vmesh.nodesPerElem,
      0 ≤ if writePos vmesh.numNodes (vmesh.elements m n) = some j then
        maskOf (vmesh.elements m n) * vectorCovector (vMassForm sem.vspace (fun _ _ _ => 1)) m n k else 0 := by
    intro m hm n hn
    split
    · refine mul_nonneg ?_ (hcov m (Finset.mem_range.mp hm) n (Finset.mem_range.mp hn)).le
      unfold maskOf; split <;> simp
    · exact le_rfl
  obtain ⟨m, hm, n, hn, he⟩ := H.covered j hj
  refine Finset.sum_pos' (fun m hm => Finset.sum_nonneg (hnn m hm)) ⟨m, Finset.mem_range.mpr hm, ?_⟩
  refine Finset.sum_pos' (hnn m (Finset.mem_range.mpr hm)) ⟨n, Finset.mem_range.mpr hn, ?_⟩
  rw [he, if_pos (writePos_nat hj), maskOf_nat, one_mul]
  exact hcov m hm n hn

theorem StokesSetup.valid [IsStrictOrderedRing K] (H : StokesSetup vmesh pmesh quad overQuad masks bcs sem) :
    sem.Valid := by
  obtain ⟨hvb, hpb, hvm, hpm, hmask, hid, hnq⟩ := H.fields
  obtain ⟨φ, hφv, hφp⟩ := H.maps
  have hmp := fun j hj k => H.massPos j hj k
  subst hvm
  subst hpm
  refine ⟨FESpace.build_wf hvb H.vpoints, FESpace.build_wf hpb H.ppoints, H.vrange, H.prange, H.elements, ?_, ?_, ?_, ?_, ?_,
    ?_⟩
  · rw [FESpace.build_numQuad hvb, FESpace.build_numQuad hpb]
  · obtain ⟨_, _, _, _, _, hW, _, _, _, hw, _⟩ := FESpace.build_fields hvb
    obtain ⟨_, _, _, _, _, hW', _, _, _, hw', _⟩ := FESpace.build_fields hpb
    rw [hw, hw']
    rw [hW] at hW'
    exact (Option.some.inj hW').symm
  · intro m hm q hq
    exact jacdets_same hvb hpb H.vpoints H.ppoints H.vweights H.pweights H.vnodes H.pnodes H.elements φ hφv hφp m hm q hq
  · intro j _
    by_cases h : DirichletNode masks bcs j
    · exact Or.inl ((hmask j).1 h)
    · exact Or.inr ((hmask j).2 h)
  · intro i hi j hj h
    by_cases hD : DirichletNode masks bcs i
    · rw [(hmask i).1 hD, (hmask j).1 (H.copies i hi j hj h hD)]
    · rw [(hmask i).2 hD, (hmask j).2 (fun h1 => hD (H.copies j hj i hi h.symm h1))]
  · intro j hj k
    unfold vExchange
    rw [exchange_sum _ _ j hj]
    refine Finset.sum_pos' (fun i hi => ?_) ⟨j, Finset.mem_range.mpr hj, ?_⟩
    · split
      · exact (hmp i (Finset.mem_range.mp hi) k).le
      · exact le_rfl
    · rw [if_pos (SameNode.refl _ j)]
      exact hmp j hj k

/-- `⟨D u, p⟩ = ⟨u, Dt p⟩` for every velocity that vanishes on the Dirichlet nodes and every pressure. Both are
`∫ p div u`. -/
theorem C40_adjoint_partial [IsStrictOrderedRing K] (H : StokesSetup vmesh pmesh quad overQuad masks bcs sem) (u : Vel K d)
    (hu : ∀ j < vmesh.numNodes, DirichletNode masks bcs j → ∀ k, u j k = 0) (p : ℕ → K) :
    ∑ j ∈ Finset.range pmesh.numNodes, sem.D u j * p j =
        ∑ j ∈ Finset.range vmesh.numNodes, ∑ k, u j k * sem.Dt p j k ∧
    ∑ j ∈ Finset.range vmesh.numNodes, ∑ k, u j k * sem.Dt p j k =
        integrate sem.vspace (fun m q => divFn sem.vspace (vGather vmesh u) m q *
          scalarFn sem.pspace (pmesh.gather p) m q) := by
  have hv := H.valid
  obtain ⟨_, _, hvm, hpm, hmask, _, _⟩ := H.fields
  have hM : sem.Masked u := by
    intro j hj h k
    refine hu j (by rw [← hvm]; exact hj) ?_ k
    by_contra hD
    rw [(hmask j).2 hD] at h
    exact one_ne_zero h
  have h1 := D_Dt_adjoint hv u hM p
  have h2 := Dt_dot hv u hM p
  subst hvm
  subst hpm
  refine ⟨?_, h2⟩
  rw [← show sem.vDot u (sem.Dt p) = ∑ j ∈ Finset.range sem.vspace.mesh.numNodes, ∑ k, u j k * sem.Dt p j k from rfl, ← h1]
  exact Finset.sum_congr rfl fun j _ => mul_comm _ _

/-- The pressure operator is symmetric. -/
theorem C40_symmetric [IsStrictOrderedRing K] (H : StokesSetup vmesh pmesh quad overQuad masks bcs sem) (dt beta : K)
    (p q : ℕ → K) :
    ∑ j ∈ Finset.range pmesh.numNodes, sem.E dt beta p j * q j =
      ∑ j ∈ Finset.range pmesh.numNodes, p j * sem.E dt beta q j := by
  have h := E_symm H.valid dt beta p q
  obtain ⟨_, _, _, hpm, _⟩ := H.fields
  subst hpm
  refine Eq.trans ?_ h
  exact Finset.sum_congr rfl fun j _ => mul_comm _ _

/-- The pressure operator of a step with `dt ≥ 0` is positive semidefinite. -/
theorem C40_semidefinite [IsStrictOrderedRing K] (H : StokesSetup vmesh pmesh quad overQuad masks bcs sem) (dt : K)
    (hdt : 0 ≤ dt) (timeOrder : ℕ) (b : Fin (timeOrder + 1) → K) (hb : bdfkCoeffs timeOrder = some b) (p : ℕ → K) :
    0 ≤ ∑ j ∈ Finset.range pmesh.numNodes, p j * sem.E dt (b (Fin.last timeOrder)) p j := by
  obtain ⟨_, _, _, hpm, _⟩ := H.fields
  have h := E_psd H.valid dt (b (Fin.last timeOrder)) (div_nonneg hdt (C37_leading timeOrder b hb).2.le) p
  subst hpm
  exact h

end

/-- With one pressure point per axis, which is what `StokesSEM.create(order=2)` asks for, the Jacobians of the pressure
space vanish and with them the divergence of every velocity. -/
theorem C40_one_point {vmesh pmesh : Mesh K d} {quad overQuad : Quadrature1D K} {mask : ℕ → K} {sem : StokesSEM K d}
    (h : StokesSEM.create vmesh pmesh quad overQuad mask = some sem) (hp : pmesh.grid.numPoints = 1) (u : Vel K d) (j : ℕ) :
    sem.D u j = 0 := by
  obtain ⟨_, hpb, _, _, _, _⟩ := StokesSEM.create_fields h
  have hwf := FESpace.build_wf hpb (by omega)
  have hmesh := FESpace.build_mesh hpb
  obtain ⟨_, _, _, _, _, _, hd, _⟩ := FESpace.build_fields hpb
  have hnpe : sem.pspace.mesh.nodesPerElem = 1 := by rw [hmesh, Mesh.nodesPerElem, hp, one_pow]
  have hent : ∀ i, ∀ q < sem.pspace.numQuad, (sem.pspace.gradMat i).entry q 0 = 0 := by
    intro i q hq
    have := hwf.rowsum i q hq
    unfold NMat.apply at this
    rw [hwf.cols, hnpe] at this
    simpa using this
  have hdet : ∀ m, ∀ q < sem.pspace.numQuad, sem.pspace.jacdets m q = 0 := by
    intro m q hq
    rw [hwf.det]
    have : jacobian sem.pspace.mesh sem.pspace.gradMat m q = 0 := by
      ext i j
      simp only [jacobian, Matrix.of_apply, hnpe, Finset.sum_range_one, hent i q hq, mul_zero, Matrix.zero_apply]
    rw [this]
    haveI : Nonempty (Fin d) := ⟨⟨0, Nat.pos_of_ne_zero hd⟩⟩
    exact Matrix.det_zero
  unfold StokesSEM.D
  rw [Mesh.scatter_apply]
  refine Finset.sum_eq_zero fun m _ => Finset.sum_eq_zero fun n _ => ?_
  have : ∀ m n, scalarCovector (fun ql => integrate sem.pspace
      (fun m q => divFn sem.vspace (vGather sem.vspace.mesh u) m q * scalarFn sem.pspace ql m q)) m n = 0 := by
    intro m n
    unfold scalarCovector integrate
    refine Finset.sum_eq_zero fun m' _ => Finset.sum_eq_zero fun q hq => ?_
    rw [hdet m' q (Finset.mem_range.mp hq), mul_zero, zero_mul]
  rw [this, mul_zero]
  split <;> rfl

/-! ### A concrete case: one bilinear element, periodic in the first direction, Dirichlet nodes on one side -/

/-- Three Gauss-Lobatto points. -/
def exVGrid : Nodes1D ℚ := ⟨.gaussLobattoLegendre, 3, ![-1, 0, 1], ![1, -2, 1]⟩

/-- Their quadrature. -/
def exVQuad : Quadrature1D ℚ := ⟨exVGrid, [1/3, 4/3, 1/3]⟩

/-- Two interior points for the pressure. -/
def exPGrid : Nodes1D ℚ := ⟨.gaussLegendre, 2, ![-1/2, 1/2], ![1, -1]⟩

/-- The element map `(s, t) ↦ (2 s + s t / 2, 3 t + s)`. -/
noncomputable def exMap : Fin 2 → MvPolynomial (Fin 2) ℚ :=
  ![MvPolynomial.C 2 * MvPolynomial.X 0 + MvPolynomial.C (1/2) * MvPolynomial.X 0 * MvPolynomial.X 1,
    MvPolynomial.C 3 * MvPolynomial.X 1 + MvPolynomial.X 0]

/-- The same map as a function. -/
def exMapFn (x : Fin 2 → ℚ) : Fin 2 → ℚ := ![2 * x 0 + 1/2 * x 0 * x 1, 3 * x 1 + x 0]

/-- A mesh of one element with the nodes of `grid`. -/
def exStokesMesh (grid : Nodes1D ℚ) (idx : ℕ → ℤ) : Mesh ℚ 2 where
  numNodes := grid.numPoints ^ 2
  numElements := 1
  grid := grid
  coords := fun p => exMapFn (gridPoint 2 grid.value p)
  elements := fun _ n => n
  nodeIndices := idx

/-- The velocity mesh; nodes 0, 1, 2 are copies of nodes 6, 7, 8. -/
def exVMesh : Mesh ℚ 2 := exStokesMesh exVGrid (fun n => (n % 6 : ℕ))

/-- The pressure mesh. -/
def exPMesh : Mesh ℚ 2 := exStokesMesh exPGrid (fun n => n)

/-- Nodes 0, 3, 6 are in the group `"wall"`. -/
def exSMasks : List (String × (ℕ → Bool)) := [("wall", fun j => j % 3 == 0)]

/-- A Dirichlet condition on it. -/
def exSBCs : List (String × BCType) := [("wall", .dirichlet)]

theorem exStokes_inRange (grid : Nodes1D ℚ) (idx : ℕ → ℤ) : (exStokesMesh grid idx).InRange := by
  intro m hm n hn
  right
  have : n < grid.numPoints ^ 2 := hn
  refine ⟨by simp [exStokesMesh], ?_⟩
  simp only [exStokesMesh]
  exact_mod_cast this

theorem exStokes_samples (grid : Nodes1D ℚ) (idx : ℕ → ℤ) (h : 2 ≤ grid.numPoints) :
    SamplesMaps (exStokesMesh grid idx) (fun _ => exMap) := by
  intro m hm j
  constructor
  · intro k
    refine lt_of_lt_of_le (Nat.lt_succ_of_le ?_) h
    have hX : ∀ i : Fin 2, (MvPolynomial.X i : MvPolynomial (Fin 2) ℚ).degreeOf k ≤ if i = k then 1 else 0 := by
      intro i
      rw [MvPolynomial.degreeOf_X]
      split <;> split <;> simp_all
    have hC : ∀ (c : ℚ) (i : Fin 2), (MvPolynomial.C c * MvPolynomial.X i : MvPolynomial (Fin 2) ℚ).degreeOf k ≤ if i = k then 1 else 0 :=
      fun c i => (MvPolynomial.degreeOf_C_mul_le _ _ _).trans (hX i)
    fin_cases j
    · refine (MvPolynomial.degreeOf_add_le _ _ _).trans (max_le ((hC _ _).trans ?_) ?_)
      · split <;> omega
      · refine (MvPolynomial.degreeOf_mul_le _ _ _).trans ((Nat.add_le_add (hC _ _) (hX _)).trans ?_)
        fin_cases k <;> simp
    · refine (MvPolynomial.degreeOf_add_le _ _ _).trans (max_le ((hC _ _).trans ?_) ((hX _).trans ?_))
      · split <;> omega
      · split <;> omega
  · intro n hn
    have hn' : n < grid.numPoints ^ 2 := hn
    unfold Mesh.elementCoords
    rw [Mesh.gather_apply _ _ _ _ hn, if_pos (by simp only [exStokesMesh]; omega)]
    have : readPos (exStokesMesh grid idx).numNodes ((exStokesMesh grid idx).elements m n) = n := by
      change readPos (grid.numPoints ^ 2) (n : ℤ) = n
      have h1 : (n : ℤ) < ((grid.numPoints ^ 2 : ℕ) : ℤ) := by exact_mod_cast hn'
      unfold readPos
      rw [if_neg (by omega)]
      omega
    rw [this]
    fin_cases j <;> simp [exStokesMesh, exMapFn, exMap]

theorem exStokes_check : (match interiorMask (K := ℚ) exSMasks exSBCs with
    | none => false
    | some mask => match StokesSEM.create exVMesh exPMesh exVQuad exVQuad mask with
      | none => false
      | some sem => decide ((∀ q < sem.vspace.numQuad, 0 < sem.vspace.weights.getD q 0) ∧
          ∀ m < exVMesh.numElements, ∀ q < sem.vspace.numQuad, 0 < sem.vspace.jacdets m q)) = true := by decide +kernel

/-- The assumptions of C40 hold for it. -/
theorem exStokes_setup : ∃ sem, StokesSetup exVMesh exPMesh exVQuad exVQuad exSMasks exSBCs sem := by
  have h := exStokes_check
  revert h
  cases hmask : interiorMask (K := ℚ) exSMasks exSBCs with
  | none => intro h; exact absurd h (by simp)
  | some mask =>
    cases hc : StokesSEM.create exVMesh exPMesh exVQuad exVQuad mask with
    | none => simp only [hc]; intro h; exact absurd h (by simp)
    | some sem =>
      simp only [hc]
      intro h
      have h' := of_decide_eq_true h
      refine ⟨sem, ⟨mask, hmask, hc⟩, exStokes_inRange _ _, exStokes_inRange _ _, by decide, by decide, by decide, ?_, ?_, ?_,
        ?_, rfl, ⟨_, exStokes_samples _ _ (by decide), exStokes_samples _ _ (by decide)⟩, h'.1, h'.2, ?_, ?_⟩
      · exact ⟨2, by norm_num, by decide +kernel⟩
      · exact ⟨-1, by norm_num, by decide +kernel⟩
      · change Function.Injective ![(-1 : ℚ), 0, 1]
        intro a b; fin_cases a <;> fin_cases b <;> norm_num
      · change Function.Injective ![(-1/2 : ℚ), 1/2]
        intro a b; fin_cases a <;> fin_cases b <;> norm_num
      · intro j hj
        exact ⟨0, by decide, j, hj, rfl⟩
      · intro i hi j hj hs ⟨g, w, hg, hl, hw⟩
        refine ⟨g, w, hg, hl, ?_⟩
        have hgw : g = "wall" := by simpa [exSBCs] using hg
        subst hgw
        have : w = fun j => j % 3 == 0 := by simpa [exSMasks] using hl.symm
        subst this
        rcases hs with rfl | hs
        · exact hw
        · have h1 : ((i % 6 : ℕ) : ℤ) = ((j % 6 : ℕ) : ℤ) := hs.1
          simp only [beq_iff_eq] at hw ⊢
          omega

/-- One pressure point. -/
def exPGrid1 : Nodes1D ℚ := ⟨.gaussLegendre, 1, ![0], ![1]⟩

/-- A node off the Dirichlet boundary and a component. -/
def exField : Vel ℚ 2 := fun j k => if j = 5 ∧ k = 1 then 1 else 0

theorem exStokes_dirichlet {j : ℕ} (h : DirichletNode exSMasks exSBCs j) : j % 3 = 0 := by
  obtain ⟨g, w, hg, hl, hw⟩ := h
  have hgw : g = "wall" := by simpa [exSBCs] using hg
  subst hgw
  have : w = fun j => j % 3 == 0 := by simpa [exSMasks] using hl.symm
  subst this
  simpa using hw

theorem exStokes_one_point : (match interiorMask (K := ℚ) exSMasks exSBCs with
    | none => false
    | some mask => match StokesSEM.create exVMesh (exStokesMesh exPGrid1 (fun n => n)) exVQuad exVQuad mask with
      | none => false
      | some sem => decide (sem.vDot exField (sem.Dt (fun _ => 1)) ≠ 0)) = true := by decide +kernel

/-- So with the points of `order = 2` the two operators are not adjoint: the full statement of C40 fails there. -/
theorem C40_violated : ∃ mask sem u p, interiorMask (K := ℚ) exSMasks exSBCs = some mask ∧
    StokesSEM.create exVMesh (exStokesMesh exPGrid1 (fun n => n)) exVQuad exVQuad mask = some sem ∧
    (∀ j, DirichletNode exSMasks exSBCs j → ∀ k, u j k = 0) ∧
    ∑ j ∈ Finset.range sem.numP, sem.D u j * p j ≠ ∑ j ∈ Finset.range sem.numV, ∑ k, u j k * sem.Dt p j k := by
  have h := exStokes_one_point
  revert h
  cases hmask : interiorMask (K := ℚ) exSMasks exSBCs with
  | none => intro h; exact absurd h (by simp)
  | some mask =>
    cases hc : StokesSEM.create exVMesh (exStokesMesh exPGrid1 (fun n => n)) exVQuad exVQuad mask with
    | none => simp only [hc]; intro h; exact absurd h (by simp)
    | some sem =>
      simp only [hc]
      intro h
      refine ⟨mask, sem, exField, fun _ => 1, rfl, hc, ?_, ?_⟩
      · intro j hj k
        have := exStokes_dirichlet hj
        unfold exField
        rw [if_neg]
        rintro ⟨rfl, _⟩
        omega
      · have h1 : ∑ j ∈ Finset.range sem.numP, sem.D exField j * (1 : ℚ) = 0 :=
          Finset.sum_eq_zero fun j _ => by rw [C40_one_point hc rfl, zero_mul]
        rw [h1]
        exact (of_decide_eq_true h).symm

/-- The theorems apply to the curved element: a field that vanishes on the Dirichlet nodes against a pressure. -/
example : ∃ sem, StokesSetup exVMesh exPMesh exVQuad exVQuad exSMasks exSBCs sem ∧
    ∀ p : ℕ → ℚ, ∑ j ∈ Finset.range exPMesh.numNodes, sem.D exField j * p j =
        ∑ j ∈ Finset.range exVMesh.numNodes, ∑ k, exField j k * sem.Dt p j k := by
  obtain ⟨sem, H⟩ := exStokes_setup
  refine ⟨sem, H, fun p => (C40_adjoint_partial H exField (fun j _ hj k => ?_) p).1⟩
  have := exStokes_dirichlet hj
  unfold exField
  rw [if_neg]
  rintro ⟨rfl, _⟩
  omega

end Verif.NS
