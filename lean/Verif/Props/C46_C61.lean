import Verif.Lemmas.Poisson

/-!
# C46 (Poisson), C61: the Poisson solver returns the Galerkin solution
-/

set_option linter.unusedSectionVars false

namespace Verif.Core

open Verif.Linalg

variable {K : Type*} [Field K] [LinearOrder K] {d : ℕ}

/-- What a successful run went through. -/
theorem solvePoisson_ok {mesh : Mesh K d} {quad : Quadrature1D K} {masks : List (String × (ℕ → Bool))} {f : ℕ → K}
    {bcs : List (PoissonBC K)} {rtol atol : K} {u : ℕ → K}
    (h : solvePoisson mesh quad masks f bcs rtol atol = .ok u) :
    ∃ fs mask res n, FESpace.create mesh quad = some fs ∧
      interiorMask masks (bcs.map (fun bc => (bc.group, bc.type))) = some mask ∧
      cg (nodeDot mesh.numNodes) (poissonOp fs mask) id (poissonRhs fs mask f) 0 rtol atol (10 * mesh.numNodes) =
        some (u, res, n) := by
  unfold solvePoisson at h
  split at h
  · exact absurd h (by simp)
  · rename_i fs hfs
    split at h
    · exact absurd h (by simp)
    · split at h
      · exact absurd h (by simp)
      · rename_i mask hmask
        split at h
        · exact absurd h (by simp)
        · rename_i u' res n hcg
          simp only [Except.ok.injEq] at h
          subst h
          exact ⟨fs, mask, res, n, hfs, hmask, hcg⟩

/-- Whatever the number of iterations and the tolerances, the result is zero at every Dirichlet node. -/
theorem C46_poisson (mesh : Mesh K d) (quad : Quadrature1D K) (masks : List (String × (ℕ → Bool))) (f : ℕ → K)
    (bcs : List (PoissonBC K)) (rtol atol : K) (u : ℕ → K)
    (h : solvePoisson mesh quad masks f bcs rtol atol = .ok u) :
    ∀ g mask, (∃ bc ∈ bcs, bc.group = g ∧ bc.type = .dirichlet) → masks.lookup g = some mask →
      ∀ j, mask j = true → u j = 0 := by
  obtain ⟨fs, w, res, n, _, hw, hcg⟩ := solvePoisson_ok h
  intro g mask ⟨bc, hbc, hg, ht⟩ hl j hj
  have hD : DirichletNode masks (bcs.map (fun bc => (bc.group, bc.type))) j :=
    ⟨g, mask, List.mem_map.mpr ⟨bc, hbc, by rw [hg, ht]⟩, hl, hj⟩
  let S : Submodule K (ℕ → K) :=
    { carrier := {v | ∀ j, w j = 0 → v j = 0}
      add_mem' := fun {a b} ha hb j hj => by simp [ha j hj, hb j hj]
      zero_mem' := fun j _ => rfl
      smul_mem' := fun c a ha j hj => by simp [ha j hj] }
  have hS : u ∈ S := by
    refine C46_subspace _ _ _ S _ _ _ _ _ ?_ S.zero_mem ?_ (fun v hv => hv) u res n hcg
    · intro j hj; simp [poissonRhs, hj]
    · intro v _ j hj; simp [poissonOp, hj]
  exact hS j ((interiorMask_spec hw j).1 hD)

/-- Nodes joined to a node of `S` by a chain of elements. -/
inductive Linked (mesh : Mesh K d) (S : ℕ → Prop) : ℕ → Prop
  | base (j : ℕ) (h : S j) : Linked mesh S j
  | step (j j' m n n' : ℕ) (hj : Linked mesh S j) (hm : m < mesh.numElements) (hn : n < mesh.nodesPerElem)
      (hn' : n' < mesh.nodesPerElem) (h : mesh.elements m n = j) (h' : mesh.elements m n' = j') : Linked mesh S j'

/-- The assumptions under which the discrete problem is well posed. -/
structure WellPosed (mesh : Mesh K d) (quad : Quadrature1D K) (fs : FESpace K d) (S : ℕ → Prop) : Prop where
  inRange : mesh.InRange
  points : 0 < mesh.grid.numPoints
  weights : TrueWeights mesh.grid.bary mesh.grid.value
  nodes : Function.Injective mesh.grid.value
  quadNodes : Function.Injective quad.nodes.value
  enough : mesh.grid.numPoints ≤ quad.nodes.numPoints
  create : FESpace.create mesh quad = some fs
  quadWeights : ∀ q < fs.numQuad, 0 < fs.weights.getD q 0
  jacobians : ∀ m < mesh.numElements, ∀ q < fs.numQuad, 0 < fs.jacdets m q
  linked : ∀ j < mesh.numNodes, Linked mesh S j

theorem gather_node (mesh : Mesh K d) (u : ℕ → K) (m n j : ℕ) (hn : n < mesh.nodesPerElem)
    (h : mesh.elements m n = j) : mesh.gather u m n = u j ∨ ¬ j < mesh.numNodes := by
  by_cases hj : j < mesh.numNodes
  · left
    rw [mesh.gather_apply u m n hn, if_pos (by rw [h]; omega), h]
    congr 1
    unfold readPos
    split <;> omega
  · exact Or.inr hj

/-- The stiffness form is positive definite on fields that vanish at the Dirichlet nodes. -/
theorem C61_definite [IsStrictOrderedRing K] (mesh : Mesh K d) (quad : Quadrature1D K) (fs : FESpace K d) (S : ℕ → Prop)
    (H : WellPosed mesh quad fs S) (u : ℕ → K) (hu : ∀ j, S j → u j = 0) (hne : ∃ j < mesh.numNodes, u j ≠ 0) :
    0 < integrate fs (fun m q => ∑ j, scalarGrad fs (mesh.gather u) m q j * scalarGrad fs (mesh.gather u) m q j) := by
  obtain ⟨hb, hreg⟩ := FESpace.create_build H.create
  have hwf := FESpace.build_wf hb H.points
  have hmesh := FESpace.build_mesh hb
  have hnn : ∀ m ∈ Finset.range fs.mesh.numElements, 0 ≤ ∑ q ∈ Finset.range fs.numQuad,
      (∑ j, scalarGrad fs (mesh.gather u) m q j * scalarGrad fs (mesh.gather u) m q j) * fs.jacdets m q *
        fs.weights.getD q 0 := by
    intro m hm
    refine Finset.sum_nonneg fun q hq => ?_
    rw [hmesh] at hm
    exact mul_nonneg (mul_nonneg (Finset.sum_nonneg fun j _ => mul_self_nonneg _)
      (H.jacobians m (Finset.mem_range.mp hm) q (Finset.mem_range.mp hq)).le) (H.quadWeights q (Finset.mem_range.mp hq)).le
  refine lt_of_le_of_ne (Finset.sum_nonneg hnn) (fun h0 => ?_)
  have h1 := (Finset.sum_eq_zero_iff_of_nonneg hnn).mp h0.symm
  -- all gradients vanish, hence the local values are constant
  have hconst : ∀ m < mesh.numElements, ∃ c, ∀ n < mesh.nodesPerElem, mesh.gather u m n = c := by
    intro m hm
    apply constant_of_grad hb H.points H.weights H.nodes H.quadNodes H.enough
    intro q hq i
    have h2 := h1 m (by rw [hmesh]; exact Finset.mem_range.mpr hm)
    rw [Finset.sum_eq_zero_iff_of_nonneg] at h2
    · have h3 := h2 q (Finset.mem_range.mpr hq)
      have h4 : ∑ j, scalarGrad fs (mesh.gather u) m q j * scalarGrad fs (mesh.gather u) m q j = 0 := by
        rcases mul_eq_zero.mp h3 with h4 | h4
        · rcases mul_eq_zero.mp h4 with h5 | h5
          · exact h5
          · exact absurd h5 (H.jacobians m hm q hq).ne'
        · exact absurd h4 (H.quadWeights q hq).ne'
      have h5 : ∀ j, scalarGrad fs (mesh.gather u) m q j = 0 := by
        intro j
        have := (Finset.sum_eq_zero_iff_of_nonneg (fun j _ => mul_self_nonneg _)).mp h4 j (Finset.mem_univ j)
        exact mul_self_eq_zero.mp this
      -- multiply with the Jacobian
      have hdet : (jacobian fs.mesh fs.gradMat m q).det ≠ 0 := by
        rw [← hwf.det]; exact hreg m (by rw [hmesh]; exact hm) q hq
      have h6 : ∑ j, jacobian fs.mesh fs.gradMat m q i j * scalarGrad fs (mesh.gather u) m q j =
          elemGrad fs (mesh.gather u m) q i := by
        unfold scalarGrad
        simp only [Finset.mul_sum]
        rw [Finset.sum_comm]
        have h7 : ∀ l, ∑ j, jacobian fs.mesh fs.gradMat m q i j * (elemGrad fs (mesh.gather u m) q l * fs.invjacs m q j l) =
            elemGrad fs (mesh.gather u m) q l * (1 : Matrix (Fin d) (Fin d) K) i l := by
          intro l
          rw [← mul_matInv hdet, Matrix.mul_apply, Finset.mul_sum]
          refine Finset.sum_congr rfl fun j _ => ?_
          rw [hwf.inv]
          ring
        rw [Finset.sum_congr rfl fun l _ => h7 l]
        simp [Matrix.one_apply]
      rw [← h6]
      exact Finset.sum_eq_zero fun j _ => by rw [h5 j, mul_zero]
    · intro q hq
      exact mul_nonneg (mul_nonneg (Finset.sum_nonneg fun j _ => mul_self_nonneg _)
        (H.jacobians m hm q (Finset.mem_range.mp hq)).le) (H.quadWeights q (Finset.mem_range.mp hq)).le
  obtain ⟨j, hj, hne⟩ := hne
  apply hne
  have : ∀ j, Linked mesh S j → u j = 0 ∨ ¬ j < mesh.numNodes := by
    intro j hl
    induction hl with
    | base j h => exact Or.inl (hu j h)
    | step j j' m n n' _ hm hn hn' h h' ih =>
      have hjN : j < mesh.numNodes := by
        rcases H.inRange m hm n hn with h1 | h1
        · rw [h] at h1; omega
        · rw [h] at h1; exact_mod_cast h1.2
      obtain ⟨c, hc⟩ := hconst m hm
      rcases gather_node mesh u m n j hn h with h1 | h1
      · rcases gather_node mesh u m n' j' hn' h' with h2 | h2
        · left
          rw [← h2, hc n' hn', ← hc n hn, h1]
          exact ih.resolve_right (fun h3 => h3 hjN)
        · exact Or.inr h2
      · exact absurd hjN h1
  exact (this j (H.linked j hj)).resolve_right (fun h => h hj)

section solve

variable [IsStrictOrderedRing K] (mesh : Mesh K d) (quad : Quadrature1D K) (fs : FESpace K d)
  (masks : List (String × (ℕ → Bool))) (bcs : List (PoissonBC K))

/-- The Dirichlet nodes of the problem. -/
def PoissonDirichlet (j : ℕ) : Prop := DirichletNode masks (bcs.map (fun bc => (bc.group, bc.type))) j

/-- Fields on the nodes of the mesh that vanish where the mask does. -/
def maskedSpace (N : ℕ) (w : ℕ → K) : Submodule K (ℕ → K) where
  carrier := {v | ∀ j, (N ≤ j ∨ w j = 0) → v j = 0}
  add_mem' := fun {a b} ha hb j hj => by simp [ha j hj, hb j hj]
  zero_mem' := fun j _ => rfl
  smul_mem' := fun c a ha j hj => by simp [ha j hj]

/-- Restriction to the nodes. -/
def maskedRestrict (N : ℕ) (w : ℕ → K) : maskedSpace N w →ₗ[K] (Fin N → K) where
  toFun v := fun j => v.1 j
  map_add' _ _ := rfl
  map_smul' _ _ := rfl

theorem maskedRestrict_injective (N : ℕ) (w : ℕ → K) : Function.Injective (maskedRestrict N w) := by
  intro a b h
  apply Subtype.ext
  funext j
  by_cases hj : j < N
  · exact congrFun h ⟨j, hj⟩
  · rw [a.2 j (Or.inl (by omega)), b.2 j (Or.inl (by omega))]

instance (N : ℕ) (w : ℕ → K) : FiniteDimensional K (maskedSpace N w) :=
  FiniteDimensional.of_injective (maskedRestrict N w) (maskedRestrict_injective N w)

theorem maskedSpace_finrank (N : ℕ) (w : ℕ → K) : Module.finrank K (maskedSpace N w) ≤ N := by
  have := LinearMap.finrank_le_finrank_of_injective (maskedRestrict_injective N w)
  simpa using this

/-- The dot product on the masked space. -/
def maskedDot (N : ℕ) (w : ℕ → K) : maskedSpace N w →ₗ[K] maskedSpace N w →ₗ[K] K :=
  LinearMap.mk₂ K (fun u v => nodeDot N u.1 v.1)
    (fun a b c => by simp [nodeDot, add_mul, Finset.sum_add_distrib])
    (fun c a b => by simp [nodeDot, Finset.mul_sum, mul_assoc])
    (fun a b c => by simp [nodeDot, mul_add, Finset.sum_add_distrib])
    (fun c a b => by simp [nodeDot, Finset.mul_sum, mul_left_comm])

/-- The operator on the masked space. -/
def maskedOp (fs : FESpace K d) (hwf : fs.WF) (w : ℕ → K) :
    maskedSpace fs.mesh.numNodes w →ₗ[K] maskedSpace fs.mesh.numNodes w :=
  LinearMap.codRestrict _ ((poissonLin fs hwf w).comp (Submodule.subtype _)) (fun v j hj => by
    change poissonOp fs w v.1 j = 0
    rcases hj with hj | hj
    · simp [poissonOp, stiffOp, fs.mesh.scatter_outside _ j hj]
    · simp [poissonOp, hj])

theorem masked_mul {N : ℕ} {w : ℕ → K} (hw : ∀ j, w j = 0 ∨ w j = 1) {v : ℕ → K} (hv : v ∈ maskedSpace N w) (j : ℕ) :
    v j * w j = v j := by
  rcases hw j with h | h
  · rw [hv j (Or.inr h), zero_mul]
  · rw [h, mul_one]

/-- The restricted problem satisfies the assumptions of conjugate gradients. -/
theorem poisson_cgHyp (S : ℕ → Prop) (H : WellPosed mesh quad fs S) (hwf : fs.WF) (w : ℕ → K)
    (hw : ∀ j, (S j → w j = 0) ∧ (¬ S j → w j = 1)) :
    CGHyp (maskedDot fs.mesh.numNodes w) (maskedOp fs hwf w) LinearMap.id := by
  have hmesh : fs.mesh = mesh := FESpace.build_mesh (FESpace.create_build H.create).1
  subst hmesh
  have hw01 : ∀ j, w j = 0 ∨ w j = 1 := fun j => by
    by_cases h : S j
    · exact Or.inl ((hw j).1 h)
    · exact Or.inr ((hw j).2 h)
  have hdotA : ∀ x y : maskedSpace fs.mesh.numNodes w, maskedDot fs.mesh.numNodes w x (maskedOp fs hwf w y) =
      ∑ j ∈ Finset.range fs.mesh.numNodes, x.1 j * stiffOp fs y.1 j := by
    intro x y
    change ∑ j ∈ Finset.range fs.mesh.numNodes, x.1 j * (stiffOp fs y.1 j * w j) = _
    refine Finset.sum_congr rfl fun j _ => ?_
    conv_rhs => rw [← masked_mul hw01 x.2 j]
    ring
  have hsymm : ∀ x y : maskedSpace fs.mesh.numNodes w,
      maskedDot fs.mesh.numNodes w x y = maskedDot fs.mesh.numNodes w y x := by
    intro x y
    change ∑ j ∈ Finset.range fs.mesh.numNodes, x.1 j * y.1 j = ∑ j ∈ Finset.range fs.mesh.numNodes, y.1 j * x.1 j
    exact Finset.sum_congr rfl fun j _ => mul_comm _ _
  have hpos : ∀ x : maskedSpace fs.mesh.numNodes w, x ≠ 0 → ∃ j < fs.mesh.numNodes, x.1 j ≠ 0 := by
    intro x hx
    by_contra h
    push Not at h
    apply hx
    apply Subtype.ext
    funext j
    by_cases hj : j < fs.mesh.numNodes
    · exact h j hj
    · exact x.2 j (Or.inl (by omega))
  have hsq : ∀ x : maskedSpace fs.mesh.numNodes w, 0 ≤ maskedDot fs.mesh.numNodes w x x := by
    intro x
    change 0 ≤ ∑ j ∈ Finset.range fs.mesh.numNodes, x.1 j * x.1 j
    exact Finset.sum_nonneg fun j _ => mul_self_nonneg _
  refine ⟨hsymm, ?_, ?_, fun _ _ => rfl, hsq, ?_⟩
  · intro x hx
    obtain ⟨j, hj, hne⟩ := hpos x hx
    change 0 < ∑ j ∈ Finset.range fs.mesh.numNodes, x.1 j * x.1 j
    exact Finset.sum_pos' (fun j _ => mul_self_nonneg _) ⟨j, Finset.mem_range.mpr hj, mul_self_pos.mpr hne⟩
  · intro x y
    rw [hsymm, hdotA, hdotA]
    exact ((C39_symmetric fs.mesh quad fs H.points H.inRange H.create x.1 y.1).2)
  · intro x hx
    simp only [LinearMap.id_coe, id_eq] at hx ⊢
    rw [hdotA, C39_stiffness fs.mesh quad fs H.points H.inRange H.create]
    exact C61_definite fs.mesh quad fs S H x.1 (fun j hj => x.2 j (Or.inr ((hw j).1 hj))) (hpos x hx)

/-- The run succeeds and its residual, tested with the basis function of every node off the Dirichlet boundary, meets the
tolerances. -/
theorem C61_residual (H : WellPosed mesh quad fs (PoissonDirichlet masks bcs)) (hval : ∀ bc ∈ bcs, bc.value = some 0)
    (hgroups : ∀ bc ∈ bcs, bc.type = .dirichlet → (masks.lookup bc.group).isSome) (f : ℕ → K) (rtol atol : K) :
    ∃ u, solvePoisson mesh quad masks f bcs rtol atol = .ok u ∧ (∀ j, PoissonDirichlet masks bcs j → u j = 0) ∧
      ∃ r : ℕ → K, (∀ j < mesh.numNodes, (PoissonDirichlet masks bcs j → r j = 0) ∧ (¬ PoissonDirichlet masks bcs j →
          r j = integrate fs (fun m q => scalarFn fs (mesh.gather f) m q *
                scalarFn fs (mesh.gather (fun p => if p = j then 1 else 0)) m q) -
              integrate fs (fun m q => ∑ i, scalarGrad fs (mesh.gather u) m q i *
                scalarGrad fs (mesh.gather (fun p => if p = j then 1 else 0)) m q i))) ∧
        ∃ b : ℕ → K, (∀ j < mesh.numNodes, (PoissonDirichlet masks bcs j → b j = 0) ∧ (¬ PoissonDirichlet masks bcs j →
          b j = integrate fs (fun m q => scalarFn fs (mesh.gather f) m q *
                scalarFn fs (mesh.gather (fun p => if p = j then 1 else 0)) m q))) ∧
        ∑ j ∈ Finset.range mesh.numNodes, r j * r j ≤
          max (rtol ^ 2 * ∑ j ∈ Finset.range mesh.numNodes, b j * b j) (atol ^ 2) := by
  obtain ⟨hb, hreg⟩ := FESpace.create_build H.create
  have hwf := FESpace.build_wf hb H.points
  have hmesh := FESpace.build_mesh hb
  subst hmesh
  obtain ⟨w, hw⟩ := interiorMask_exists (K := K) masks (bcs.map (fun bc => (bc.group, bc.type))) (by
    intro g hg
    obtain ⟨bc, hbc, he⟩ := List.mem_map.mp hg
    rw [← (Prod.mk.inj he).1]
    exact hgroups bc hbc (Prod.mk.inj he).2)
  have hspec := interiorMask_spec hw
  have hyp := poisson_cgHyp fs.mesh quad fs _ H hwf w hspec
  let b' : maskedSpace fs.mesh.numNodes w := ⟨poissonRhs fs w f, fun j hj => by
    rcases hj with hj | hj
    · simp [poissonRhs, massOp, fs.mesh.scatter_outside _ j hj]
    · simp [poissonRhs, hj]⟩
  have hfin : Module.finrank K (LinearMap.range (LinearMap.id : maskedSpace fs.mesh.numNodes w →ₗ[K] _)) ≤
      10 * fs.mesh.numNodes := by
    have h1 := maskedSpace_finrank (K := K) fs.mesh.numNodes w
    have h2 := LinearMap.finrank_range_le (LinearMap.id : maskedSpace fs.mesh.numNodes w →ₗ[K] _)
    omega
  obtain ⟨x, res, n, hcg, _, _, hres⟩ := C45_terminates hyp b' 0 rtol atol (10 * fs.mesh.numNodes) hfin
  obtain ⟨_, hr, _⟩ := C44_exit _ _ _ _ _ _ _ _ _ _ _ hcg
  have hmap := cg_map (dot := nodeDot fs.mesh.numNodes) (A := poissonOp fs w) (M := id)
    (emb := (maskedSpace fs.mesh.numNodes w).subtype) (dotW := fun u v => maskedDot fs.mesh.numNodes w u v)
    (A' := maskedOp fs hwf w)
    (M' := (LinearMap.id : maskedSpace fs.mesh.numNodes w →ₗ[K] maskedSpace fs.mesh.numNodes w)) (fun _ _ => rfl) (fun _ => rfl) (fun _ => rfl) b' 0 rtol atol
    (10 * fs.mesh.numNodes)
  rw [hcg, map_zero] at hmap
  refine ⟨x.1, ?_, fun j hj => x.2 j (Or.inr ((hspec j).1 hj)), fun j => poissonRhs fs w f j - poissonOp fs w x.1 j,
    fun j hj => ?_, poissonRhs fs w f, fun j hj => ?_, ?_⟩
  · unfold solvePoisson
    rw [H.create]
    simp only
    rw [if_neg (by simpa using hval), hw]
    simp only
    have : cgDefault fs.mesh.numNodes (nodeDot fs.mesh.numNodes) (poissonOp fs w) (poissonRhs fs w f) rtol atol =
        some (x.1, res, n) := hmap
    rw [this]
  · have h1 := C39_basis fs.mesh H.inRange _ (massForm_linear fs hwf (fs.mesh.gather f)) j hj
    have h2 := C39_basis fs.mesh H.inRange _ (stiffForm_linear fs hwf (fs.mesh.gather x.1)) j hj
    refine ⟨fun hD => ?_, fun hD => ?_⟩
    · simp [poissonRhs, poissonOp, (hspec j).1 hD]
    · simp only [poissonRhs, poissonOp, (hspec j).2 hD, mul_one]
      unfold massOp stiffOp
      rw [h1, h2]
      rfl
  · have h1 := C39_basis fs.mesh H.inRange _ (massForm_linear fs hwf (fs.mesh.gather f)) j hj
    refine ⟨fun hD => ?_, fun hD => ?_⟩
    · simp [poissonRhs, (hspec j).1 hD]
    · simp only [poissonRhs, (hspec j).2 hD, mul_one]
      unfold massOp
      rw [h1]
      rfl
  · rw [hr] at hres
    exact hres

omit [IsStrictOrderedRing K] in
/-- Whatever the mesh, a result is only returned when all boundary values are the scalar zero and every Dirichlet group is a
group of the mesh; other conditions are never dropped silently. -/
theorem C61_rejects (f : ℕ → K) (rtol atol : K) (u : ℕ → K)
    (h : solvePoisson mesh quad masks f bcs rtol atol = .ok u) :
    (∀ bc ∈ bcs, bc.value = some 0) ∧ ∀ bc ∈ bcs, bc.type = .dirichlet → (masks.lookup bc.group).isSome := by
  unfold solvePoisson at h
  split at h
  · exact absurd h (by simp)
  · split at h
    · exact absurd h (by simp)
    · next hany =>
      constructor
      · intro bc hbc
        by_contra hne
        exact hany (List.any_eq_true.mpr ⟨bc, hbc, by simpa using hne⟩)
      · intro bc hbc hd
        split at h
        · exact absurd h (by simp)
        · next hmask =>
          exact interiorMask_groups hmask bc.group (List.mem_map.mpr ⟨bc, hbc, by rw [hd]⟩)

/-- With zero tolerances the result is the Galerkin solution, and the only one. -/
theorem C61_galerkin (H : WellPosed mesh quad fs (PoissonDirichlet masks bcs)) (hval : ∀ bc ∈ bcs, bc.value = some 0)
    (hgroups : ∀ bc ∈ bcs, bc.type = .dirichlet → (masks.lookup bc.group).isSome) (f : ℕ → K) :
    ∃ u, solvePoisson mesh quad masks f bcs 0 0 = .ok u ∧ (∀ j, PoissonDirichlet masks bcs j → u j = 0) ∧
      (∀ v : ℕ → K, (∀ j, PoissonDirichlet masks bcs j → v j = 0) →
        integrate fs (fun m q => ∑ i, scalarGrad fs (mesh.gather u) m q i * scalarGrad fs (mesh.gather v) m q i) =
          integrate fs (fun m q => scalarFn fs (mesh.gather f) m q * scalarFn fs (mesh.gather v) m q)) ∧
      ∀ u' : ℕ → K, (∀ j, PoissonDirichlet masks bcs j → u' j = 0) →
        (∀ v : ℕ → K, (∀ j, PoissonDirichlet masks bcs j → v j = 0) →
          integrate fs (fun m q => ∑ i, scalarGrad fs (mesh.gather u') m q i * scalarGrad fs (mesh.gather v) m q i) =
            integrate fs (fun m q => scalarFn fs (mesh.gather f) m q * scalarFn fs (mesh.gather v) m q)) →
        ∀ j < mesh.numNodes, u' j = u j := by
  classical
  obtain ⟨u, hu, hD, r, hr, b, _, hle⟩ := C61_residual mesh quad fs masks bcs H hval hgroups f 0 0
  obtain ⟨hb, hreg⟩ := FESpace.create_build H.create
  have hwf := FESpace.build_wf hb H.points
  have hmesh := FESpace.build_mesh hb
  have hsum : ∑ j ∈ Finset.range mesh.numNodes, r j * r j ≤ 0 := by simpa using hle
  have hr0 : ∀ j < mesh.numNodes, r j = 0 := by
    intro j hj
    have h1 := (Finset.sum_eq_zero_iff_of_nonneg (fun j _ => mul_self_nonneg (r j))).mp
      (le_antisymm hsum (Finset.sum_nonneg fun j _ => mul_self_nonneg _)) j (Finset.mem_range.mpr hj)
    exact mul_self_eq_zero.mp h1
  have hweak : ∀ v : ℕ → K, (∀ j, PoissonDirichlet masks bcs j → v j = 0) →
      integrate fs (fun m q => ∑ i, scalarGrad fs (mesh.gather u) m q i * scalarGrad fs (mesh.gather v) m q i) =
        integrate fs (fun m q => scalarFn fs (mesh.gather f) m q * scalarFn fs (mesh.gather v) m q) := by
    intro v hv
    rw [← C39_stiffness mesh quad fs H.points H.inRange H.create, ← C39_mass mesh quad fs H.points H.inRange hb]
    refine Finset.sum_congr rfl fun j hj => ?_
    have hj' := Finset.mem_range.mp hj
    by_cases hDj : PoissonDirichlet masks bcs j
    · rw [hv j hDj, zero_mul, zero_mul]
    · congr 1
      have h1 := (hr j hj').2 hDj
      rw [hr0 j hj'] at h1
      subst hmesh
      have h2 := C39_basis fs.mesh H.inRange _ (massForm_linear fs hwf (fs.mesh.gather f)) j hj'
      have h3 := C39_basis fs.mesh H.inRange _ (stiffForm_linear fs hwf (fs.mesh.gather u)) j hj'
      unfold stiffOp massOp
      rw [h2, h3]
      unfold stiffForm massForm
      exact (sub_eq_zero.mp h1.symm).symm
  refine ⟨u, hu, hD, hweak, fun u' hD' hweak' j hj => ?_⟩
  by_contra hne
  have hz : ∀ j, PoissonDirichlet masks bcs j → (u' - u) j = 0 := fun j hj => by
    rw [Pi.sub_apply, hD' j hj, hD j hj, sub_zero]
  have hpos := C61_definite mesh quad fs _ H (u' - u) hz ⟨j, hj, by rw [Pi.sub_apply]; exact sub_ne_zero.mpr hne⟩
  have h1 := hweak (u' - u) hz
  have h2 := hweak' (u' - u) hz
  rw [← C39_stiffness mesh quad fs H.points H.inRange H.create] at hpos h1 h2
  have h3 : stiffOp fs (u' - u) = stiffOp fs u' - stiffOp fs u := (stiffLin fs hwf).map_sub u' u
  rw [h3] at hpos
  simp only [Pi.sub_apply, mul_sub, Finset.sum_sub_distrib] at hpos h1 h2
  rw [h1, h2, sub_self] at hpos
  exact lt_irrefl _ hpos

end solve

/-! ### A concrete case: the skewed element with one Dirichlet node -/

theorem exPoisson_positive : (match FESpace.create exMesh exQuad with
    | none => false
    | some fs => decide ((∀ q < fs.numQuad, 0 < fs.weights.getD q 0) ∧
        ∀ m < exMesh.numElements, ∀ q < fs.numQuad, 0 < fs.jacdets m q)) = true := by decide +kernel

/-- The group `"left"` holds node 0. -/
def exMasks : List (String × (ℕ → Bool)) := [("left", fun j => j == 0)]

/-- A homogeneous Dirichlet condition on it. -/
def exBCs : List (PoissonBC ℚ) := [⟨"left", .dirichlet, some 0⟩]

theorem exPoisson_dirichlet : PoissonDirichlet exMasks exBCs 0 :=
  ⟨"left", fun j => j == 0, by simp [exBCs], by simp [exMasks], rfl⟩

/-- The hypotheses of `C61_residual` and `C61_galerkin` hold for it. -/
example : ∃ fs, WellPosed exMesh exQuad fs (PoissonDirichlet exMasks exBCs) ∧ (∀ bc ∈ exBCs, bc.value = some 0) ∧
    ∀ bc ∈ exBCs, bc.type = .dirichlet → (exMasks.lookup bc.group).isSome := by
  have h := exPoisson_positive
  revert h
  cases hc : FESpace.create exMesh exQuad with
  | none => intro h; exact absurd h (by simp)
  | some fs =>
    intro h
    have h' := of_decide_eq_true h
    refine ⟨fs, ⟨exMesh_inRange, by decide, ⟨-2, by norm_num, ?_⟩, ?_, ?_, by decide, hc, h'.1, h'.2, ?_⟩, ?_, ?_⟩
    · intro i
      fin_cases i
      · have : (Finset.univ.erase (0 : Fin 2)) = {1} := by decide
        change (1 : ℚ) = -2 * ∏ j ∈ Finset.univ.erase (0 : Fin 2), ((![-1, 1] : Fin 2 → ℚ) 0 - (![-1, 1] : Fin 2 → ℚ) j)⁻¹
        rw [this]
        norm_num
      · have : (Finset.univ.erase (1 : Fin 2)) = {0} := by decide
        change (-1 : ℚ) = -2 * ∏ j ∈ Finset.univ.erase (1 : Fin 2), ((![-1, 1] : Fin 2 → ℚ) 1 - (![-1, 1] : Fin 2 → ℚ) j)⁻¹
        rw [this]
        norm_num
    · have : Function.Injective (![-1, 1] : Fin 2 → ℚ) := by decide
      exact this
    · have : Function.Injective (![-1/2, 1/2] : Fin 2 → ℚ) := by decide +kernel
      exact this
    · intro j hj
      exact Linked.step 0 j 0 0 j (Linked.base 0 exPoisson_dirichlet) (by decide) (by decide) hj rfl rfl
    · simp [exBCs]
    · simp [exBCs, exMasks]

end Verif.Core
