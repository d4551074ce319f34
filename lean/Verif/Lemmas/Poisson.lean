import Verif.Props.C38_C39
import Verif.Props.C44_C46
import Verif.Lemmas.TensorPoly
import Verif.Model.Poisson

/-! Lemmas for the Poisson solver: masks, linearity of the assembled operators, gradients that vanish. -/

set_option linter.unusedSectionVars false

namespace Verif.Core

open Verif.Linalg

variable {K : Type*} [Field K] [LinearOrder K] {d : ℕ}

/-- Node `j` carries the mask of a physical group with a Dirichlet condition. -/
def DirichletNode (masks : List (String × (ℕ → Bool))) (bcs : List (String × BCType)) (j : ℕ) : Prop :=
  ∃ g mask, (g, BCType.dirichlet) ∈ bcs ∧ masks.lookup g = some mask ∧ mask j = true

theorem interiorMask_fold (masks : List (String × (ℕ → Bool))) (bcs : List (String × BCType)) (w0 w : ℕ → K)
    (h : bcs.foldlM (fun w bc =>
      if bc.2 = .dirichlet then
        match masks.lookup bc.1 with
        | none => none
        | some mask => some (fun j => w j * (1 - if mask j then 1 else 0))
      else some w) w0 = some w) (j : ℕ) :
    (DirichletNode masks bcs j → w j = 0) ∧ (¬ DirichletNode masks bcs j → w j = w0 j) := by
  induction bcs generalizing w0 with
  | nil =>
    simp only [List.foldlM_nil, Option.pure_def, Option.some.injEq] at h
    subst h
    exact ⟨fun ⟨g, mask, hg, _⟩ => absurd hg (by simp), fun _ => rfl⟩
  | cons bc bcs ih =>
    have hmem : ∀ j, DirichletNode masks (bc :: bcs) j ↔
        (bc.2 = .dirichlet ∧ ∃ mask, masks.lookup bc.1 = some mask ∧ mask j = true) ∨ DirichletNode masks bcs j := by
      intro j
      constructor
      · rintro ⟨g, mask, hg, hl, hm⟩
        rcases List.mem_cons.mp hg with h1 | h1
        · left; rw [← h1]; exact ⟨rfl, mask, hl, hm⟩
        · right; exact ⟨g, mask, h1, hl, hm⟩
      · rintro (⟨h1, mask, hl, hm⟩ | ⟨g, mask, hg, hl, hm⟩)
        · exact ⟨bc.1, mask, by rw [← h1]; exact List.mem_cons_self, hl, hm⟩
        · exact ⟨g, mask, List.mem_cons_of_mem _ hg, hl, hm⟩
    rw [List.foldlM_cons] at h
    by_cases hd : bc.2 = .dirichlet
    · simp only [hd, if_true] at h
      cases hl : masks.lookup bc.1 with
      | none => simp [hl] at h
      | some mask =>
        simp only [hl, Option.bind_eq_bind, Option.bind_some] at h
        have := ih _ h
        rw [hmem j]
        by_cases hD : DirichletNode masks bcs j
        · exact ⟨fun _ => this.1 hD, fun hn => absurd (Or.inr hD) hn⟩
        · have h2 := this.2 hD
          by_cases hm : mask j = true
          · refine ⟨fun _ => by rw [h2]; simp [hm], fun hn => absurd (Or.inl ⟨hd, mask, hl, hm⟩) hn⟩
          · refine ⟨?_, fun _ => by rw [h2]; simp [hm]⟩
            rintro (⟨_, mask', hl', hm'⟩ | h3)
            · rw [hl, Option.some.injEq] at hl'; subst hl'; exact absurd hm' hm
            · exact absurd h3 hD
    · simp only [hd, if_false, Option.bind_eq_bind, Option.bind_some] at h
      have := ih _ h
      rw [hmem j]
      refine ⟨?_, fun hn => this.2 (fun h3 => hn (Or.inr h3))⟩
      rintro (⟨h1, _⟩ | h3)
      · exact absurd h1 hd
      · exact this.1 h3

theorem interiorMask_spec {masks : List (String × (ℕ → Bool))} {bcs : List (String × BCType)} {w : ℕ → K}
    (h : interiorMask masks bcs = some w) (j : ℕ) :
    (DirichletNode masks bcs j → w j = 0) ∧ (¬ DirichletNode masks bcs j → w j = 1) :=
  interiorMask_fold masks bcs _ w h j

/-- A mask is only computed when every Dirichlet group is a group of the mesh. -/
theorem interiorMask_groups {masks : List (String × (ℕ → Bool))} {bcs : List (String × BCType)} {w : ℕ → K}
    (h : interiorMask masks bcs = some w) : ∀ g, (g, BCType.dirichlet) ∈ bcs → (masks.lookup g).isSome := by
  unfold interiorMask at h
  generalize (fun _ : ℕ => (1 : K)) = w0 at h
  induction bcs generalizing w0 with
  | nil => intro g hg; simp at hg
  | cons bc bcs ih =>
    intro g hg
    rw [List.foldlM_cons] at h
    rcases List.mem_cons.mp hg with h1 | h1
    · rw [← h1] at h
      simp only [if_true] at h
      cases hl : masks.lookup g with
      | none => rw [hl] at h; simp at h
      | some m => rfl
    · split at h
      · cases hl : masks.lookup bc.1 with
        | none => rw [hl] at h; simp at h
        | some m => rw [hl] at h; exact ih _ h g h1
      · exact ih _ h g h1

/-- The mask exists when all Dirichlet groups are defined on the mesh. -/
theorem interiorMask_exists (masks : List (String × (ℕ → Bool))) (bcs : List (String × BCType))
    (h : ∀ g, (g, BCType.dirichlet) ∈ bcs → (masks.lookup g).isSome) : ∃ w : ℕ → K, interiorMask masks bcs = some w := by
  unfold interiorMask
  generalize (fun _ => 1 : ℕ → K) = w0
  induction bcs generalizing w0 with
  | nil => exact ⟨w0, rfl⟩
  | cons bc bcs ih =>
    rw [List.foldlM_cons]
    by_cases hd : bc.2 = .dirichlet
    · simp only [hd, if_true]
      obtain ⟨mask, hm⟩ := Option.isSome_iff_exists.mp (h bc.1 (by rw [← hd]; exact List.mem_cons_self))
      simp only [hm, Option.bind_eq_bind, Option.bind_some]
      exact ih (fun g hg => h g (List.mem_cons_of_mem _ hg)) _
    · simp only [hd, if_false, Option.bind_eq_bind, Option.bind_some]
      exact ih (fun g hg => h g (List.mem_cons_of_mem _ hg)) _

/-! ### linearity in the field -/

theorem massForm_comm (fs : FESpace K d) (u v : ℕ → ℕ → K) : massForm fs u v = massForm fs v u := by
  unfold massForm
  congr 1
  funext m q
  ring

theorem stiffForm_comm (fs : FESpace K d) (u v : ℕ → ℕ → K) : stiffForm fs u v = stiffForm fs v u := by
  unfold stiffForm
  congr 1
  funext m q
  exact Finset.sum_congr rfl fun j _ => mul_comm _ _

/-- `stiffOp` as a linear map. -/
def stiffLin (fs : FESpace K d) (hwf : fs.WF) : (ℕ → K) →ₗ[K] (ℕ → K) where
  toFun := stiffOp fs
  map_add' u v := by
    unfold stiffOp
    rw [← Mesh.scatter_add]
    congr 1
    funext m n
    simp only [scalarCovector, Pi.add_apply, Mesh.gather_add]
    rw [stiffForm_comm, (stiffForm_linear fs hwf _).add, stiffForm_comm fs _ (fs.mesh.gather u),
      stiffForm_comm fs _ (fs.mesh.gather v)]
  map_smul' c u := by
    unfold stiffOp
    simp only [RingHom.id_apply]
    rw [← Mesh.scatter_smul]
    congr 1
    funext m n
    simp only [scalarCovector, Pi.smul_apply, Mesh.gather_smul, smul_eq_mul]
    rw [stiffForm_comm, (stiffForm_linear fs hwf _).smul, stiffForm_comm fs _ (fs.mesh.gather u)]

/-- `poissonOp` as a linear map. -/
def poissonLin (fs : FESpace K d) (hwf : fs.WF) (mask : ℕ → K) : (ℕ → K) →ₗ[K] (ℕ → K) where
  toFun := poissonOp fs mask
  map_add' u v := by
    funext j
    have := congrFun ((stiffLin fs hwf).map_add u v) j
    simp only [stiffLin, LinearMap.coe_mk, AddHom.coe_mk, Pi.add_apply] at this
    simp only [poissonOp, Pi.add_apply, this, add_mul]
  map_smul' c u := by
    funext j
    have := congrFun ((stiffLin fs hwf).map_smul c u) j
    simp only [stiffLin, LinearMap.coe_mk, AddHom.coe_mk, Pi.smul_apply, smul_eq_mul] at this
    simp only [poissonOp, Pi.smul_apply, smul_eq_mul, RingHom.id_apply, this, mul_assoc]

theorem writePos_lt {N : ℕ} {i : ℤ} {j : ℕ} (h : writePos N i = some j) : j < N := by
  unfold writePos at h
  simp only [Option.ite_none_right_eq_some, Option.some.injEq] at h
  omega

theorem Mesh.scatter_outside (mesh : Mesh K d) (vl : ℕ → ℕ → K) (j : ℕ) (hj : mesh.numNodes ≤ j) :
    mesh.scatter vl j = 0 := by
  rw [mesh.scatter_apply]
  refine Finset.sum_eq_zero fun m _ => Finset.sum_eq_zero fun n _ => ?_
  rw [if_neg]
  intro h
  have := writePos_lt h
  omega

/-! ### gradients that vanish -/

/-- Local values whose reference gradient vanishes at all points of a grid with at least as many points are constant. -/
theorem constant_of_grad [IsStrictOrderedRing K] {mesh : Mesh K d} {quad : Quadrature1D K} {fs : FESpace K d} (h : FESpace.build mesh quad = some fs)
    (hn : 0 < mesh.grid.numPoints) (hw : TrueWeights mesh.grid.bary mesh.grid.value)
    (hinj : Function.Injective mesh.grid.value) (hqinj : Function.Injective quad.nodes.value)
    (hle : mesh.grid.numPoints ≤ quad.nodes.numPoints) (x : ℕ → K)
    (hx : ∀ q < fs.numQuad, ∀ i, elemGrad fs x q i = 0) : ∃ c, ∀ n < mesh.nodesPerElem, x n = c := by
  obtain ⟨M1, A, W, hM1, hA, hW, hd, hmesh, hnq, _, hint, hG, _, _, _⟩ := FESpace.build_fields h
  have hwf := FESpace.build_wf h hn
  obtain ⟨p, hdeg, hp⟩ := exists_samples (d := d) hn mesh.grid.value hinj x
  have hzero : ∀ i, MvPolynomial.pderiv i p = 0 := by
    intro i
    obtain ⟨M, B, hM, hB, hgrad⟩ := C34_gradients (q := quad.nodes.numPoints) (d := d) (by omega) hn mesh.grid.bary
      mesh.grid.value hw hinj quad.nodes.value i
    rw [hM1, Option.some.injEq] at hM
    subst hM
    rw [hG i, Option.some.injEq] at hB
    subst hB
    apply eq_zero_of_grid quad.nodes.value hqinj
    · intro k
      exact lt_of_le_of_lt (degreeOf_pderiv_le i k p) (lt_of_lt_of_le (hdeg k) hle)
    · intro q hq
      rw [← hgrad p hdeg q hq, ← hx q (by rw [hnq]; exact hq) i]
      unfold elemGrad
      apply NMat.apply_congr
      intro n hn'
      rw [hwf.cols, hmesh] at hn'
      exact hp n hn'
  refine ⟨MvPolynomial.coeff 0 p, fun n hn' => ?_⟩
  rw [← hp n hn', eq_C_of_pderiv p hzero, MvPolynomial.eval_C]
  simp

end Verif.Core
