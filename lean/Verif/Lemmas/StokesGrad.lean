import Verif.Model.StokesGrad
import Verif.Props.C42_C43
import Mathlib.LinearAlgebra.Dual.Lemmas

/-!
# Transposes of the maps of a Stokes step and the solves of the reverse pass
-/

set_option linter.unusedSectionVars false

namespace Verif.NS

open Verif.Core Verif.Linalg Verif.Spec

variable {K : Type*} [Field K] [LinearOrder K] {d : ℕ} {sem : StokesSEM K d} {low : Nodes1D K}

theorem vDot_add_left (a b c : Vel K d) : sem.vDot (a + b) c = sem.vDot a c + sem.vDot b c := by
  simp [StokesSEM.vDot, add_mul, Finset.sum_add_distrib]

theorem vDot_add_right (a b c : Vel K d) : sem.vDot a (b + c) = sem.vDot a b + sem.vDot a c := by
  simp [StokesSEM.vDot, mul_add, Finset.sum_add_distrib]

theorem vDot_sub_left (a b c : Vel K d) : sem.vDot (a - b) c = sem.vDot a c - sem.vDot b c := by
  simp [StokesSEM.vDot, sub_mul, Finset.sum_sub_distrib]

theorem vDot_sub_right (a b c : Vel K d) : sem.vDot a (b - c) = sem.vDot a b - sem.vDot a c := by
  simp [StokesSEM.vDot, mul_sub, Finset.sum_sub_distrib]

theorem vDot_smul_right (r : K) (a b : Vel K d) : sem.vDot a (r • b) = r * sem.vDot a b := by
  simp [StokesSEM.vDot, Finset.mul_sum, mul_left_comm]

theorem vDot_zero_left (a : Vel K d) : sem.vDot 0 a = 0 := by simp [StokesSEM.vDot]

theorem vDot_zero_right (a : Vel K d) : sem.vDot a 0 = 0 := by simp [StokesSEM.vDot]

theorem nodeDot_add_left (N : ℕ) (a b c : ℕ → K) : nodeDot N (a + b) c = nodeDot N a c + nodeDot N b c := by
  simp [nodeDot, add_mul, Finset.sum_add_distrib]

theorem nodeDot_add_right (N : ℕ) (a b c : ℕ → K) : nodeDot N a (b + c) = nodeDot N a b + nodeDot N a c := by
  simp [nodeDot, mul_add, Finset.sum_add_distrib]

theorem nodeDot_sub_right (N : ℕ) (a b c : ℕ → K) : nodeDot N a (b - c) = nodeDot N a b - nodeDot N a c := by
  simp [nodeDot, mul_sub, Finset.sum_sub_distrib]

theorem nodeDot_sub_left (N : ℕ) (a b c : ℕ → K) : nodeDot N (a - b) c = nodeDot N a c - nodeDot N b c := by
  simp [nodeDot, sub_mul, Finset.sum_sub_distrib]

theorem nodeDot_neg_right (N : ℕ) (a b : ℕ → K) : nodeDot N a (-b) = -nodeDot N a b := by
  simp [nodeDot]

theorem nodeDot_smul_left (N : ℕ) (r : K) (a b : ℕ → K) : nodeDot N (r • a) b = r * nodeDot N a b := by
  simp [nodeDot, Finset.mul_sum, mul_assoc]

theorem nodeDot_smul_right (N : ℕ) (r : K) (a b : ℕ → K) : nodeDot N a (r • b) = r * nodeDot N a b := by
  simp [nodeDot, Finset.mul_sum, mul_left_comm]

/-! ### transposes -/

theorem vDot_unit (j : ℕ) (hj : j < sem.numV) (k : Fin d) (y : Vel K d) : sem.vDot (vUnit j k) y = y j k := by
  unfold StokesSEM.vDot vUnit
  rw [Finset.sum_eq_single j, Finset.sum_eq_single k]
  · simp
  · intro l _ hl; simp [hl]
  · intro h; exact absurd (Finset.mem_univ k) h
  · intro i _ hi
    exact Finset.sum_eq_zero fun l _ => by simp [hi]
  · intro h; exact absurd (Finset.mem_range.mpr hj) h

theorem nodeDot_unit {N : ℕ} (j : ℕ) (hj : j < N) (y : ℕ → K) : nodeDot N (pUnit j) y = y j := by
  unfold nodeDot pUnit
  rw [Finset.sum_eq_single j]
  · simp
  · intro i _ hi; simp [hi]
  · intro h; exact absurd (Finset.mem_range.mpr hj) h

theorem vUnit_sum {x : Vel K d} (hx : ∀ j, sem.numV ≤ j → x j = 0) :
    x = ∑ j ∈ Finset.range sem.numV, ∑ k, x j k • (vUnit j k : Vel K d) := by
  funext i l
  rw [Finset.sum_apply, Finset.sum_apply]
  by_cases hi : i < sem.numV
  · rw [Finset.sum_eq_single i]
    · rw [Finset.sum_apply, Finset.sum_apply, Finset.sum_eq_single l]
      · simp [vUnit]
      · intro k _ hk; simp [vUnit, Ne.symm hk]
      · intro h; exact absurd (Finset.mem_univ l) h
    · intro j _ hj
      rw [Finset.sum_apply, Finset.sum_apply]
      exact Finset.sum_eq_zero fun k _ => by simp [vUnit, Ne.symm hj]
    · intro h; exact absurd (Finset.mem_range.mpr hi) h
  · rw [hx i (not_lt.mp hi)]
    refine (Finset.sum_eq_zero fun j hj => ?_).symm
    have : i ≠ j := by have := Finset.mem_range.mp hj; omega
    rw [Finset.sum_apply, Finset.sum_apply]
    exact Finset.sum_eq_zero fun k _ => by simp [vUnit, this]

theorem vDot_sum_left {ι : Type*} (s : Finset ι) (f : ι → Vel K d) (y : Vel K d) :
    sem.vDot (∑ i ∈ s, f i) y = ∑ i ∈ s, sem.vDot (f i) y := by
  classical
  induction s using Finset.induction_on with
  | empty => simp [vDot_zero_left]
  | insert a s ha ih => rw [Finset.sum_insert ha, Finset.sum_insert ha, vDot_add_left, ih]

theorem nodeDot_sum_left {ι : Type*} (N : ℕ) (s : Finset ι) (f : ι → ℕ → K) (y : ℕ → K) :
    nodeDot N (∑ i ∈ s, f i) y = ∑ i ∈ s, nodeDot N (f i) y := by
  classical
  induction s using Finset.induction_on with
  | empty => simp [nodeDot]
  | insert a s ha ih => rw [Finset.sum_insert ha, Finset.sum_insert ha, nodeDot_add_left, ih]

/-- The transpose of a linear map, on fields that live on the nodes. -/
theorem vvT_dot (L : Vel K d →ₗ[K] Vel K d) {x : Vel K d} (hx : ∀ j, sem.numV ≤ j → x j = 0) (y : Vel K d) :
    sem.vDot (sem.vvT L y) x = sem.vDot (L x) y := by
  conv_rhs => rw [vUnit_sum (sem := sem) hx]
  rw [map_sum, vDot_sum_left]
  unfold StokesSEM.vDot
  refine Finset.sum_congr rfl fun j hj => ?_
  rw [map_sum]
  have := vDot_sum_left (sem := sem) Finset.univ (fun k => L (x j k • (vUnit j k : Vel K d))) y
  unfold StokesSEM.vDot at this
  rw [this]
  refine Finset.sum_congr rfl fun k _ => ?_
  rw [map_smul, StokesSEM.vvT, if_pos (Finset.mem_range.mp hj)]
  unfold StokesSEM.vDot
  rw [Finset.sum_mul]
  refine Finset.sum_congr rfl fun i _ => ?_
  rw [Finset.sum_mul]
  refine Finset.sum_congr rfl fun l _ => ?_
  simp only [Pi.smul_apply, smul_eq_mul]
  ring

theorem vpT_dot (L : Vel K d →ₗ[K] (ℕ → K)) {x : Vel K d} (hx : ∀ j, sem.numV ≤ j → x j = 0) (y : ℕ → K) :
    sem.vDot (sem.vpT L y) x = nodeDot sem.numP (L x) y := by
  conv_rhs => rw [vUnit_sum (sem := sem) hx]
  rw [map_sum, nodeDot_sum_left]
  unfold StokesSEM.vDot
  refine Finset.sum_congr rfl fun j hj => ?_
  rw [map_sum, nodeDot_sum_left]
  refine Finset.sum_congr rfl fun k _ => ?_
  rw [map_smul, nodeDot_smul_left, StokesSEM.vpT, if_pos (Finset.mem_range.mp hj)]
  ring

theorem vvT_outside (L : Vel K d → Vel K d) (y : Vel K d) (j : ℕ) (hj : sem.numV ≤ j) : sem.vvT L y j = 0 := by
  funext k
  rw [StokesSEM.vvT, if_neg (by omega)]
  rfl

theorem vpT_outside (L : Vel K d → ℕ → K) (y : ℕ → K) (j : ℕ) (hj : sem.numV ≤ j) : sem.vpT L y j = 0 := by
  funext k
  rw [StokesSEM.vpT, if_neg (by omega)]
  rfl

theorem pvT_Q_Dt (hv : sem.Valid) (dt beta : K) {y : Vel K d} (hy : sem.Masked y) :
    sem.pvT (fun p => sem.Q dt beta (sem.Dt p)) y = sem.D (sem.Q dt beta y) := by
  funext j
  by_cases hj : j < sem.numP
  · rw [StokesSEM.pvT, if_pos hj, Q_symm, ← D_Dt_adjoint hv _ (Q_masked hv dt beta y hy), nodeDot_unit j hj]
  · rw [StokesSEM.pvT, if_neg hj, D_outside sem _ j (not_lt.mp hj)]

theorem pvT_Dt (hv : sem.Valid) {y : Vel K d} (hy : sem.Masked y) : sem.pvT sem.Dt y = sem.D y := by
  funext j
  by_cases hj : j < sem.numP
  · rw [StokesSEM.pvT, if_pos hj, vDot_comm, ← D_Dt_adjoint hv _ hy, nodeDot_unit j hj]
  · rw [StokesSEM.pvT, if_neg hj, D_outside sem _ j (not_lt.mp hj)]

theorem vvT_B (y h : Vel K d) : sem.vDot (sem.vvT sem.B y) h = sem.vDot y (sem.B h) := by
  unfold StokesSEM.vDot
  refine Finset.sum_congr rfl fun j hj => Finset.sum_congr rfl fun k _ => ?_
  have : sem.vvT sem.B y j k = sem.B y j k := by
    rw [StokesSEM.vvT, if_pos (Finset.mem_range.mp hj)]
    have h1 : sem.vDot (sem.B (vUnit j k)) y = sem.vDot (vUnit j k) (sem.B y) := by
      unfold StokesSEM.vDot StokesSEM.B
      exact Finset.sum_congr rfl fun i _ => Finset.sum_congr rfl fun l _ => by ring
    rw [h1, vDot_unit j (Finset.mem_range.mp hj)]
  rw [this]
  unfold StokesSEM.B
  ring

/-- The filter is a linear map. -/
theorem filter_linear (F : FilterSetup sem.vspace.mesh low) (alpha : K) :
    ∃ L : Vel K d →ₗ[K] Vel K d, ∀ u, sem.filter low alpha u = some (L u) := by
  have hL := interpMatrix1d_eq _ _ F.weights F.nodes low.value
  have hH := interpMatrix1d_eq _ _ F.lowWeights F.lowNodes sem.vspace.mesh.grid.value
  obtain ⟨Ld, Hd, hLd, hHd, hloc⟩ := filter_local F.points F.lowPoints F.dim
    (Matrix.of fun a i => (Lagrange.basis Finset.univ sem.vspace.mesh.grid.value i).eval (low.value a))
    (Matrix.of fun a i => (Lagrange.basis Finset.univ low.value i).eval (sem.vspace.mesh.grid.value a))
  have hap : ∀ (A : NMat K) (x y : ℕ → K), A.apply (x + y) = A.apply x + A.apply y := by
    intro A x y
    funext i
    simp [NMat.apply, mul_add, Finset.sum_add_distrib]
  have has : ∀ (A : NMat K) (c : K) (x : ℕ → K), A.apply (c • x) = c • A.apply x := by
    intro A c x
    funext i
    simp [NMat.apply, Finset.mul_sum, mul_left_comm]
  refine ⟨⟨⟨fun u p k => (1 - alpha) * u p k + alpha * ((1 / sem.diagQqt p) * vScatter sem.vspace.mesh
    (fun m n k => Hd.apply (Ld.apply (fun n => vGather sem.vspace.mesh u m n k)) n) p k), ?_⟩, ?_⟩, ?_⟩
  · intro u v
    have : (fun (m n : ℕ) (k : Fin d) => Hd.apply (Ld.apply (fun n => vGather sem.vspace.mesh (u + v) m n k)) n) =
        (fun m n k => Hd.apply (Ld.apply (fun n => vGather sem.vspace.mesh u m n k)) n) +
        (fun m n k => Hd.apply (Ld.apply (fun n => vGather sem.vspace.mesh v m n k)) n) := by
      funext m n k
      simp only [vGather_add, Pi.add_apply]
      have h1 := hap Ld (fun n => vGather sem.vspace.mesh u m n k) (fun n => vGather sem.vspace.mesh v m n k)
      have h2 : (fun n => vGather sem.vspace.mesh u m n k + vGather sem.vspace.mesh v m n k) =
        (fun n => vGather sem.vspace.mesh u m n k) + (fun n => vGather sem.vspace.mesh v m n k) := rfl
      rw [h2, h1, hap, Pi.add_apply]
    funext p k
    simp only [this, vScatter_add, Pi.add_apply]
    ring
  · intro c u
    have : (fun (m n : ℕ) (k : Fin d) => Hd.apply (Ld.apply (fun n => vGather sem.vspace.mesh (c • u) m n k)) n) =
        c • (fun m n k => Hd.apply (Ld.apply (fun n => vGather sem.vspace.mesh u m n k)) n) := by
      funext m n k
      simp only [vGather_smul, Pi.smul_apply, smul_eq_mul]
      have h1 := has Ld c (fun n => vGather sem.vspace.mesh u m n k)
      have h2 : (fun n => c * vGather sem.vspace.mesh u m n k) = c • (fun n => vGather sem.vspace.mesh u m n k) := rfl
      rw [h2, h1, has, Pi.smul_apply, smul_eq_mul]
    funext p k
    simp only [this, vScatter_smul, Pi.smul_apply, smul_eq_mul, RingHom.id_apply]
    ring
  · intro u
    unfold StokesSEM.filter
    simp only [hL, hH, hLd, hHd]
    rfl

/-! ### the solves with zero tolerances -/

/-- The residual of the velocity solve is invisible to fields that agree on copies. -/
theorem velocity_exact [IsStrictOrderedRing K] (hv : sem.Valid) (hout : ∀ j, sem.numV ≤ j → ∀ k, sem.massDiag j k = 0)
    (hmass : ∀ j < sem.numV, ∀ k, 0 < sem.massDiag j k) (hstiff : ∀ ul, 0 ≤ vStiffForm sem.vspace ul ul)
    (mu dt beta : K) (hmu : 0 ≤ mu) (hdt : 0 < dt) (hbeta : 0 < beta) (b : Vel K d) (hb : b ∈ VSpace sem) :
    ∃ x res n, cg sem.vDot (sem.H mu dt beta) (vExchange sem.vspace.mesh) b 0 0 0 (10 * (sem.numV * d)) =
        some (x, res, n) ∧ x ∈ TSpace sem ∧ ∀ v ∈ TSpace sem, sem.vDot v (sem.H mu dt beta x) = sem.vDot v b := by
  obtain ⟨x, res, n, hcg, hx, _, hr, hres⟩ := velocity_solve hv hout hmass hstiff mu dt beta hmu hdt hbeta b hb 0 0
  refine ⟨x, res, n, hcg, hx, fun v hvT => ?_⟩
  have hle : res ≤ 0 := hres.trans_eq (by simp)
  set r := b - sem.H mu dt beta x with hrd
  have hexch : ∀ j < sem.numV, ∀ k, vExchange sem.vspace.mesh r j k = 0 := by
    have hk : ∀ k, ∑ j ∈ Finset.range sem.numV, r j k * sem.vspace.mesh.exchange (fun p => r p k) j =
        ∑ j ∈ Finset.range sem.numV, sem.vspace.mesh.exchange (fun p => r p k) j /
          sem.vspace.mesh.exchange (fun _ => (1 : K)) j * sem.vspace.mesh.exchange (fun p => r p k) j := by
      intro k
      have := sum_continuous sem.vspace.mesh (fun j => sem.vspace.mesh.exchange (fun p => r p k) j) (fun j => r j k)
        (fun i hi j hj hs => exchange_same sem.vspace.mesh _ hi hj hs)
      refine (Finset.sum_congr rfl fun j _ => mul_comm _ _).trans (this.trans (Finset.sum_congr rfl fun j _ => ?_))
      first | rfl | ring
    have hnn : ∀ k, ∀ j ∈ Finset.range sem.numV, 0 ≤ sem.vspace.mesh.exchange (fun p => r p k) j /
          sem.vspace.mesh.exchange (fun _ => (1 : K)) j * sem.vspace.mesh.exchange (fun p => r p k) j := by
      intro k j hj
      have h2 := exchange_one_pos sem.vspace.mesh j (Finset.mem_range.mp hj)
      rw [div_mul_eq_mul_div]
      exact div_nonneg (mul_self_nonneg _) h2.le
    have hz : ∑ k, ∑ j ∈ Finset.range sem.numV, r j k * sem.vspace.mesh.exchange (fun p => r p k) j ≤ 0 := by
      rw [Finset.sum_comm]
      rw [hr] at hle
      exact hle
    rw [Finset.sum_congr rfl fun k _ => hk k] at hz
    have hz' := (Finset.sum_eq_zero_iff_of_nonneg (fun k _ => Finset.sum_nonneg (hnn k))).mp
      (le_antisymm hz (Finset.sum_nonneg fun k _ => Finset.sum_nonneg (hnn k)))
    intro j hj k
    have h3 := (Finset.sum_eq_zero_iff_of_nonneg (hnn k)).mp (hz' k (Finset.mem_univ k)) j (Finset.mem_range.mpr hj)
    have h2 := exchange_one_pos sem.vspace.mesh j hj
    rcases mul_eq_zero.mp h3 with h4 | h4
    · exact (div_eq_zero_iff.mp h4).resolve_right h2.ne'
    · exact h4
  have := vDot_exchange_zero hvT hexch
  rw [hrd, vDot_sub_right] at this
  linarith

theorem H_symm (hv : sem.Valid) (mu dt beta : K) {x y : Vel K d} (hx : sem.Masked x) (hy : sem.Masked y) :
    sem.vDot x (sem.H mu dt beta y) = sem.vDot y (sem.H mu dt beta x) := by
  rw [H_dot hv hx, H_dot hv hy, vStiffForm_comm]
  congr 2
  exact Finset.sum_congr rfl fun j _ => Finset.sum_congr rfl fun k _ => by ring

theorem nodeDot_self_zero [IsStrictOrderedRing K] {N : ℕ} {r : ℕ → K} (h : nodeDot N r r ≤ 0) (j : ℕ) (hj : j < N) : r j = 0 := by
  have h1 := (Finset.sum_eq_zero_iff_of_nonneg (fun j _ => mul_self_nonneg (r j))).mp
    (le_antisymm h (Finset.sum_nonneg fun j _ => mul_self_nonneg (r j))) j (Finset.mem_range.mpr hj)
  exact mul_self_eq_zero.mp h1

/-- The pressure solve is exact. -/
theorem pressure_exact [IsStrictOrderedRing K] (hv : sem.Valid) {pmesh : Mesh K d} {quad : Quadrature1D K} {project : Bool}
    (HP : project = true → PressureSetup pmesh quad sem ∧ sem.Closed) (dt beta : K) (h : 0 < dt / beta) (b : ℕ → K)
    (hb : b ∈ PSpace sem) :
    ∃ x res n, cg (nodeDot sem.numP) (sem.E dt beta) (sem.precondFn (StokesSEM.choosePrecond none project)) b 0 0 0
        (10 * sem.numP) = some (x, res, n) ∧ sem.E dt beta x = b := by
  have fin : ∀ x : ℕ → K, nodeDot sem.numP (b - sem.E dt beta x) (b - sem.E dt beta x) ≤
      max ((0 : K) ^ 2 * nodeDot sem.numP b b) (0 ^ 2) → sem.E dt beta x = b := by
    intro x hx
    have h0 := hx.trans_eq (show _ = (0 : K) by simp)
    funext j
    by_cases hj : j < sem.numP
    · have := nodeDot_self_zero h0 j hj
      exact (sub_eq_zero.mp this).symm
    · rw [PSpace.outside hb j (not_lt.mp hj), PSpace.outside (E_mem hv dt beta x) j (not_lt.mp hj)]
  cases project with
  | false =>
    obtain ⟨x, r, n, h1, _, _, h3, h4⟩ := pressure_solve hv dt beta h b hb 0 0
    exact ⟨x, r, n, h1, fin x (h3 ▸ h4)⟩
  | true =>
    obtain ⟨HP, hcl⟩ := HP rfl
    obtain ⟨x, r, n, h1, _, _, h3, h4⟩ := pressure_solve_project hv HP hcl dt beta h b hb 0 0
    exact ⟨x, r, n, h1, fin x (h3 ▸ h4)⟩

/-- Pressures that no divergence sees are those without a discrete gradient; what is orthogonal to all of them is a
divergence. -/
theorem mem_PSpace_of_orthogonal [IsStrictOrderedRing K] (hv : sem.Valid) {g : ℕ → K} (hout : ∀ j, sem.numP ≤ j → g j = 0)
    (horth : ∀ q : ℕ → K, (∀ j < sem.numV, ∀ k, vExchange sem.vspace.mesh (sem.Dt q) j k = 0) → nodeDot sem.numP g q = 0) :
    g ∈ PSpace sem := by
  -- the orthogonal projection onto the divergences
  have hinj : Function.Injective (pDotLin sem) := by
    rw [injective_iff_map_eq_zero]
    intro x hx
    by_contra hne
    have h1 := nodeDot_pos x.2 (fun h => hne (Subtype.ext h))
    have h2 : pDotLin sem x x = 0 := by rw [hx]; rfl
    exact h1.ne' h2
  have hsurj : Function.Surjective (pDotLin sem) :=
    (LinearMap.injective_iff_surjective_of_finrank_eq_finrank (Subspace.dual_finrank_eq).symm).mp hinj
  obtain ⟨q, hq⟩ := hsurj ⟨⟨fun p => nodeDot sem.numP g p.1, fun a b => nodeDot_add_right _ _ _ _⟩,
    fun c a => nodeDot_smul_right _ _ _ _⟩
  have hq' : ∀ p ∈ PSpace sem, nodeDot sem.numP (g - q.1) p = 0 := by
    intro p hp
    have := congrArg (fun l => l ⟨p, hp⟩) hq
    have h1 : nodeDot sem.numP q.1 p = nodeDot sem.numP g p := this
    rw [nodeDot_sub_left, h1, sub_self]
  have hgrad : ∀ j < sem.numV, ∀ k, vExchange sem.vspace.mesh (sem.Dt (g - q.1)) j k = 0 := by
    refine E_form_zero hv 1 1 (by simp) _ ?_
    exact hq' _ (E_mem hv 1 1 _)
  have h1 := horth _ hgrad
  have h2 := hq' _ q.2
  have h3 : nodeDot sem.numP (g - q.1) (g - q.1) = 0 := by
    rw [nodeDot_sub_right, h2, nodeDot_comm, h1, sub_zero]
  have : g = q.1 := by
    funext j
    by_cases hj : j < sem.numP
    · have := nodeDot_self_zero h3.le j hj
      exact sub_eq_zero.mp this
    · rw [hout j (not_lt.mp hj), PSpace.outside q.2 j (not_lt.mp hj)]
  rw [this]
  exact q.2

theorem PSpace_orthogonal [IsStrictOrderedRing K] (hv : sem.Valid) {g : ℕ → K} (hg : g ∈ PSpace sem) {q : ℕ → K}
    (hq : ∀ j < sem.numV, ∀ k, vExchange sem.vspace.mesh (sem.Dt q) j k = 0) : nodeDot sem.numP g q = 0 := by
  obtain ⟨u, hu, rfl⟩ := hg
  rw [nodeDot_comm]
  change nodeDot sem.numP q (sem.D u) = 0
  rw [D_Dt_adjoint hv u (VSpace_masked hu.1)]
  exact vDot_exchange_zero hu hq

end Verif.NS
