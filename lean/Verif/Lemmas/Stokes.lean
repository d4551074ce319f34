import Verif.Lemmas.Poisson
import Verif.Model.Stokes
import Verif.Props.C11_C16
import Verif.Props.C36_C37

/-! Lemmas for the Stokes operators: exchange, vector valued gather and scatter, forms. -/

set_option linter.unusedSectionVars false

namespace Verif.NS

open Verif.Core Verif.Linalg

variable {K : Type*} [Field K] [LinearOrder K] {d : ℕ}

/-! ### exchange -/

/-- Nodes `i` and `j` are copies of the same node. -/
def SameNode (mesh : Mesh K d) (i j : ℕ) : Prop := i = j ∨ (mesh.nodeIndices i = mesh.nodeIndices j ∧ mesh.nodeIndices i ≠ -1)

instance (mesh : Mesh K d) (i j : ℕ) : Decidable (SameNode mesh i j) := by unfold SameNode; infer_instance

theorem SameNode.refl (mesh : Mesh K d) (i : ℕ) : SameNode mesh i i := Or.inl rfl

theorem SameNode.symm {mesh : Mesh K d} {i j : ℕ} (h : SameNode mesh i j) : SameNode mesh j i := by
  rcases h with h | ⟨h, h'⟩
  · exact Or.inl h.symm
  · exact Or.inr ⟨h.symm, by rw [← h]; exact h'⟩

theorem SameNode.trans {mesh : Mesh K d} {i j l : ℕ} (h : SameNode mesh i j) (h' : SameNode mesh j l) : SameNode mesh i l := by
  rcases h with rfl | ⟨h1, h2⟩
  · exact h'
  · rcases h' with rfl | ⟨h3, h4⟩
    · exact Or.inr ⟨h1, h2⟩
    · exact Or.inr ⟨h1.trans h3, h2⟩

theorem SameNode.comm {mesh : Mesh K d} {i j : ℕ} : SameNode mesh i j ↔ SameNode mesh j i := ⟨SameNode.symm, SameNode.symm⟩

theorem exchange_sum (mesh : Mesh K d) (u : ℕ → K) (i : ℕ) (hi : i < mesh.numNodes) :
    mesh.exchange u i = ∑ j ∈ Finset.range mesh.numNodes, if SameNode mesh i j then u j else 0 := by
  unfold Mesh.exchange
  rw [C13_exchange_sums_copies _ _ _ _ hi]
  by_cases h : mesh.nodeIndices i = -1
  · rw [if_pos h, Finset.sum_eq_single i]
    · rw [if_pos (SameNode.refl mesh i)]
    · intro j _ hj
      rw [if_neg]
      rintro (h1 | h1)
      · exact hj h1.symm
      · exact h1.2 h
    · intro h1; exact absurd (Finset.mem_range.mpr hi) h1
  · rw [if_neg h]
    unfold Verif.Spec.copiesSum
    rw [← Finset.sum_filter]
    apply Finset.sum_congr
    · ext j
      simp only [Finset.mem_filter]
      refine and_congr_right fun _ => ⟨fun h1 => Or.inr ⟨h1.symm, h⟩, ?_⟩
      rintro (rfl | h1)
      · rfl
      · exact h1.1.symm
    · intros; rfl

theorem exchange_same (mesh : Mesh K d) (u : ℕ → K) {i j : ℕ} (hi : i < mesh.numNodes) (hj : j < mesh.numNodes)
    (h : SameNode mesh i j) : mesh.exchange u i = mesh.exchange u j := by
  rw [exchange_sum mesh u i hi, exchange_sum mesh u j hj]
  refine Finset.sum_congr rfl fun l _ => ?_
  have : SameNode mesh i l ↔ SameNode mesh j l := ⟨fun h1 => h.symm.trans h1, fun h1 => h.trans h1⟩
  by_cases h1 : SameNode mesh i l
  · rw [if_pos h1, if_pos (this.mp h1)]
  · rw [if_neg h1, if_neg (fun h2 => h1 (this.mpr h2))]

/-- Constant on copies. -/
def Continuous (mesh : Mesh K d) (g : ℕ → K) : Prop :=
  ∀ i < mesh.numNodes, ∀ j < mesh.numNodes, SameNode mesh i j → g i = g j

theorem exchange_mul (mesh : Mesh K d) (g u : ℕ → K) (hg : Continuous mesh g) (i : ℕ) (hi : i < mesh.numNodes) :
    mesh.exchange (fun j => g j * u j) i = g i * mesh.exchange u i := by
  rw [exchange_sum mesh _ i hi, exchange_sum mesh _ i hi, Finset.mul_sum]
  refine Finset.sum_congr rfl fun j hj => ?_
  split
  · rename_i h; rw [hg i hi j (Finset.mem_range.mp hj) h]
  · rw [mul_zero]

theorem exchange_adjoint (mesh : Mesh K d) (u v : ℕ → K) :
    ∑ i ∈ Finset.range mesh.numNodes, mesh.exchange u i * v i =
      ∑ i ∈ Finset.range mesh.numNodes, u i * mesh.exchange v i :=
  (C16_exchange_unpartitioned mesh.numNodes mesh.nodeIndices u v).2.1

theorem exchange_congr (mesh : Mesh K d) (u v : ℕ → K) (h : ∀ j < mesh.numNodes, u j = v j) (i : ℕ)
    (hi : i < mesh.numNodes) : mesh.exchange u i = mesh.exchange v i := by
  rw [exchange_sum mesh _ i hi, exchange_sum mesh _ i hi]
  refine Finset.sum_congr rfl fun j hj => ?_
  rw [h j (Finset.mem_range.mp hj)]

/-- Number of copies. -/
theorem exchange_one_pos [IsStrictOrderedRing K] (mesh : Mesh K d) (i : ℕ) (hi : i < mesh.numNodes) :
    0 < mesh.exchange (fun _ => (1 : K)) i := by
  rw [exchange_sum mesh _ i hi]
  refine Finset.sum_pos' (fun j _ => by split <;> simp) ⟨i, Finset.mem_range.mpr hi, ?_⟩
  rw [if_pos (SameNode.refl mesh i)]
  exact one_pos

/-- `Σ g · u = Σ (g / copies) · exchange u` for `g` constant on copies. -/
theorem sum_continuous [IsStrictOrderedRing K] (mesh : Mesh K d) (g u : ℕ → K) (hg : Continuous mesh g) :
    ∑ i ∈ Finset.range mesh.numNodes, g i * u i =
      ∑ i ∈ Finset.range mesh.numNodes, g i / mesh.exchange (fun _ => (1 : K)) i * mesh.exchange u i := by
  rw [← exchange_adjoint]
  refine Finset.sum_congr rfl fun i hi => ?_
  have hi' := Finset.mem_range.mp hi
  congr 1
  have hc : Continuous mesh (fun i => g i / mesh.exchange (fun _ => (1 : K)) i) := by
    intro i hi j hj h
    simp only
    rw [hg i hi j hj h, exchange_same mesh _ hi hj h]
  have := exchange_mul mesh _ (fun _ => 1) hc i hi'
  simp only [mul_one] at this
  rw [this, div_mul_cancel₀ _ (exchange_one_pos mesh i hi').ne']

/-- `⟨g · exchange u, u⟩ ≥ 0` for nonnegative `g` constant on copies. -/
theorem exchange_psd [IsStrictOrderedRing K] (mesh : Mesh K d) (g u : ℕ → K) (hg : Continuous mesh g)
    (hpos : ∀ i < mesh.numNodes, 0 ≤ g i) :
    0 ≤ ∑ i ∈ Finset.range mesh.numNodes, g i * mesh.exchange u i * u i := by
  have hc : Continuous mesh (fun i => g i * mesh.exchange u i) := by
    intro i hi j hj h
    simp only
    rw [hg i hi j hj h, exchange_same mesh _ hi hj h]
  rw [sum_continuous mesh _ u hc]
  refine Finset.sum_nonneg fun i hi => ?_
  have hi' := Finset.mem_range.mp hi
  rw [mul_div_assoc, mul_assoc, div_mul_eq_mul_div]
  exact mul_nonneg (hpos i hi') (div_nonneg (mul_self_nonneg _) (exchange_one_pos mesh i hi').le)

/-- Symmetry of `u ↦ g · exchange u`. -/
theorem exchange_weighted_symm (mesh : Mesh K d) (g u v : ℕ → K) (hg : Continuous mesh g) :
    ∑ i ∈ Finset.range mesh.numNodes, g i * mesh.exchange u i * v i =
      ∑ i ∈ Finset.range mesh.numNodes, g i * mesh.exchange v i * u i := by
  have h1 : ∀ i ∈ Finset.range mesh.numNodes, g i * mesh.exchange u i * v i =
      mesh.exchange (fun j => g j * u j) i * v i := fun i hi => by
    rw [exchange_mul mesh g u hg i (Finset.mem_range.mp hi)]
  rw [Finset.sum_congr rfl h1, exchange_adjoint]
  exact Finset.sum_congr rfl fun i _ => by ring

/-! ### vector valued gather and scatter -/

theorem vGather_add (mesh : Mesh K d) (u v : Vel K d) : vGather mesh (u + v) = vGather mesh u + vGather mesh v := by
  funext m n k
  exact congrFun (congrFun (mesh.gather_add (fun p => u p k) (fun p => v p k)) m) n

theorem vGather_smul (mesh : Mesh K d) (c : K) (u : Vel K d) : vGather mesh (c • u) = c • vGather mesh u := by
  funext m n k
  exact congrFun (congrFun (mesh.gather_smul c (fun p => u p k)) m) n

theorem vScatter_add (mesh : Mesh K d) (u v : ℕ → ℕ → Fin d → K) :
    vScatter mesh (u + v) = vScatter mesh u + vScatter mesh v := by
  funext p k
  exact congrFun (mesh.scatter_add (fun m n => u m n k) (fun m n => v m n k)) p

theorem vScatter_smul (mesh : Mesh K d) (c : K) (u : ℕ → ℕ → Fin d → K) :
    vScatter mesh (c • u) = c • vScatter mesh u := by
  funext p k
  exact congrFun (mesh.scatter_smul c (fun m n => u m n k)) p

theorem vScatter_outside (mesh : Mesh K d) (ul : ℕ → ℕ → Fin d → K) (j : ℕ) (hj : mesh.numNodes ≤ j) (k : Fin d) :
    vScatter mesh ul j k = 0 := mesh.scatter_outside _ j hj

/-- A vector covector, scattered, represents its functional. -/
theorem vCovector (mesh : Mesh K d) (hm : mesh.InRange) (F : (ℕ → ℕ → Fin d → K) → K)
    (hF : LocalLinear mesh.numElements mesh.nodesPerElem F) (v : Vel K d) :
    ∑ p ∈ Finset.range mesh.numNodes, ∑ k, v p k * vScatter mesh (vectorCovector F) p k = F (vGather mesh v) := by
  rw [← C39_local_covector_vector hF, Finset.sum_comm]
  have h1 : ∀ k : Fin d, ∑ p ∈ Finset.range mesh.numNodes, v p k * vScatter mesh (vectorCovector F) p k =
      ∑ m ∈ Finset.range mesh.numElements, ∑ n ∈ Finset.range mesh.nodesPerElem,
        vGather mesh v m n k * vectorCovector F m n k :=
    fun k => (mesh.gather_scatter_adjoint hm (fun p => v p k) (fun m n => vectorCovector F m n k)).symm
  rw [Finset.sum_congr rfl fun k _ => h1 k, Finset.sum_comm]
  refine Finset.sum_congr rfl fun m _ => ?_
  rw [Finset.sum_comm]

/-! ### forms -/

theorem vectorGrad_scalar (fs : FESpace K d) (ul : ℕ → ℕ → Fin d → K) (m q : ℕ) (j k : Fin d) :
    vectorGrad fs ul m q j k = scalarGrad fs (fun m n => ul m n k) m q j := rfl

theorem vectorFn_scalar (fs : FESpace K d) (ul : ℕ → ℕ → Fin d → K) (m q : ℕ) (k : Fin d) :
    vectorFn fs ul m q k = scalarFn fs (fun m n => ul m n k) m q := rfl

theorem scalarGrad_add (fs : FESpace K d) (v w : ℕ → ℕ → K) (m q : ℕ) (j : Fin d) :
    scalarGrad fs (v + w) m q j = scalarGrad fs v m q j + scalarGrad fs w m q j := by
  unfold scalarGrad elemGrad
  rw [← Finset.sum_add_distrib]
  refine Finset.sum_congr rfl fun i _ => ?_
  rw [Pi.add_apply, NMat.apply_add, add_mul]

theorem scalarGrad_smul (fs : FESpace K d) (c : K) (v : ℕ → ℕ → K) (m q : ℕ) (j : Fin d) :
    scalarGrad fs (c • v) m q j = c * scalarGrad fs v m q j := by
  unfold scalarGrad elemGrad
  rw [Finset.mul_sum]
  refine Finset.sum_congr rfl fun i _ => ?_
  rw [Pi.smul_apply, NMat.apply_smul, mul_assoc]

theorem scalarGrad_congr (fs : FESpace K d) (hwf : fs.WF) (v w : ℕ → ℕ → K) (m q : ℕ) (j : Fin d)
    (h : ∀ n < fs.mesh.nodesPerElem, v m n = w m n) : scalarGrad fs v m q j = scalarGrad fs w m q j := by
  unfold scalarGrad elemGrad
  refine Finset.sum_congr rfl fun i _ => ?_
  rw [NMat.apply_congr _ (v m) (w m) q (fun n hn => h n (by rw [hwf.cols] at hn; exact hn))]

theorem divFn_add (fs : FESpace K d) (v w : ℕ → ℕ → Fin d → K) (m q : ℕ) :
    divFn fs (v + w) m q = divFn fs v m q + divFn fs w m q := by
  unfold divFn
  rw [← Finset.sum_add_distrib]
  exact Finset.sum_congr rfl fun j _ => scalarGrad_add fs (fun m n => v m n j) (fun m n => w m n j) m q j

theorem divFn_smul (fs : FESpace K d) (c : K) (v : ℕ → ℕ → Fin d → K) (m q : ℕ) :
    divFn fs (c • v) m q = c * divFn fs v m q := by
  unfold divFn
  rw [Finset.mul_sum]
  exact Finset.sum_congr rfl fun j _ => scalarGrad_smul fs c (fun m n => v m n j) m q j

theorem divFn_congr (fs : FESpace K d) (hwf : fs.WF) (v w : ℕ → ℕ → Fin d → K) (m q : ℕ)
    (h : ∀ n < fs.mesh.nodesPerElem, v m n = w m n) : divFn fs v m q = divFn fs w m q := by
  unfold divFn
  exact Finset.sum_congr rfl fun j _ =>
    scalarGrad_congr fs hwf (fun m n => v m n j) (fun m n => w m n j) m q j (fun n hn => by simp only [h n hn])

theorem integrate_add (fs : FESpace K d) (a b : QFun K) :
    integrate fs (fun m q => a m q + b m q) = integrate fs a + integrate fs b := by
  unfold integrate
  rw [← Finset.sum_add_distrib]
  refine Finset.sum_congr rfl fun m _ => ?_
  rw [← Finset.sum_add_distrib]
  exact Finset.sum_congr rfl fun q _ => by ring

theorem integrate_mul (fs : FESpace K d) (c : K) (a : QFun K) :
    integrate fs (fun m q => c * a m q) = c * integrate fs a := by
  unfold integrate
  rw [Finset.mul_sum]
  refine Finset.sum_congr rfl fun m _ => ?_
  rw [Finset.mul_sum]
  exact Finset.sum_congr rfl fun q _ => by ring

theorem integrate_congr (fs : FESpace K d) (a b : QFun K)
    (h : ∀ m < fs.mesh.numElements, ∀ q < fs.numQuad, a m q = b m q) : integrate fs a = integrate fs b := by
  unfold integrate
  refine Finset.sum_congr rfl fun m hm => Finset.sum_congr rfl fun q hq => ?_
  rw [h m (Finset.mem_range.mp hm) q (Finset.mem_range.mp hq)]

/-- Functionals that integrate a pointwise linear expression of the divergence. -/
theorem divForm_linear (fs : FESpace K d) (hwf : fs.WF) (c : QFun K) :
    LocalLinear fs.mesh.numElements fs.mesh.nodesPerElem (fun vl => integrate fs (fun m q => divFn fs vl m q * c m q)) := by
  refine ⟨fun v w => ?_, fun a v => ?_, fun v w h => ?_⟩
  · rw [← integrate_add]
    congr 1
    funext m q
    rw [divFn_add, add_mul]
  · rw [← integrate_mul]
    congr 1
    funext m q
    rw [divFn_smul, mul_assoc]
  · apply integrate_congr
    intro m hm q hq
    rw [divFn_congr fs hwf v w m q (fun n hn => h m hm n hn)]

theorem vMassForm_linear (fs : FESpace K d) (hwf : fs.WF) (ul : ℕ → ℕ → Fin d → K) :
    LocalLinear fs.mesh.numElements fs.mesh.nodesPerElem (vMassForm fs ul) := by
  refine ⟨fun v w => ?_, fun a v => ?_, fun v w h => ?_⟩
  · unfold vMassForm
    rw [← integrate_add]
    congr 1
    funext m q
    rw [← Finset.sum_add_distrib]
    refine Finset.sum_congr rfl fun k _ => ?_
    have : vectorFn fs (v + w) m q k = vectorFn fs v m q k + vectorFn fs w m q k :=
      hwf.add (fun n => v m n k) (fun n => w m n k) q
    rw [this, mul_add]
  · unfold vMassForm
    rw [← integrate_mul]
    congr 1
    funext m q
    rw [Finset.mul_sum]
    refine Finset.sum_congr rfl fun k _ => ?_
    have : vectorFn fs (a • v) m q k = a * vectorFn fs v m q k := hwf.smul a (fun n => v m n k) q
    rw [this]
    ring
  · apply integrate_congr
    intro m hm q hq
    refine Finset.sum_congr rfl fun k _ => ?_
    have : vectorFn fs v m q k = vectorFn fs w m q k :=
      hwf.local_ _ _ (fun n hn => by simp only [h m hm n hn]) q hq
    rw [this]

theorem vStiffForm_linear (fs : FESpace K d) (hwf : fs.WF) (ul : ℕ → ℕ → Fin d → K) :
    LocalLinear fs.mesh.numElements fs.mesh.nodesPerElem (vStiffForm fs ul) := by
  refine ⟨fun v w => ?_, fun a v => ?_, fun v w h => ?_⟩
  · unfold vStiffForm
    rw [← integrate_add]
    congr 1
    funext m q
    rw [← Finset.sum_add_distrib]
    refine Finset.sum_congr rfl fun i _ => ?_
    rw [← Finset.sum_add_distrib]
    refine Finset.sum_congr rfl fun j _ => ?_
    have : vectorGrad fs (v + w) m q i j = vectorGrad fs v m q i j + vectorGrad fs w m q i j :=
      scalarGrad_add fs (fun m n => v m n j) (fun m n => w m n j) m q i
    rw [this, mul_add]
  · unfold vStiffForm
    rw [← integrate_mul]
    congr 1
    funext m q
    rw [Finset.mul_sum]
    refine Finset.sum_congr rfl fun i _ => ?_
    rw [Finset.mul_sum]
    refine Finset.sum_congr rfl fun j _ => ?_
    have : vectorGrad fs (a • v) m q i j = a * vectorGrad fs v m q i j :=
      scalarGrad_smul fs a (fun m n => v m n j) m q i
    rw [this]
    ring
  · apply integrate_congr
    intro m hm q hq
    refine Finset.sum_congr rfl fun i _ => Finset.sum_congr rfl fun j _ => ?_
    have : vectorGrad fs v m q i j = vectorGrad fs w m q i j :=
      scalarGrad_congr fs hwf (fun m n => v m n j) (fun m n => w m n j) m q i (fun n hn => by simp only [h m hm n hn])
    rw [this]

theorem vStiffForm_comm (fs : FESpace K d) (u v : ℕ → ℕ → Fin d → K) : vStiffForm fs u v = vStiffForm fs v u := by
  unfold vStiffForm
  congr 1
  funext m q
  exact Finset.sum_congr rfl fun i _ => Finset.sum_congr rfl fun j _ => mul_comm _ _

end Verif.NS
