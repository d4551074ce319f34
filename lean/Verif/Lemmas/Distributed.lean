import Verif.Lemmas.FESpace
import Verif.Lemmas.CGSim
import Verif.Model.Distributed

/-! Lemmas about a mesh that is cut into pieces. -/

set_option linter.unusedSectionVars false

namespace Verif.Core

open Verif.Spec Verif.Linalg

variable {K : Type*} [Field K] [LinearOrder K] {d : ℕ}

/-! ### one piece of a mesh -/

/-- `D` is a piece of `G`: its element `m` is element `e m` of `G`, slot `s` of `D` holds node `node s` of `G`. -/
structure IsPiece (G D : Mesh K d) (node : ℕ → ℤ) (e : ℕ → ℕ) : Prop where
  grid : D.grid = G.grid
  elt : ∀ m < D.numElements, e m < G.numElements
  entry : ∀ m < D.numElements, ∀ n < G.nodesPerElem, ∃ s : ℕ, s < D.numNodes ∧ D.elements m n = s ∧
    node s = G.elements (e m) n ∧ 0 ≤ G.elements (e m) n ∧ G.elements (e m) n < G.numNodes ∧
    D.coords s = G.coords (G.elements (e m) n).toNat

variable {G D : Mesh K d} {node : ℕ → ℤ} {e : ℕ → ℕ}

theorem IsPiece.nodesPerElem (h : IsPiece G D node e) : D.nodesPerElem = G.nodesPerElem := by
  simp only [Mesh.nodesPerElem, h.grid]

/-- Gathering the restriction of a global vector. -/
theorem IsPiece.gather (h : IsPiece G D node e) {u u' : ℕ → K}
    (hu : ∀ s < D.numNodes, 0 ≤ node s → u' s = u (node s).toNat) {m n : ℕ} (hm : m < D.numElements)
    (hn : n < G.nodesPerElem) : D.gather u' m n = G.gather u (e m) n := by
  obtain ⟨s, hs, h1, h2, h3, h4, h5⟩ := h.entry m hm n hn
  rw [D.gather_apply _ _ _ (by rw [h.nodesPerElem]; exact hn), G.gather_apply _ _ _ hn, if_pos (by omega),
    if_pos (by omega), h1, readPos_natCast hs, readPos_of_range h3 h4, hu s hs (by omega), h2]

theorem IsPiece.elementCoords (h : IsPiece G D node e) {m n : ℕ} (hm : m < D.numElements)
    (hn : n < G.nodesPerElem) (j : Fin d) : D.elementCoords m n j = G.elementCoords (e m) n j := by
  obtain ⟨s, hs, h1, h2, h3, h4, h5⟩ := h.entry m hm n hn
  unfold Mesh.elementCoords
  rw [D.gather_apply _ _ _ (by rw [h.nodesPerElem]; exact hn), G.gather_apply _ _ _ hn, if_pos (by omega),
    if_pos (by omega), h1, readPos_natCast hs, readPos_of_range h3 h4, h5]

theorem IsPiece.jacobian (h : IsPiece G D node e) (g : Fin d → NMat K) {m : ℕ} (hm : m < D.numElements) (q : ℕ) :
    jacobian D g m q = jacobian G g (e m) q := by
  ext i j
  simp only [Verif.Core.jacobian, Matrix.of_apply, h.nodesPerElem]
  exact Finset.sum_congr rfl fun n hn => by rw [h.elementCoords hm (Finset.mem_range.mp hn)]

/-- The space of a piece uses the same tables. -/
theorem build_same_grid {mesh mesh' : Mesh K d} (hg : mesh'.grid = mesh.grid) {quad : Quadrature1D K} {fs : FESpace K d}
    (h : FESpace.build mesh quad = some fs) :
    ∃ fs', FESpace.build mesh' quad = some fs' ∧ fs'.mesh = mesh' ∧ fs'.numQuad = fs.numQuad ∧
      fs'.weights = fs.weights ∧ fs'.interpolate = fs.interpolate ∧ fs'.gradMat = fs.gradMat := by
  obtain ⟨a, b, g, c, el, ni⟩ := mesh
  obtain ⟨a', b', g', c', el', ni'⟩ := mesh'
  simp only at hg
  subst hg
  unfold FESpace.build at h ⊢
  simp only at h ⊢
  split at h
  · exact absurd h (by simp)
  · split at h
    · rename_i hA hW
      simp only [Option.some.injEq] at h
      subst h
      exact ⟨_, rfl, rfl, rfl, rfl, rfl, rfl⟩
    · exact absurd h (by simp)

/-- The space of a piece of a mesh. -/
structure IsPieceSpace (fs fs' : FESpace K d) (node : ℕ → ℤ) (e : ℕ → ℕ) : Prop where
  piece : IsPiece fs.mesh fs'.mesh node e
  wf : fs.WF
  wf' : fs'.WF
  numQuad : fs'.numQuad = fs.numQuad
  weights : fs'.weights = fs.weights
  interpolate : fs'.interpolate = fs.interpolate
  gradMat : fs'.gradMat = fs.gradMat
  jacdets : ∀ m < fs'.mesh.numElements, ∀ q, fs'.jacdets m q = fs.jacdets (e m) q
  invjacs : ∀ m < fs'.mesh.numElements, ∀ q, fs'.invjacs m q = fs.invjacs (e m) q

theorem create_piece (h : IsPiece G D node e) (hn : 0 < G.grid.numPoints) {quad : Quadrature1D K} {fs : FESpace K d}
    (hfs : FESpace.create G quad = some fs) :
    ∃ fs', FESpace.create D quad = some fs' ∧ fs'.mesh = D ∧ IsPieceSpace fs fs' node e := by
  unfold FESpace.create at hfs
  split at hfs
  · exact absurd hfs (by simp)
  rename_i f hb
  split at hfs
  swap
  · exact absurd hfs (by simp)
  rename_i hreg
  simp only [Option.some.injEq] at hfs
  subst hfs
  obtain ⟨fs', hb', hm', hq, hw, hi, hg⟩ := build_same_grid h.grid hb
  have hm : f.mesh = G := by
    obtain ⟨_, _, _, _, _, _, _, hm, _⟩ := FESpace.build_fields hb
    exact hm
  have hwf := FESpace.build_wf hb hn
  have hwf' := FESpace.build_wf hb' (by rw [h.grid]; exact hn)
  have hps : IsPieceSpace f fs' node e := by
    refine ⟨by rw [hm, hm']; exact h, hwf, hwf', hq, hw, hi, hg, ?_, ?_⟩
    · intro m hmm q
      rw [hwf'.det, hwf.det, hg, hm, hm']
      rw [hm'] at hmm
      rw [h.jacobian _ hmm]
    · intro m hmm q
      rw [hwf'.inv, hwf.inv, hg, hm, hm']
      rw [hm'] at hmm
      rw [h.jacobian _ hmm]
  refine ⟨fs', ?_, hm', hps⟩
  unfold FESpace.create
  rw [hb']
  simp only
  rw [if_pos]
  intro m hmm q hqq
  rw [hps.jacdets m hmm q]
  refine hreg _ ?_ q (by rw [← hq]; exact hqq)
  rw [hm]
  exact h.elt m (by rw [← hm']; exact hmm)

/-! ### the forms on one element -/

/-- The array with a one in slot `n`. -/
def unitRow (n : ℕ) : ℕ → K := fun k => if k = n then 1 else 0

theorem unitLocal_self (m n : ℕ) : (unitLocal m n : ℕ → ℕ → K) m = unitRow n := by
  funext k; simp [unitLocal, unitRow]

theorem unitLocal_ne {m m' : ℕ} (n : ℕ) (h : m' ≠ m) : (unitLocal m n : ℕ → ℕ → K) m' = 0 := by
  funext k; simp [unitLocal, h]

theorem FESpace.WF.interp_zero {fs : FESpace K d} (h : fs.WF) (q : ℕ) : fs.interpolate 0 q = 0 := by
  have := h.smul 0 0 q
  rwa [zero_smul, zero_mul] at this

theorem elemGrad_zero (fs : FESpace K d) (q : ℕ) (i : Fin d) : elemGrad fs 0 q i = 0 := by
  simp [elemGrad, NMat.apply]

theorem stiffForm_unit (fs : FESpace K d) (ul : ℕ → ℕ → K) {m : ℕ} (n : ℕ) (hm : m < fs.mesh.numElements) :
    stiffForm fs ul (unitLocal m n) = ∑ q ∈ Finset.range fs.numQuad,
      (∑ j, scalarGrad fs ul m q j * ∑ i, elemGrad fs (unitRow n) q i * fs.invjacs m q j i) * fs.jacdets m q *
        fs.weights.getD q 0 := by
  unfold stiffForm integrate
  rw [Finset.sum_eq_single_of_mem m (Finset.mem_range.mpr hm)]
  · simp only [scalarGrad, unitLocal_self]
  · intro m' _ hne
    refine Finset.sum_eq_zero fun q _ => ?_
    simp [scalarGrad, unitLocal_ne n hne, elemGrad_zero]

theorem massForm_unit {fs : FESpace K d} (hwf : fs.WF) (ul : ℕ → ℕ → K) {m : ℕ} (n : ℕ)
    (hm : m < fs.mesh.numElements) :
    massForm fs ul (unitLocal m n) = ∑ q ∈ Finset.range fs.numQuad,
      fs.interpolate (ul m) q * fs.interpolate (unitRow n) q * fs.jacdets m q * fs.weights.getD q 0 := by
  unfold massForm integrate
  rw [Finset.sum_eq_single_of_mem m (Finset.mem_range.mpr hm)]
  · simp only [scalarFn, unitLocal_self]
  · intro m' _ hne
    refine Finset.sum_eq_zero fun q _ => ?_
    simp [scalarFn, unitLocal_ne n hne, hwf.interp_zero]

theorem IsPieceSpace.stiff {fs fs' : FESpace K d} (h : IsPieceSpace fs fs' node e) {ul ul' : ℕ → ℕ → K} {m : ℕ} (n : ℕ)
    (hm : m < fs'.mesh.numElements) (hu : ∀ k < fs.mesh.nodesPerElem, ul' m k = ul (e m) k) :
    stiffForm fs' ul' (unitLocal m n) = stiffForm fs ul (unitLocal (e m) n) := by
  rw [stiffForm_unit fs' ul' n hm, stiffForm_unit fs ul n (h.piece.elt m hm), h.numQuad]
  refine Finset.sum_congr rfl fun q _ => ?_
  rw [h.jacdets m hm, h.weights]
  congr 2
  refine Finset.sum_congr rfl fun j _ => ?_
  simp only [scalarGrad, elemGrad, h.gradMat, h.invjacs m hm]
  congr 1
  refine Finset.sum_congr rfl fun i _ => ?_
  rw [NMat.apply_congr (fs.gradMat i) (ul' m) (ul (e m)) q (fun k hk => hu k (by rw [← h.wf.cols i]; exact hk))]

theorem IsPieceSpace.mass {fs fs' : FESpace K d} (h : IsPieceSpace fs fs' node e) {ul ul' : ℕ → ℕ → K} {m : ℕ} (n : ℕ)
    (hm : m < fs'.mesh.numElements) (hu : ∀ k < fs.mesh.nodesPerElem, ul' m k = ul (e m) k) :
    massForm fs' ul' (unitLocal m n) = massForm fs ul (unitLocal (e m) n) := by
  rw [massForm_unit h.wf' ul' n hm, massForm_unit h.wf ul n (h.piece.elt m hm), h.numQuad]
  refine Finset.sum_congr rfl fun q hq => ?_
  rw [h.jacdets m hm, h.weights, h.interpolate,
    h.wf.local_ (ul' m) (ul (e m)) hu q (Finset.mem_range.mp hq)]

/-! ### all pieces -/

/-- Every element of `G` lies in exactly one of the pieces `D 0, ..., D (P - 1)`. -/
structure IsPartition (G : Mesh K d) (D : ℕ → Mesh K d) (P N : ℕ) (node : ℕ → ℕ → ℤ) (e : ℕ → ℕ → ℕ) : Prop where
  piece : ∀ p < P, IsPiece G (D p) (node p) (e p)
  numNodes : ∀ p < P, (D p).numNodes = N
  sum : ∀ F : ℕ → K, ∑ p ∈ Finset.range P, ∑ m ∈ Finset.range (D p).numElements, F (e p m) =
    ∑ m ∈ Finset.range G.numElements, F m
  noRepeats : NoRepeats P N node
  range : ∀ p < P, ∀ i < N, node p i = -1 ∨ (0 ≤ node p i ∧ node p i < G.numNodes)

section

variable {D : ℕ → Mesh K d} {P N : ℕ} {node : ℕ → ℕ → ℤ} {e : ℕ → ℕ → ℕ}

/-- Sum over all holders, device by device. -/
theorem holdersSum_eq (u : ℕ → ℕ → K) (x : ℤ) :
    holdersSum P N node u x = ∑ p ∈ Finset.range P, ∑ i ∈ Finset.range N, if node p i = x then u p i else 0 := by
  unfold holdersSum
  rw [Finset.sum_filter, Finset.sum_product]

/-- Scattering on every device and adding up over the holders of a node is scattering on the whole mesh. -/
theorem IsPartition.scatter (h : IsPartition G D P N node e) {cov : ℕ → ℕ → K} {cov' : ℕ → ℕ → ℕ → K}
    (hc : ∀ p < P, ∀ m < (D p).numElements, ∀ n < G.nodesPerElem, cov' p m n = cov (e p m) n) {j : ℕ} :
    holdersSum P N node (fun p => (D p).scatter (cov' p)) (j : ℤ) = G.scatter cov j := by
  rw [holdersSum_eq, G.scatter_apply, ← h.sum]
  refine Finset.sum_congr rfl fun p hp => ?_
  have hp := Finset.mem_range.mp hp
  have hpc := h.piece p hp
  simp only [(D p).scatter_apply, hpc.nodesPerElem, h.numNodes p hp]
  have hsw : ∀ i, (if node p i = (j : ℤ) then
      ∑ m ∈ Finset.range (D p).numElements, ∑ n ∈ Finset.range G.nodesPerElem,
        (if writePos N ((D p).elements m n) = some i then maskOf ((D p).elements m n) * cov' p m n else 0) else 0) =
      ∑ m ∈ Finset.range (D p).numElements, ∑ n ∈ Finset.range G.nodesPerElem, if node p i = (j : ℤ) then
        (if writePos N ((D p).elements m n) = some i then maskOf ((D p).elements m n) * cov' p m n else 0) else 0 := by
    intro i
    split
    · rfl
    · simp
  rw [Finset.sum_congr rfl fun i _ => hsw i, Finset.sum_comm]
  refine Finset.sum_congr rfl fun m hm => ?_
  have hm := Finset.mem_range.mp hm
  rw [Finset.sum_comm]
  refine Finset.sum_congr rfl fun n hn => ?_
  have hn := Finset.mem_range.mp hn
  obtain ⟨s, hs, h1, h2, h3, h4, _⟩ := hpc.entry m hm n hn
  rw [h.numNodes p hp] at hs
  rw [h1, hc p hp m hm n hn, writePos_natCast hs, writePos_of_range h3 h4, Finset.sum_eq_single_of_mem s (Finset.mem_range.mpr hs)]
  · have e1 : maskOf (s : ℤ) = (1 : K) := if_pos (by unfold sentinel; omega)
    have e2 : maskOf (G.elements (e p m) n) = (1 : K) := if_pos (by unfold sentinel; omega)
    rw [if_pos rfl, e1, e2, h2]
    refine if_congr ?_ rfl rfl
    rw [Option.some.injEq]
    omega
  · intro i _ hne
    have : ¬ (some s = some i) := by rw [Option.some.injEq]; omega
    simp only [if_neg this, ite_self]

/-- Nothing is scattered into padding slots. -/
theorem IsPartition.scatter_pad (h : IsPartition G D P N node e) (cov' : ℕ → ℕ → K) {p i : ℕ} (hp : p < P)
    (hpad : node p i = -1) : (D p).scatter cov' i = 0 := by
  rw [(D p).scatter_apply]
  refine Finset.sum_eq_zero fun m hm => Finset.sum_eq_zero fun n hn => ?_
  have hpc := h.piece p hp
  obtain ⟨s, hs, h1, h2, h3, h4, _⟩ := hpc.entry m (Finset.mem_range.mp hm) n
    (by rw [← hpc.nodesPerElem]; exact Finset.mem_range.mp hn)
  rw [h1, writePos_natCast hs, if_neg]
  rw [Option.some.injEq]
  rintro rfl
  omega

/-! ### vectors on the devices -/

/-- Every holder of a node has the value of the node. -/
def Assembled (P N : ℕ) (node : ℕ → ℕ → ℤ) (w : ℕ → ℕ → K) (v : ℕ → K) : Prop :=
  ∀ p < P, ∀ i < N, 0 ≤ node p i → w p i = v (node p i).toNat

/-- The values of the holders of a node add up to the value of the node; padding is zero. -/
def Additive (G : Mesh K d) (P N : ℕ) (node : ℕ → ℕ → ℤ) (w : ℕ → ℕ → K) (v : ℕ → K) : Prop :=
  (∀ j < G.numNodes, holdersSum P N node w (j : ℤ) = v j) ∧ ∀ p < P, ∀ i < N, node p i = -1 → w p i = 0

theorem holdersSum_sub_smul (u w : ℕ → ℕ → K) (c : K) (x : ℤ) :
    holdersSum P N node (u - c • w) x = holdersSum P N node u x - c * holdersSum P N node w x := by
  unfold holdersSum
  rw [Finset.mul_sum, ← Finset.sum_sub_distrib]
  rfl

/-- The dot products of the devices add up to the dot product of the whole mesh. -/
theorem IsPartition.dot (h : IsPartition G D P N node e) {w r : ℕ → ℕ → K} {v s : ℕ → K}
    (hw : Assembled P N node w v) (hr : Additive G P N node r s) : psumDot P N w r = nodeDot G.numNodes v s := by
  unfold psumDot
  rw [show nodeDot G.numNodes v s = ∑ j ∈ Finset.range G.numNodes, v j * s j from rfl]
  have hR : ∑ j ∈ Finset.range G.numNodes, v j * s j = ∑ j ∈ Finset.range G.numNodes,
      ∑ p ∈ Finset.range P, v j * ∑ i ∈ Finset.range N, if node p i = (j : ℤ) then r p i else 0 :=
    Finset.sum_congr rfl fun j hj => by rw [← hr.1 j (Finset.mem_range.mp hj), holdersSum_eq, Finset.mul_sum]
  rw [hR, Finset.sum_comm]
  refine Finset.sum_congr rfl fun p hp => ?_
  have hp := Finset.mem_range.mp hp
  simp only [Finset.mul_sum]
  rw [Finset.sum_comm]
  unfold nodeDot
  refine Finset.sum_congr rfl fun i hi => ?_
  have hi := Finset.mem_range.mp hi
  rcases h.range p hp i hi with hpad | ⟨h0, h1⟩
  · rw [hr.2 p hp i hi hpad, mul_zero]
    refine (Finset.sum_eq_zero fun j _ => ?_).symm
    rw [ite_self, mul_zero]
  · rw [Finset.sum_eq_single_of_mem (node p i).toNat (Finset.mem_range.mpr (by omega)), if_pos (by omega),
      hw p hp i hi h0]
    intro j _ hj
    rw [if_neg (by omega), mul_zero]

theorem nodeDot_comm (N : ℕ) (u v : ℕ → K) : nodeDot N u v = nodeDot N v u :=
  Finset.sum_congr rfl fun _ _ => mul_comm _ _

theorem psumDot_comm (P N : ℕ) (u v : ℕ → ℕ → K) : psumDot P N u v = psumDot P N v u :=
  Finset.sum_congr rfl fun _ _ => nodeDot_comm _ _ _

/-- Multiplying by a mask on every device. -/
theorem IsPartition.additive_mask {r : ℕ → ℕ → K} {s mask : ℕ → K}
    {mask' : ℕ → ℕ → K} (hm : Assembled P N node mask' mask) (hr : Additive G P N node r s) :
    Additive G P N node (fun p i => r p i * mask' p i) (fun j => s j * mask j) := by
  refine ⟨fun j hj => ?_, fun p hp i hi hpad => by
    beta_reduce; rw [hr.2 p hp i hi hpad, zero_mul]⟩
  beta_reduce
  rw [← hr.1 j hj]
  unfold holdersSum
  rw [Finset.sum_mul]
  refine Finset.sum_congr rfl fun q hq => ?_
  rw [Finset.mem_filter, Finset.mem_product, Finset.mem_range, Finset.mem_range] at hq
  beta_reduce
  rw [hm q.1 hq.1.1 q.2 hq.1.2 (by omega), hq.2]
  rfl

end

end Verif.Core
