import Verif.Props.C42_C43

/-!
# C57: the sign of the vorticity, C63: vorticity on copies of a node

The code returns `∂u₀/∂y - ∂u₁/∂x`, the negative of the curl.
-/

set_option linter.unusedSectionVars false

namespace Verif.NS

open Verif.Core Verif.Linalg Verif.Spec

variable {K : Type*} [Field K] [LinearOrder K]

/-- For an affine velocity `uₖ = Σⱼ aⱼₖ xⱼ + cₖ` the result at every node is `a₁₀ - a₀₁`: the magnitude is that of the
curl `∂u₁/∂x - ∂u₀/∂y = a₀₁ - a₁₀`. Missing: the sign, see `C57_sign`. -/
theorem C57_partial [IsStrictOrderedRing K] {vmesh pmesh : Mesh K 2} {quad overQuad : Quadrature1D K} {mask : ℕ → K}
    {sem : StokesSEM K 2} (h : StokesSEM.create vmesh pmesh quad overQuad mask = some sem) (hn : 0 < vmesh.grid.numPoints)
    (hcol : vmesh.grid.same quad.nodes)
    (hpos : ∀ m < vmesh.numElements, ∀ n < vmesh.nodesPerElem, 0 ≤ vmesh.elements m n ∧ vmesh.elements m n < vmesh.numNodes)
    (a : Fin 2 → Fin 2 → K) (c : Fin 2 → K) (u : Vel K 2) (hu : ∀ p k, u p k = ∑ j, a j k * vmesh.coords p j + c k) (j : ℕ)
    (hj : ∃ m < vmesh.numElements, ∃ n < vmesh.nodesPerElem, vmesh.elements m n = j) :
    sem.vorticity u j = -(a 0 1 - a 1 0) := by
  obtain ⟨hv, _, _, _, hdiag, _⟩ := StokesSEM.create_fields h
  obtain ⟨hvb, _⟩ := FESpace.create_build hv
  have hmesh := FESpace.build_mesh hvb
  have hul : ∀ m < vmesh.numElements, ∀ n < vmesh.nodesPerElem, ∀ k,
      vGather vmesh u m n k = ∑ j, a j k * vmesh.elementCoords m n j + c k := by
    intro m hm n hn' k
    have hp := hpos m hm n hn'
    unfold vGather Mesh.elementCoords
    rw [vmesh.gather_apply _ _ _ hn', if_pos (by omega), hu]
    congr 1
    refine Finset.sum_congr rfl fun j _ => ?_
    rw [vmesh.gather_apply _ _ _ hn', if_pos (by omega)]
  have hg := C38_vector vmesh quad sem.vspace hn hv a c (vGather vmesh u) hul
  have hq : vmesh.nodesPerElem = quad.nodes.numPoints ^ 2 := by rw [Mesh.nodesPerElem, hcol.2.2]
  obtain ⟨m0, hm0, n0, hn0, he0⟩ := hj
  have hj' : j < vmesh.numNodes := by
    have := hpos m0 hm0 n0 hn0
    omega
  have hd : sem.diagQqt j ≠ 0 := by
    rw [hdiag, Mesh.scatter_apply]
    apply ne_of_gt
    refine Finset.sum_pos' (fun m _ => Finset.sum_nonneg fun n _ => ?_) ⟨m0, Finset.mem_range.mpr hm0,
      Finset.sum_pos' (fun n _ => ?_) ⟨n0, Finset.mem_range.mpr hn0, ?_⟩⟩
    · split
      · rw [mul_one]; unfold maskOf; split <;> simp
      · exact le_rfl
    · split
      · rw [mul_one]; unfold maskOf; split <;> simp
      · exact le_rfl
    · rw [he0, if_pos (writePos_nat hj'), maskOf_nat]; simp
  have hs : sem.vspace.mesh.scatter (fun m q => vectorGrad sem.vspace (vGather sem.vspace.mesh u) m q 1 0 -
      vectorGrad sem.vspace (vGather sem.vspace.mesh u) m q 0 1) j = sem.diagQqt j * (a 1 0 - a 0 1) := by
    rw [hmesh, hdiag, Mesh.scatter_apply, Mesh.scatter_apply, Finset.sum_mul]
    refine Finset.sum_congr rfl fun m hm => ?_
    rw [Finset.sum_mul]
    refine Finset.sum_congr rfl fun n hn' => ?_
    rw [Finset.mem_range] at hm hn'
    have := (hg m hm n (by rw [← hq]; exact hn')).1
    split
    · rw [this 1 0, this 0 1]; ring
    · ring
  unfold StokesSEM.vorticity
  rw [hs, ← mul_assoc, one_div, inv_mul_cancel₀ hd, one_mul, neg_sub]

/-- The rigid rotation `u = (-y, x)` has vorticity `-2`: the full statement of C57, vorticity `+2`, fails on every mesh. -/
theorem C57_violated [IsStrictOrderedRing K] {vmesh pmesh : Mesh K 2} {quad overQuad : Quadrature1D K} {mask : ℕ → K}
    {sem : StokesSEM K 2} (h : StokesSEM.create vmesh pmesh quad overQuad mask = some sem) (hn : 0 < vmesh.grid.numPoints)
    (hcol : vmesh.grid.same quad.nodes)
    (hpos : ∀ m < vmesh.numElements, ∀ n < vmesh.nodesPerElem, 0 ≤ vmesh.elements m n ∧ vmesh.elements m n < vmesh.numNodes)
    (u : Vel K 2) (hu : ∀ p, u p 0 = -vmesh.coords p 1 ∧ u p 1 = vmesh.coords p 0) (j : ℕ)
    (hj : ∃ m < vmesh.numElements, ∃ n < vmesh.nodesPerElem, vmesh.elements m n = j) :
    sem.vorticity u j = -2 ∧ sem.vorticity u j ≠ 2 := by
  have := C57_partial h hn hcol hpos (fun j k => if j = 1 ∧ k = 0 then -1 else if j = 0 ∧ k = 1 then 1 else 0) 0 u (by
    intro p k
    obtain ⟨h0, h1⟩ := hu p
    rw [Fin.sum_univ_two]
    fin_cases k
    · simp [h0]
    · simp [h1]) j hj
  have h2 : sem.vorticity u j = -2 := by
    rw [this]; norm_num
  refine ⟨h2, ?_⟩
  rw [h2]
  norm_num

/-- The value at a node is the mean of `∂u₀/∂y - ∂u₁/∂x` over the elements that have this node; copies of the node are
not included. -/
theorem C63_mean_partial {vmesh pmesh : Mesh K 2} {quad overQuad : Quadrature1D K} {mask : ℕ → K}
    {sem : StokesSEM K 2} (h : StokesSEM.create vmesh pmesh quad overQuad mask = some sem)
    (hr : ∀ m < vmesh.numElements, ∀ n < vmesh.nodesPerElem, 0 ≤ vmesh.elements m n ∧ vmesh.elements m n < vmesh.numNodes)
    (u : Vel K 2) (j : ℕ) :
    let at_ := (Finset.range vmesh.numElements ×ˢ Finset.range vmesh.nodesPerElem).filter (fun e => vmesh.elements e.1 e.2 = j)
    let g := vectorGrad sem.vspace (vGather vmesh u)
    sem.vorticity u j = (∑ e ∈ at_, (g e.1 e.2 1 0 - g e.1 e.2 0 1)) / at_.card := by
  obtain ⟨hv, _, _, _, hdiag, _⟩ := StokesSEM.create_fields h
  obtain ⟨hvb, _⟩ := FESpace.create_build hv
  have hmesh := FESpace.build_mesh hvb
  have key : ∀ vl : ℕ → ℕ → K, vmesh.scatter vl j = ∑ e ∈ (Finset.range vmesh.numElements ×ˢ
      Finset.range vmesh.nodesPerElem).filter (fun e => vmesh.elements e.1 e.2 = j), vl e.1 e.2 := by
    intro vl
    rw [Mesh.scatter_apply, Finset.sum_filter, Finset.sum_product]
    refine Finset.sum_congr rfl fun m hm => Finset.sum_congr rfl fun n hn => ?_
    rw [Finset.mem_range] at hm hn
    obtain ⟨h0, h1⟩ := hr m hm n hn
    obtain ⟨a, ha⟩ := Int.eq_ofNat_of_zero_le h0
    simp only
    rw [ha] at h1 ⊢
    rw [writePos_nat (by exact_mod_cast h1), maskOf_nat, one_mul]
    simp
  intro at_ g
  unfold StokesSEM.vorticity
  rw [hmesh, hdiag, key, key]
  simp [at_, g, div_eq_mul_inv, mul_comm]

theorem C63_check : (match StokesSEM.create exVMesh exPMesh exVQuad exVQuad (fun _ => 1) with
      | none => false
      | some sem => decide (sem.vorticity (fun j k => if k = 0 ∧ (j % 6) / 3 = 1 then (j : ℚ) else 0) 1 ≠
          sem.vorticity (fun j k => if k = 0 ∧ (j % 6) / 3 = 1 then (j : ℚ) else 0) 7)) = true := by decide +kernel

/-- So the vorticity of a field that agrees on copies need not agree on copies: nodes 1 and 7 are the same point of the
periodic domain, and the result depends on which is read. -/
theorem C63_violated : ∃ (sem : StokesSEM ℚ 2) (u : Vel ℚ 2),
    StokesSEM.create exVMesh exPMesh exVQuad exVQuad (fun _ => 1) = some sem ∧
    (∀ i < 9, ∀ j < 9, SameNode exVMesh i j → u i = u j) ∧ SameNode exVMesh 1 7 ∧ sem.vorticity u 1 ≠ sem.vorticity u 7 := by
  have h := C63_check
  revert h
  cases hc : StokesSEM.create exVMesh exPMesh exVQuad exVQuad (fun _ => 1) with
  | none => intro h; exact absurd h (by simp)
  | some sem =>
    intro h
    refine ⟨sem, _, rfl, ?_, Or.inr ⟨by decide, by decide⟩, of_decide_eq_true h⟩
    intro i hi j hj hs
    rcases hs with rfl | hs
    · rfl
    · have h1 : i % 6 = j % 6 := by exact_mod_cast (show ((i % 6 : ℕ) : ℤ) = ((j % 6 : ℕ) : ℤ) from hs.1)
      funext k
      split <;> split
      · have : i = j := by omega
        rw [this]
      · omega
      · omega
      · rfl

/-- The hypotheses of C57 hold for the element of C40 and a shear flow. -/
example : ∃ sem : StokesSEM ℚ 2, StokesSEM.create exVMesh exPMesh exVQuad exVQuad (fun _ => 1) = some sem ∧
    ∀ j < 9, sem.vorticity (fun p k => if k = 0 then 3 * exVMesh.coords p 1 else 0) j = 3 := by
  obtain ⟨sem, _, hc, _⟩ := C63_violated
  refine ⟨sem, hc, fun j hj => ?_⟩
  have := C57_partial hc (by decide) (by decide) (fun m hm n hn => by
    have hn' : n < 9 := hn
    change 0 ≤ (n : ℤ) ∧ (n : ℤ) < ((9 : ℕ) : ℤ)
    omega) (fun j k => if j = 1 ∧ k = 0 then 3 else 0) 0
    (fun p k => if k = 0 then 3 * exVMesh.coords p 1 else 0) (by
      intro p k
      rw [Fin.sum_univ_two]
      fin_cases k <;> simp) j ⟨0, by decide, j, hj, rfl⟩
  rw [this]
  norm_num

end Verif.NS
