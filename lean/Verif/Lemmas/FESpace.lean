import Verif.Model.FESpace
import Verif.Props.C11_C16
import Verif.Props.C34_C35

/-! Lemmas about meshes and finite element spaces. -/

set_option linter.unusedSectionVars false

namespace Verif.Core

open Verif.Spec

variable {K : Type*} [Field K] [LinearOrder K] {d : ℕ}

/-! ### gather and scatter of a mesh -/

/-- Every entry of `elements` is the sentinel or a position of a node. -/
def Mesh.InRange (mesh : Mesh K d) : Prop :=
  ∀ m < mesh.numElements, ∀ n < mesh.nodesPerElem,
    mesh.elements m n = -1 ∨ (0 ≤ mesh.elements m n ∧ mesh.elements m n < mesh.numNodes)

theorem Mesh.gather_apply (mesh : Mesh K d) (u : ℕ → K) (m n : ℕ) (hn : n < mesh.nodesPerElem) :
    mesh.gather u m n =
      if mesh.elements m n ≠ -1 then u (readPos mesh.numNodes (mesh.elements m n)) else 0 := by
  unfold Mesh.gather Mesh.row Verif.Core.gather
  rw [List.getD_eq_getElem _ _ (by simpa using hn), List.getElem_map, List.getElem_map, List.getElem_range]
  rfl

theorem Mesh.gather_outside (mesh : Mesh K d) (u : ℕ → K) (m n : ℕ) (hn : ¬ n < mesh.nodesPerElem) :
    mesh.gather u m n = 0 := by
  unfold Mesh.gather Mesh.row Verif.Core.gather
  rw [List.getD_eq_default]
  simpa using not_lt.mp hn

theorem Mesh.gather_add (mesh : Mesh K d) (u v : ℕ → K) :
    mesh.gather (u + v) = mesh.gather u + mesh.gather v := by
  funext m n
  rw [Pi.add_apply, Pi.add_apply]
  by_cases hn : n < mesh.nodesPerElem
  · rw [mesh.gather_apply _ _ _ hn, mesh.gather_apply _ _ _ hn, mesh.gather_apply _ _ _ hn]
    split <;> simp
  · simp only [mesh.gather_outside _ _ _ hn, add_zero]

theorem Mesh.gather_smul (mesh : Mesh K d) (c : K) (u : ℕ → K) :
    mesh.gather (c • u) = c • mesh.gather u := by
  funext m n
  rw [Pi.smul_apply, Pi.smul_apply]
  by_cases hn : n < mesh.nodesPerElem
  · rw [mesh.gather_apply _ _ _ hn, mesh.gather_apply _ _ _ hn]
    split <;> simp
  · simp only [mesh.gather_outside _ _ _ hn, smul_zero]

theorem flatMap_zipWith_sum {M nn : ℕ} (f g : ℕ → ℕ → K) :
    (List.zipWith (· * ·) ((List.range M).flatMap (fun m => (List.range nn).map (f m)))
      ((List.range M).flatMap (fun m => (List.range nn).map (g m)))).sum =
    ∑ m ∈ Finset.range M, ∑ n ∈ Finset.range nn, f m n * g m n := by
  induction M with
  | zero => simp
  | succ M ih =>
    rw [List.range_succ, List.flatMap_append, List.flatMap_append, List.zipWith_append, List.sum_append, ih,
      Finset.sum_range_succ]
    · congr 1
      simp only [List.flatMap_cons, List.flatMap_nil, List.append_nil]
      rw [List.zipWith_map, List.zipWith_self]
      rw [← sum_map_range]
    · simp [List.length_flatMap]

/-- Scatter is the transpose of gather. -/
theorem Mesh.gather_scatter_adjoint (mesh : Mesh K d) (hm : mesh.InRange) (u : ℕ → K) (vl : ℕ → ℕ → K) :
    ∑ m ∈ Finset.range mesh.numElements, ∑ n ∈ Finset.range mesh.nodesPerElem, mesh.gather u m n * vl m n =
      ∑ j ∈ Finset.range mesh.numNodes, u j * mesh.scatter vl j := by
  have hidx : ∀ i ∈ (List.range mesh.numElements).flatMap mesh.row, i = -1 ∨ (0 ≤ i ∧ i < mesh.numNodes) := by
    intro i hi
    obtain ⟨m, hm', hi⟩ := List.mem_flatMap.mp hi
    obtain ⟨n, hn, rfl⟩ := List.mem_map.mp hi
    exact hm m (List.mem_range.mp hm') n (List.mem_range.mp hn)
  have h := C11_scatter_is_transpose mesh.numNodes u ((List.range mesh.numElements).flatMap mesh.row)
    ((List.range mesh.numElements).flatMap (fun m => (List.range mesh.nodesPerElem).map (vl m))) hidx
    (by simp [List.length_flatMap, Mesh.row])
  unfold Mesh.scatter
  rw [← h]
  have hg : Verif.Core.gather mesh.numNodes u ((List.range mesh.numElements).flatMap mesh.row) 0 =
      (List.range mesh.numElements).flatMap (fun m => (List.range mesh.nodesPerElem).map (mesh.gather u m)) := by
    unfold Verif.Core.gather
    rw [List.map_flatMap]
    congr 1
    funext m
    unfold Mesh.row
    rw [List.map_map]
    apply List.map_congr_left
    intro n hn
    rw [mesh.gather_apply _ _ _ (List.mem_range.mp hn)]
    rfl
  rw [hg, flatMap_zipWith_sum]

theorem atAdd_add (N : ℕ) (b1 b2 : ℕ → K) (l1 l2 l3 : List (ℤ × K))
    (h : ∀ j : ℕ, ((l3.map (fun e => if writePos N e.1 = some j then e.2 else 0)).sum : K) =
      (l1.map (fun e => if writePos N e.1 = some j then e.2 else 0)).sum +
      (l2.map (fun e => if writePos N e.1 = some j then e.2 else 0)).sum) :
    atAdd N (b1 + b2) l3 = atAdd N b1 l1 + atAdd N b2 l2 := by
  funext j
  simp only [atAdd, Pi.add_apply, h j]
  ring

/-- Scatter as a sum. -/
theorem Mesh.scatter_apply (mesh : Mesh K d) (vl : ℕ → ℕ → K) (j : ℕ) :
    mesh.scatter vl j = ∑ m ∈ Finset.range mesh.numElements, ∑ n ∈ Finset.range mesh.nodesPerElem,
      if writePos mesh.numNodes (mesh.elements m n) = some j then maskOf (mesh.elements m n) * vl m n else 0 := by
  unfold Mesh.scatter Verif.Core.scatter atAdd
  rw [zero_add]
  generalize mesh.numElements = M
  induction M with
  | zero => simp
  | succ M ih =>
    rw [List.range_succ, List.flatMap_append, List.flatMap_append, List.zip_append, List.map_append, List.map_append,
      List.sum_append, ih, Finset.sum_range_succ]
    · congr 1
      simp only [List.flatMap_cons, List.flatMap_nil, List.append_nil, Mesh.row]
      rw [List.zip_map', List.map_map, List.map_map, ← sum_map_range]
      rfl
    · simp [List.length_flatMap, Mesh.row]

theorem Mesh.scatter_add (mesh : Mesh K d) (u v : ℕ → ℕ → K) :
    mesh.scatter (u + v) = mesh.scatter u + mesh.scatter v := by
  funext j
  simp only [Pi.add_apply, mesh.scatter_apply, ← Finset.sum_add_distrib]
  refine Finset.sum_congr rfl fun m _ => Finset.sum_congr rfl fun n _ => ?_
  split
  · simp [mul_add]
  · simp

theorem Mesh.scatter_smul (mesh : Mesh K d) (c : K) (u : ℕ → ℕ → K) :
    mesh.scatter (c • u) = c • mesh.scatter u := by
  funext j
  simp only [Pi.smul_apply, mesh.scatter_apply, Finset.smul_sum]
  refine Finset.sum_congr rfl fun m _ => Finset.sum_congr rfl fun n _ => ?_
  split
  · simp only [smul_eq_mul]; ring
  · simp

/-! ### the matrices of a space -/

/-- What `FESpace.build` guarantees, apart from the geometry. -/
structure FESpace.WF (fs : FESpace K d) : Prop where
  add : ∀ x y q, fs.interpolate (x + y) q = fs.interpolate x q + fs.interpolate y q
  smul : ∀ (c : K) x q, fs.interpolate (c • x) q = c * fs.interpolate x q
  local_ : ∀ x y, (∀ n < fs.mesh.nodesPerElem, x n = y n) → ∀ q < fs.numQuad, fs.interpolate x q = fs.interpolate y q
  cols : ∀ i, (fs.gradMat i).cols = fs.mesh.nodesPerElem
  rowsum : ∀ i, ∀ q < fs.numQuad, (fs.gradMat i).apply (fun _ => 1) q = 0
  det : ∀ m q, fs.jacdets m q = (jacobian fs.mesh fs.gradMat m q).det
  inv : ∀ m q, fs.invjacs m q = matInv (jacobian fs.mesh fs.gradMat m q)
  coords : ∀ m q j, fs.quadCoords m q j = fs.interpolate (fun n => fs.mesh.elementCoords m n j) q

theorem NMat.apply_add (A : NMat K) (x y : ℕ → K) (q : ℕ) : A.apply (x + y) q = A.apply x q + A.apply y q := by
  simp [NMat.apply, mul_add, Finset.sum_add_distrib]

theorem NMat.apply_smul (A : NMat K) (c : K) (x : ℕ → K) (q : ℕ) : A.apply (c • x) q = c * A.apply x q := by
  simp only [NMat.apply, Pi.smul_apply, smul_eq_mul, Finset.mul_sum]
  exact Finset.sum_congr rfl fun j _ => by ring

theorem NMat.apply_congr (A : NMat K) (x y : ℕ → K) (q : ℕ) (h : ∀ n < A.cols, x n = y n) : A.apply x q = A.apply y q := by
  unfold NMat.apply
  exact Finset.sum_congr rfl fun j hj => by rw [h j (Finset.mem_range.mp hj)]

theorem FESpace.build_fields {mesh : Mesh K d} {quad : Quadrature1D K} {fs : FESpace K d}
    (h : FESpace.build mesh quad = some fs) :
    ∃ M1 A W, interpMatrix1d mesh.grid.bary mesh.grid.value quad.nodes.value = some M1 ∧
      interpMatrix d M1 = some A ∧ weightsNd quad.weights d = some W ∧ d ≠ 0 ∧
      fs.mesh = mesh ∧ fs.numQuad = quad.nodes.numPoints ^ d ∧ fs.weights = W ∧
      fs.interpolate = (if mesh.grid.same quad.nodes then fun x => x else A.apply) ∧
      (∀ i : Fin d, interpMatrixGrad d M1 (diffMatrix1d mesh.grid.bary mesh.grid.value) i = some (fs.gradMat i)) ∧
      (∀ m q, fs.jacdets m q = (jacobian fs.mesh fs.gradMat m q).det) ∧
      (∀ m q, fs.invjacs m q = matInv (jacobian fs.mesh fs.gradMat m q)) ∧
      (∀ m q j, fs.quadCoords m q j = fs.interpolate (fun n => fs.mesh.elementCoords m n j) q) := by
  unfold FESpace.build at h
  split at h
  · exact absurd h (by simp)
  · rename_i M1 hM1
    split at h
    · rename_i A W hA hW
      simp only [Option.some.injEq] at h
      subst h
      refine ⟨M1, A, W, hM1, hA, hW, ?_, rfl, rfl, rfl, rfl, ?_, fun _ _ => rfl, fun _ _ => rfl, fun _ _ _ => rfl⟩
      · rintro rfl
        simp [weightsNd] at hW
      · intro i
        have hi := i.2
        obtain ⟨d', rfl⟩ : ∃ d', d = d' + 1 := ⟨d - 1, by omega⟩
        obtain ⟨B, hB, _⟩ := kronReduce_range d'
          (fun j => if (i : ℕ) = j then toNMat (M1 * diffMatrix1d mesh.grid.bary mesh.grid.value) else toNMat M1)
        have hB' : interpMatrixGrad (d' + 1) M1 (diffMatrix1d mesh.grid.bary mesh.grid.value) i = some B := hB
        simp only [hB', Option.getD_some]
    · exact absurd h (by simp)

theorem FESpace.build_wf {mesh : Mesh K d} {quad : Quadrature1D K} {fs : FESpace K d}
    (h : FESpace.build mesh quad = some fs) (hn : 0 < mesh.grid.numPoints) : fs.WF := by
  obtain ⟨M1, A, W, hM1, hA, hW, hd, hmesh, hnq, hw, hint, hG, hdet, hinv, hco⟩ := FESpace.build_fields h
  have hd1 : 1 ≤ d := Nat.one_le_iff_ne_zero.mpr hd
  have hcolsG : ∀ i, (fs.gradMat i).cols = fs.mesh.nodesPerElem := by
    intro i
    have hi := i.2
    have hG' := hG i
    obtain ⟨d', rfl⟩ : ∃ d', d = d' + 1 := ⟨d - 1, by omega⟩
    unfold interpMatrixGrad at hG'
    obtain ⟨B, hB, hBe⟩ := kronReduce_range d'
      (fun j => if (i : ℕ) = j then toNMat (M1 * diffMatrix1d mesh.grid.bary mesh.grid.value) else toNMat M1)
    rw [hB, Option.some.injEq] at hG'
    rw [← hG', hBe]
    have hr : ∀ k, (if (i : ℕ) = k then toNMat (M1 * diffMatrix1d mesh.grid.bary mesh.grid.value) else toNMat M1).rows =
        quad.nodes.numPoints := by intro k; split <;> rfl
    have hcol : ∀ k, (if (i : ℕ) = k then toNMat (M1 * diffMatrix1d mesh.grid.bary mesh.grid.value) else toNMat M1).cols =
        mesh.grid.numPoints := by intro k; split <;> rfl
    rw [(kron_fold_apply hn _ hr hcol (fun _ _ => (0 : K)) d').2.1, Mesh.nodesPerElem, hmesh]
  have hcolsA : A.cols = mesh.nodesPerElem := by
    obtain ⟨d', rfl⟩ : ∃ d', d = d' + 1 := ⟨d - 1, by omega⟩
    obtain ⟨B, hB, hBe⟩ := kronReduce_range d' (fun _ => toNMat M1)
    have hlist : List.replicate (d' + 1) (toNMat M1) = (List.range (d' + 1)).map (fun _ => toNMat M1) := by simp
    unfold interpMatrix at hA
    rw [hlist, hB, Option.some.injEq] at hA
    rw [← hA, hBe, (kron_fold_apply hn (fun _ => toNMat M1) (fun _ => rfl) (fun _ => rfl) (fun _ _ => (0 : K)) d').2.1]
    rfl
  refine ⟨?_, ?_, ?_, hcolsG, ?_, hdet, hinv, hco⟩
  · intro x y q
    rw [hint]
    split
    · rfl
    · exact A.apply_add x y q
  · intro c x q
    rw [hint]
    split
    · rfl
    · exact A.apply_smul c x q
  · intro x y hxy q hq
    rw [hint]
    rw [hmesh] at hxy
    split
    · rename_i hs
      apply hxy
      rw [Mesh.nodesPerElem, hs.2.2, ← hnq]
      exact hq
    · exact A.apply_congr x y q (fun n hn' => hxy n (by rw [← hcolsA]; exact hn'))
  · intro i q hq
    have hnq0 : 0 < quad.nodes.numPoints := by
      rcases Nat.eq_zero_or_pos quad.nodes.numPoints with h0 | h0
      · rw [hnq, h0, zero_pow hd] at hq; omega
      · exact h0
    obtain ⟨B, hB, _, _, hBp⟩ := C34_grad_products hnq0 hn M1 (diffMatrix1d mesh.grid.bary mesh.grid.value) i i.2
    rw [hG i, Option.some.injEq] at hB
    subst hB
    have := hBp (fun _ _ => 1) q (by rw [← hnq]; exact hq)
    simp only [Finset.prod_const_one] at this
    rw [this]
    apply Finset.prod_eq_zero (Finset.mem_range.mpr i.2)
    rw [at0, dif_pos (Verif.Common.digit_lt _ _ _ _ hnq0), if_pos rfl, ← Matrix.mulVec_mulVec]
    have : (diffMatrix1d mesh.grid.bary mesh.grid.value).mulVec (fun _ => (1 : K)) = 0 := by
      funext k
      simp only [Matrix.mulVec, dotProduct, mul_one, Pi.zero_apply]
      exact C33_rows_sum_zero _ _ k
    rw [this, Matrix.mulVec_zero]
    rfl

theorem FESpace.create_build {mesh : Mesh K d} {quad : Quadrature1D K} {fs : FESpace K d}
    (h : FESpace.create mesh quad = some fs) : FESpace.build mesh quad = some fs ∧ fs.regular := by
  unfold FESpace.create at h
  split at h
  · exact absurd h (by simp)
  · rename_i fs' hb
    split at h
    · simp only [Option.some.injEq] at h
      subst h
      exact ⟨hb, by assumption⟩
    · exact absurd h (by simp)

theorem FESpace.build_mesh {mesh : Mesh K d} {quad : Quadrature1D K} {fs : FESpace K d}
    (h : FESpace.build mesh quad = some fs) : fs.mesh = mesh := by
  obtain ⟨_, _, _, _, _, _, _, hmesh, _⟩ := FESpace.build_fields h
  exact hmesh

theorem FESpace.build_numQuad {mesh : Mesh K d} {quad : Quadrature1D K} {fs : FESpace K d}
    (h : FESpace.build mesh quad = some fs) : fs.numQuad = quad.nodes.numPoints ^ d := by
  obtain ⟨_, _, _, _, _, _, _, _, hnq, _⟩ := FESpace.build_fields h
  exact hnq

theorem matInv_mul {J : Matrix (Fin d) (Fin d) K} (h : J.det ≠ 0) : matInv J * J = 1 := by
  unfold matInv
  rw [Matrix.smul_mul, Matrix.adjugate_mul, smul_smul, inv_mul_cancel₀ h, one_smul]

theorem mul_matInv {J : Matrix (Fin d) (Fin d) K} (h : J.det ≠ 0) : J * matInv J = 1 := by
  unfold matInv
  rw [Matrix.mul_smul, Matrix.mul_adjugate, smul_smul, inv_mul_cancel₀ h, one_smul]

end Verif.Core
