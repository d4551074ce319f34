import Verif.Lemmas.CubeMomentum
import Verif.Lemmas.TensorPoly

/-!
# The filter applied repeatedly

The interpolation to the coarse grid and back is a projection: a velocity that it returned is not changed any more.
-/

set_option linter.unusedSectionVars false

namespace Verif.NS

open Verif.Core Verif.Spec Verif.Linalg

variable {K : Type*} [Field K] [LinearOrder K] {d : ℕ} {sem : StokesSEM K d} {low : Nodes1D K}

/-- Interpolation to the fine grid and back to the coarse grid changes nothing. -/
theorem interp_back {N N' : ℕ} (hle : N' ≤ N) {v : Fin N → K} {w : Fin N' → K} (hv : Function.Injective v)
    (hw : Function.Injective w) :
    (Matrix.of fun (a : Fin N') (i : Fin N) => (Lagrange.basis Finset.univ v i).eval (w a)) *
      (Matrix.of fun (a : Fin N) (i : Fin N') => (Lagrange.basis Finset.univ w i).eval (v a)) = 1 := by
  ext a j
  rw [Matrix.mul_apply, Matrix.one_apply]
  simp only [Matrix.of_apply]
  have hdeg : (Lagrange.basis Finset.univ w j).degree < (Finset.univ : Finset (Fin N)).card := by
    rw [Lagrange.degree_basis hw.injOn (Finset.mem_univ j), Finset.card_univ, Finset.card_univ, Fintype.card_fin, Fintype.card_fin]
    have := j.2
    exact_mod_cast (by omega : N' - 1 < N)
  have h1 := Lagrange.eq_interpolate hv.injOn hdeg
  have h2 := congrArg (Polynomial.eval (w a)) h1
  rw [Lagrange.interpolate_apply, Polynomial.eval_finset_sum] at h2
  simp only [Polynomial.eval_mul, Polynomial.eval_C] at h2
  rw [show (∑ x, (Lagrange.basis Finset.univ v x).eval (w a) * (Lagrange.basis Finset.univ w j).eval (v x)) =
    ∑ x, (Lagrange.basis Finset.univ w j).eval (v x) * (Lagrange.basis Finset.univ v x).eval (w a) from
      Finset.sum_congr rfl fun x _ => mul_comm _ _, ← h2]
  by_cases haj : a = j
  · rw [haj, if_pos rfl, Lagrange.eval_basis_self hw.injOn (Finset.mem_univ j)]
  · rw [if_neg haj, Lagrange.eval_basis_of_ne (Ne.symm haj) (Finset.mem_univ a)]

/-- The local filter is a projection. -/
theorem filterEntry_twice {mesh : Mesh K d} (F : FilterSetup mesh low) (hle : low.numPoints ≤ mesh.grid.numPoints) (x : ℕ → K) {n : ℕ}
    (hn : n < mesh.nodesPerElem) :
    ∑ j ∈ Finset.range mesh.nodesPerElem, (∑ i ∈ Finset.range mesh.nodesPerElem, x i * filterEntry mesh low j i) * filterEntry mesh low n j =
      ∑ i ∈ Finset.range mesh.nodesPerElem, x i * filterEntry mesh low n i := by
  have hL := interpMatrix1d_eq _ _ F.weights F.nodes low.value
  have hH := interpMatrix1d_eq _ _ F.lowWeights F.lowNodes mesh.grid.value
  set L := Matrix.of fun (a : Fin low.numPoints) (i : Fin mesh.grid.numPoints) =>
    (Lagrange.basis Finset.univ mesh.grid.value i).eval (low.value a)
  set M := Matrix.of fun (a : Fin mesh.grid.numPoints) (i : Fin low.numPoints) =>
    (Lagrange.basis Finset.univ low.value i).eval (mesh.grid.value a)
  have hLM : L * M = 1 := interp_back hle F.nodes F.lowNodes
  obtain ⟨Ld, Md, hLd, hMd, hloc⟩ := filter_local F.points F.lowPoints F.dim L M
  obtain ⟨Md', Ld', hMd', hLd', hback⟩ := filter_local F.lowPoints F.points F.dim M L
  rw [hLd, Option.some.injEq] at hLd'
  rw [hMd, Option.some.injEq] at hMd'
  subst hLd' hMd'
  have hentry : ∀ (y : ℕ → K), ∀ n < mesh.nodesPerElem,
      ∑ i ∈ Finset.range mesh.nodesPerElem, y i * filterEntry mesh low n i = Md.apply (Ld.apply y) n := by
    intro y n hn
    rw [hloc y n hn]
    unfold filterEntry
    rw [hL, hH]
    rfl
  have hLcols : Ld.cols = mesh.nodesPerElem := by
    obtain ⟨A, hA, _, hc, _⟩ := C34_products F.lowPoints F.points F.dim L
    rw [hLd, Option.some.injEq] at hA
    rw [hA, hc]; rfl
  have hMcols : Md.cols = low.numPoints ^ d := by
    obtain ⟨A, hA, _, hc, _⟩ := C34_products F.points F.lowPoints F.dim M
    rw [hMd, Option.some.injEq] at hA
    rw [hA, hc]
  have hid : ∀ (y : ℕ → K), ∀ q < low.numPoints ^ d, Ld.apply (Md.apply y) q = y q := by
    intro y q hq
    rw [hback y q hq, Finset.sum_eq_single q]
    · rw [Finset.prod_eq_one, mul_one]
      intro k hk
      have hdl := Verif.Common.digit_lt low.numPoints d k q F.lowPoints
      unfold filter1
      rw [dif_pos ⟨hdl, hdl⟩, hLM, Matrix.one_apply_eq]
    · intro j hj hjq
      rw [Finset.mem_range] at hj
      obtain ⟨k, hk, hkd⟩ : ∃ k < d, digit low.numPoints d k q ≠ digit low.numPoints d k j := by
        by_contra hcon
        push Not at hcon
        exact hjq (digit_ext hq hj hcon).symm
      rw [Finset.prod_eq_zero (Finset.mem_range.mpr hk), mul_zero]
      have hdl := Verif.Common.digit_lt low.numPoints d k q F.lowPoints
      have hdl' := Verif.Common.digit_lt low.numPoints d k j F.lowPoints
      unfold filter1
      rw [dif_pos ⟨hdl, hdl'⟩, hLM, Matrix.one_apply_ne]
      intro he
      exact hkd (by simpa using he)
    · intro h; exact absurd (Finset.mem_range.mpr hq) h
  rw [hentry _ n hn, hentry x n hn]
  apply NMat.apply_congr
  intro q hq
  rw [hMcols] at hq
  rw [← hid (Ld.apply x) q hq]
  apply NMat.apply_congr
  intro j hj
  rw [hLcols] at hj
  exact hentry x j hj

/-- What the filter with strength one returns is left alone by the filter. -/
theorem filter_kept [IsStrictOrderedRing K] (F : FilterSetup sem.vspace.mesh low) (hle : low.numPoints ≤ sem.vspace.mesh.grid.numPoints)
    (hr : sem.vspace.mesh.InRange) (hal : Aligned sem.vspace.mesh low)
    (hdiag : sem.diagQqt = sem.vspace.mesh.scatter (fun _ _ => 1))
    (hcov : ∀ j < sem.vspace.mesh.numNodes, ∃ m < sem.vspace.mesh.numElements, ∃ n < sem.vspace.mesh.nodesPerElem,
      sem.vspace.mesh.elements m n = j)
    (hfull : ∀ m < sem.vspace.mesh.numElements, ∀ n < sem.vspace.mesh.nodesPerElem, ∀ n' < sem.vspace.mesh.nodesPerElem,
      sem.vspace.mesh.elements m n = sentinel → sem.vspace.mesh.elements m n' = sentinel) {u : Vel K d} (hu : ∀ k, Continuous sem.vspace.mesh (fun j => u j k)) :
    ∃ r, sem.filter low 1 u = some r ∧ (∀ k, Continuous sem.vspace.mesh (fun j => r j k)) ∧ (∀ alpha, sem.filter low alpha r = some r) ∧
      ∀ alpha, sem.filter low alpha u = some ((1 - alpha) • u + alpha • r) := by
  obtain ⟨r, hfr, loc, hloc, hrv⟩ := filter_eq (sem := sem) F 1 u
  have hval : ∀ p < sem.vspace.mesh.numNodes, ∀ m < sem.vspace.mesh.numElements, ∀ n < sem.vspace.mesh.nodesPerElem,
      sem.vspace.mesh.elements m n = p → ∀ k, r p k = loc m n k := by
    intro p hp m hm n hn he k
    rw [hrv, filter_value F hr hal hdiag (hu k) hloc hp hm hn he]
    ring
  have hout : ∀ p, sem.vspace.mesh.numNodes ≤ p → ∀ (lc : ℕ → ℕ → Fin d → K) k, vScatter sem.vspace.mesh lc p k = 0 := by
    intro p hp lc k
    unfold vScatter
    rw [Mesh.scatter_outside _ _ p hp]
  have hcont : ∀ k, Continuous sem.vspace.mesh (fun j => r j k) := by
    intro k i hi j hj hs
    obtain ⟨m, hm, n, hn, he⟩ := hcov i hi
    obtain ⟨m', hm', n', hn', he'⟩ := hcov j hj
    beta_reduce
    rw [hval i hi m hm n hn he, hval j hj m' hm' n' hn' he', hloc m n hn, hloc m' n' hn']
    exact filter_local_same F hal (hu k) hm hn hm' hn' he he' hs
  refine ⟨r, hfr, hcont, fun alpha => ?_, fun alpha => ?_⟩
  · obtain ⟨w, hw, loc', hloc', hwv⟩ := filter_eq (sem := sem) F alpha r
    rw [hw, Option.some.injEq]
    funext p k
    rw [hwv]
    by_cases hp : p < sem.vspace.mesh.numNodes
    · obtain ⟨m, hm, n, hn, he⟩ := hcov p hp
      rw [filter_value F hr hal hdiag (hcont k) hloc' hp hm hn he]
      have : loc' m n k = r p k := by
        have h2 := filterEntry_twice F hle (fun i => vGather sem.vspace.mesh u m i k) hn
        beta_reduce at h2
        rw [hloc' m n hn, hval p hp m hm n hn he, hloc m n hn, ← h2]
        refine Finset.sum_congr rfl fun j hj => ?_
        rw [Finset.mem_range] at hj
        congr 1
        rw [← hloc m j hj k]
        rcases hr m hm j hj with he' | ⟨h0, h1⟩
        · have := hfull m hm j hj n hn he'
          rw [he] at this
          unfold sentinel at this
          omega
        · obtain ⟨q, hq⟩ := Int.eq_ofNat_of_zero_le h0
          rw [hq] at h1
          have hqN : q < sem.vspace.mesh.numNodes := by exact_mod_cast h1
          rw [← hval q hqN m hm j hj hq k]
          unfold vGather
          rw [Mesh.gather_apply _ _ _ _ hj, hq, if_pos (by omega), readPos_nat hqN]
      rw [this]
      ring
    · rw [hrv p k, hout p (not_lt.mp hp), hout p (not_lt.mp hp)]
      ring
  · obtain ⟨w, hw, loc', hloc', hwv⟩ := filter_eq (sem := sem) F alpha u
    rw [hw, Option.some.injEq]
    funext p k
    have : vScatter sem.vspace.mesh loc' p k = vScatter sem.vspace.mesh loc p k := by
      unfold vScatter
      rw [Mesh.scatter_apply, Mesh.scatter_apply]
      refine Finset.sum_congr rfl fun m _ => Finset.sum_congr rfl fun n hn => ?_
      rw [Finset.mem_range] at hn
      beta_reduce
      rw [hloc' m n hn k, hloc m n hn k]
    simp only [Pi.add_apply, Pi.smul_apply, smul_eq_mul]
    rw [hwv, hrv p k, this]
    ring

end Verif.NS
