import Verif.Lemmas.CubeClosed
import Verif.Lemmas.CubeMass

/-!
# Shear flows that the filter damps

On a cube mesh with at least two axes there is a velocity along the first axis that only varies along the second one and
vanishes on all points of the filter grid: it has no divergence, and the filter multiplies it by `1 - alpha`.
-/

set_option linter.unusedSectionVars false

namespace Verif.NS

open Verif.Core Verif.Spec Verif.Linalg MvPolynomial MeasureTheory

namespace CubeSEM

variable {n d p over : ℕ} {a b : ℝ} {per : List ℕ} {bcs : List (String × BCType)} {cs : CubeStokes d}
  {vnode pnode : ℕ → ℕ → ℕ} {l : List ℝ}

/-- Velocities whose element polynomials vanish on the filter grid are damped. -/
theorem filter_damped (h : CubeSEM n d p a b per bcs cs vnode pnode l) (hn : 1 ≤ n) (hp : 3 ≤ p) (hb : CubeBCs d per bcs)
    (alpha : ℝ) {u : Vel ℝ d} {U : Fin d → ℕ → MvPolynomial (Fin d) ℝ} (hU : ∀ k, CellField cs.vmesh p (fun j => u j k) (U k))
    (hz : ∀ k, ∀ e < n ^ d, ∀ q < cs.low.numPoints ^ d, eval (gridPoint d cs.low.value q)
      (affSub ((b - a) / (2 * n)) (centre n d a ((b - a) / (2 * n)) e) (U k e)) = 0) :
    cs.sem.filter cs.low alpha u = some ((1 - alpha) • u) := by
  have H := h.setup hn hb
  have hC := h.vcube.cells
  obtain ⟨_, _, hvm, _⟩ := H.fields
  have hlow : 0 < cs.low.numPoints := by rw [h.lowPoints]; omega
  obtain ⟨L, Ld, hL, hLd, hLpoly⟩ := C34_polynomials (d := d) hlow hC.numPos hC.dim cs.vmesh.grid.bary cs.vmesh.grid.value
    hC.weights hC.nodes cs.low.value
  obtain ⟨M, Md, hM, hMd, hMpoly⟩ := C34_polynomials (d := d) hC.numPos hlow hC.dim cs.low.bary cs.low.value
    h.lowWeights h.lowNodes cs.vmesh.grid.value
  have hLcols : Ld.cols = cs.vmesh.nodesPerElem := by
    obtain ⟨A, hA, _, hc, _⟩ := C34_products hlow hC.numPos hC.dim L
    rw [hLd, Option.some.injEq] at hA
    rw [hA, hc]; rfl
  have hMcols : Md.cols = cs.low.numPoints ^ d := by
    obtain ⟨A, hA, _, hc, _⟩ := C34_products hC.numPos hlow hC.dim M
    rw [hMd, Option.some.injEq] at hA
    rw [hA, hc]
  have hloc : ∀ e < n ^ d, ∀ i < cs.vmesh.nodesPerElem, ∀ k,
      Md.apply (Ld.apply (fun i => vGather cs.vmesh u e i k)) i = 0 := by
    intro e he i hi k
    have h1 : ∀ q < cs.low.numPoints ^ d, Ld.apply (fun i => vGather cs.vmesh u e i k) q = 0 := by
      intro q hq
      rw [← hz k e he q hq, ← hLpoly _ (hC.toAffCells.affDegree (hU k e (by rw [hC.num]; exact he)).1 _) q hq]
      apply NMat.apply_congr
      intro j hj
      rw [hLcols] at hj
      exact hC.toAffCells.sample (hU k) he hj
    have h2 : Md.apply (Ld.apply (fun i => vGather cs.vmesh u e i k)) i = Md.apply (fun _ => 0) i := by
      apply NMat.apply_congr
      intro q hq
      rw [hMcols] at hq
      exact h1 q hq
    rw [h2]
    simp [NMat.apply]
  unfold StokesSEM.filter
  rw [hvm]
  simp only [hL, hM, hLd, hMd]
  congr 1
  funext j k
  have hsc : vScatter cs.vmesh (fun m n k => Md.apply (Ld.apply (fun n => vGather cs.vmesh u m n k)) n) j k = 0 := by
    unfold vScatter
    rw [Mesh.scatter_apply]
    refine Finset.sum_eq_zero fun e he => Finset.sum_eq_zero fun i hi => ?_
    rw [Finset.mem_range] at he hi
    rw [hC.num] at he
    beta_reduce
    rw [hloc e he i hi k]
    split
    · rw [mul_zero]
    · rfl
  rw [hsc]
  simp

/-- A velocity of element polynomials without divergence has no discrete divergence. -/
theorem div_zero_cells (h : CubeSEM n d p a b per bcs cs vnode pnode l) (hn : 1 ≤ n) (hp : 3 ≤ p) (hb : CubeBCs d per bcs)
    {u : Vel ℝ d} {U : Fin d → ℕ → MvPolynomial (Fin d) ℝ} (hU : ∀ k, CellField cs.vmesh p (fun j => u j k) (U k))
    (hdiv : ∀ e, ∑ k, pderiv k (U k e) = 0) : cs.sem.D u = 0 := by
  classical
  have hv := (h.setup hn hb).valid
  funext j
  by_cases hj : j < cs.sem.numP
  · obtain ⟨Q, hQ⟩ := h.pcube.exists_field (fun i => if i = j then 1 else 0)
    have h1 := D_dot hv.pwf hv.prange u (fun i => if i = j then (1 : ℝ) else 0)
    rw [h.div_integral hp hU hQ] at h1
    unfold nodeDot at h1
    rw [Finset.sum_eq_single j (fun i _ hij => by beta_reduce; rw [if_neg hij, zero_mul])
      (fun hn => absurd (Finset.mem_range.mpr hj) hn)] at h1
    beta_reduce at h1
    rw [if_pos rfl, one_mul] at h1
    rw [h1]
    refine Finset.sum_eq_zero fun e _ => ?_
    rw [hdiv]
    simp
  · exact D_outside cs.sem _ j (not_lt.mp hj)

/-- The polynomial with the given roots. -/
def rootProd (r : List ℝ) (s : ℝ) : ℝ := (r.map fun x => s - x).prod

theorem rootProd_zero {r : List ℝ} {s : ℝ} (h : s ∈ r) : rootProd r s = 0 :=
  List.prod_eq_zero (List.mem_map.mpr ⟨s, h, sub_self s⟩)

theorem rootProd_ne {r : List ℝ} {s : ℝ} (h : s ∉ r) : rootProd r s ≠ 0 := by
  refine List.prod_ne_zero fun hm => ?_
  obtain ⟨x, hx, h0⟩ := List.mem_map.mp hm
  exact h (by rw [sub_eq_zero.mp h0]; exact hx)

/-- The same on every cell of a row of cells of half width `c`. -/
noncomputable def rowProd (r : List ℝ) (a c y : ℝ) : ℝ :=
  rootProd r ((y - a) / c - 2 * ⌊(y - a) / (2 * c)⌋ - 1)

theorem rowProd_eq {r : List ℝ} (h0 : (-1 : ℝ) ∈ r) (h1 : (1 : ℝ) ∈ r) {a c : ℝ} (hc : 0 < c) (E : ℕ) {s : ℝ} (hs : -1 ≤ s)
    (hs' : s ≤ 1) : rowProd r a c (c * s + (a + c * (2 * E + 1))) = rootProd r s := by
  have e1 : (c * s + (a + c * (2 * E + 1)) - a) / c = s + 2 * E + 1 := by field_simp; ring
  have e2 : (c * s + (a + c * (2 * E + 1)) - a) / (2 * c) = (s + 1) / 2 + E := by field_simp; ring
  unfold rowProd
  rw [e1, e2]
  rcases hs'.eq_or_lt with rfl | hlt
  · have : ⌊((1 : ℝ) + 1) / 2 + E⌋ = (E : ℤ) + 1 := by
      rw [Int.floor_eq_iff]; push_cast; constructor <;> linarith
    rw [this]
    push_cast
    rw [show (1 : ℝ) + 2 * E + 1 - 2 * (E + 1) - 1 = -1 by ring, rootProd_zero h0, rootProd_zero h1]
  · have : ⌊(s + 1) / 2 + E⌋ = (E : ℤ) := by
      rw [Int.floor_eq_iff]; push_cast; constructor <;> linarith
    rw [this]
    push_cast
    rw [show s + 2 * E + 1 - 2 * E - 1 = s by ring]

/-- The element polynomials. -/
noncomputable def rowPoly (r : List ℝ) (c m : ℝ) (j : Fin d) : MvPolynomial (Fin d) ℝ :=
  (r.map fun x => C (1 / c) * (X j - C m) - C x).prod

theorem rowPoly_eval (r : List ℝ) (c m : ℝ) (j : Fin d) (x : Fin d → ℝ) :
    eval x (rowPoly r c m j) = rootProd r ((x j - m) / c) := by
  unfold rowPoly rootProd
  rw [map_list_prod, List.map_map]
  congr 1
  refine List.map_congr_left fun y _ => ?_
  simp
  ring

theorem rowPoly_degree (r : List ℝ) (c m : ℝ) (j k : Fin d) : (rowPoly r c m j).degreeOf k ≤ r.length := by
  unfold rowPoly
  induction r with
  | nil => simp
  | cons x r ih =>
    rw [List.map_cons, List.prod_cons, List.length_cons, add_comm]
    refine (degreeOf_mul_le k _ _).trans (add_le_add ?_ ih)
    refine (degreeOf_sub_le k _ _).trans ?_
    rw [degreeOf_C, max_le_iff]
    refine ⟨(degreeOf_mul_le k _ _).trans ?_, by omega⟩
    rw [degreeOf_C, zero_add]
    refine (degreeOf_lin j k m).trans ?_
    split <;> omega

theorem rowPoly_pderiv (r : List ℝ) (c m : ℝ) {j k : Fin d} (hjk : j ≠ k) : pderiv k (rowPoly r c m j) = 0 := by
  unfold rowPoly
  induction r with
  | nil => simp
  | cons x r ih =>
    rw [List.map_cons, List.prod_cons, Derivation.leibniz, ih]
    simp [pderiv_X_of_ne hjk]

/-- A velocity without divergence that the filter damps. -/
theorem exists_damped (h : CubeSEM n d p a b per [] cs vnode pnode l) (hn : 1 ≤ n) (hd2 : 2 ≤ d) (hp : 3 ≤ p) (hab : a < b) :
    ∃ v : Vel ℝ d, v ∈ TSpace cs.sem ∧ cs.sem.D v = 0 ∧ (∃ j < cs.vmesh.numNodes, ∃ k, v j k ≠ 0) ∧
      ∀ alpha, cs.sem.filter cs.low alpha v = some ((1 - alpha) • v) := by
  classical
  have hb : CubeBCs d per [] := Or.inr rfl
  have H := h.setup hn hb
  have hC := h.vcube.cells
  have hc := hC.width
  obtain ⟨_, _, hvm, _, hmask, _, _⟩ := H.fields
  obtain ⟨c, hcd⟩ : ∃ c, c = (b - a) / (2 * n) := ⟨_, rfl⟩
  rw [← hcd] at hC hc
  have hcc := hC
  have hcn : b = a + c * (2 * n) := by
    rw [hcd]
    have : (0 : ℝ) < n := by exact_mod_cast hn
    field_simp
    ring
  obtain ⟨r, hr⟩ : ∃ r, r = List.ofFn cs.low.value := ⟨_, rfl⟩
  have hrlen : r.length = p := by rw [hr, List.length_ofFn, h.lowPoints]
  have hmem : ∀ i, cs.low.value i ∈ r := fun i => by rw [hr, List.mem_ofFn]; exact ⟨i, rfl⟩
  obtain ⟨i0, i1, hi0, hi1⟩ := h.lowEnds
  have hm1 : (-1 : ℝ) ∈ r := by rw [← hi0]; exact hmem i0
  have h1m : (1 : ℝ) ∈ r := by rw [← hi1]; exact hmem i1
  let j0 : Fin d := ⟨0, by omega⟩
  let j1 : Fin d := ⟨1, by omega⟩
  have hj01 : j1 ≠ j0 := by simp [j0, j1]
  obtain ⟨v, hv⟩ : ∃ v : Vel ℝ d, v = fun j k => if j < cs.vmesh.numNodes ∧ k = j0 then rowProd r a c (cs.vmesh.coords j j1) else 0 :=
    ⟨_, rfl⟩
  have hbound : ∀ i, -1 ≤ gridPoint d cs.vmesh.grid.value i j1 ∧ gridPoint d cs.vmesh.grid.value i j1 ≤ 1 := by
    intro i
    rw [hC.grid]
    exact hC.within _ (Verif.Common.digit_lt _ _ _ _ (by omega))
  have hval : ∀ e < n ^ d, ∀ i < cs.vmesh.nodesPerElem, rowProd r a c (cs.vmesh.coords (vnode e i) j1) =
      rootProd r (gridPoint d cs.vmesh.grid.value i j1) := by
    intro e he i hi
    rw [hC.coords e he i hi j1]
    exact rowProd_eq hm1 h1m hc _ (hbound i).1 (hbound i).2
  have hfield : ∀ k, CellField cs.vmesh p (fun j => v j k)
      (fun e => if k = j0 then rowPoly r c (centre n d a c e j1) j1 else 0) := by
    intro k e he
    rw [hC.num] at he
    by_cases hk : k = j0
    · simp only [if_pos hk]
      refine ⟨fun i => by rw [← hrlen]; exact rowPoly_degree r c _ j1 i, fun i hi w hw => ?_⟩
      rw [hC.elem e he i hi] at hw
      have hw' : vnode e i = w := by exact_mod_cast hw
      subst hw'
      rw [hv]
      simp only [hk, and_true, if_pos (hC.lt e he i hi)]
      rw [hval e he i hi, rowPoly_eval, hC.coords e he i hi j1]
      congr 1
      field_simp
      ring
    · simp only [if_neg hk]
      refine ⟨fun i => by simp, fun i hi w hw => ?_⟩
      rw [hv]
      simp [hk]
  have hcont : ∀ k, Continuous cs.vmesh (fun j => v j k) := by
    intro k i hi j hj hs
    simp only [hv, hi, hj, true_and]
    split_ifs with hk
    · rcases (h.same_iff hi hj).mp hs j1 with he | ⟨_, ⟨he, he'⟩ | ⟨he, he'⟩⟩
      · rw [he]
      all_goals
        have ha : rowProd r a c a = 0 := by
          have := rowProd_eq hm1 h1m (a := a) hc 0 (le_refl (-1 : ℝ)) (by norm_num)
          rw [rootProd_zero hm1] at this
          rw [← this]
          congr 1
          push_cast
          ring
        have hbz : rowProd r a c b = 0 := by
          have := rowProd_eq hm1 h1m (a := a) hc (n - 1) (by norm_num : (-1 : ℝ) ≤ 1) le_rfl
          rw [rootProd_zero h1m] at this
          rw [← this, hcn]
          congr 1
          push_cast [Nat.cast_sub hn]
          ring
        rw [he, he', ha, hbz]
    · rfl
  refine ⟨v, ⟨?_, fun k => by rw [hvm]; exact hcont k⟩, ?_, ?_, fun alpha => ?_⟩
  · refine (H.mem_VSpace v).mpr ⟨fun j hj => ?_, fun j hj => ?_⟩
    · obtain ⟨g, m, hg, _⟩ := hj
      simp at hg
    · funext k
      simp [hv, not_lt.mpr hj]
  · refine h.div_zero_cells hn hp hb hfield fun e => ?_
    refine Finset.sum_eq_zero fun k _ => ?_
    by_cases hk : k = j0
    · simp only [if_pos hk]
      exact rowPoly_pderiv r c _ (by rw [hk]; exact hj01)
    · simp only [if_neg hk]
      simp
  · -- there are more nodes than roots
    obtain ⟨m, hm⟩ : ∃ m : Fin cs.vmesh.grid.numPoints, cs.vmesh.grid.value m ∉ r := by
      by_contra hcon
      push Not at hcon
      have h1 : Finset.univ.image cs.vmesh.grid.value ⊆ r.toFinset := by
        intro x hx
        obtain ⟨m, _, rfl⟩ := Finset.mem_image.mp hx
        exact List.mem_toFinset.mpr (hcon m)
      have h2 := Finset.card_le_card h1
      rw [Finset.card_image_of_injective _ hC.nodes, Finset.card_univ, Fintype.card_fin, hC.points] at h2
      have h3 := r.toFinset_card_le
      omega
    obtain ⟨i, hi, hdig⟩ := digit_surj (d := d) fun _ => m
    have he : 0 < n ^ d := Nat.pow_pos hn
    refine ⟨vnode 0 i, hC.lt 0 he i hi, j0, ?_⟩
    rw [hv]
    simp only [hC.lt 0 he i hi, and_self, if_true]
    rw [hval 0 he i hi]
    refine rootProd_ne ?_
    have : gridPoint d cs.vmesh.grid.value i j1 = cs.vmesh.grid.value m := by
      unfold gridPoint
      rw [hdig j1]
      simp [at0]
    rw [this]
    exact hm
  · refine h.filter_damped hn hp hb alpha hfield fun k e he q hq => ?_
    rw [eval_affSub, ← hcd]
    split_ifs with hk
    · rw [rowPoly_eval, add_sub_cancel_right, mul_div_cancel_left₀ _ hc.ne']
      have hlow : 0 < cs.low.numPoints := by rw [h.lowPoints]; omega
      have hlt := Verif.Common.digit_lt cs.low.numPoints d j1 q hlow
      refine rootProd_zero ?_
      have : gridPoint d cs.low.value q j1 = cs.low.value ⟨_, hlt⟩ := by
        unfold gridPoint at0
        rw [dif_pos hlt]
      rw [this]
      exact hmem _
    · simp

end CubeSEM

end Verif.NS
