import Verif.Lemmas.CubeAdvect
import Verif.Lemmas.FilterTwice

/-!
# The kinetic energy of filtered velocities on cube meshes
-/

set_option linter.unusedSectionVars false

namespace Verif.NS

open Verif.Core Verif.Spec Verif.Linalg MvPolynomial MeasureTheory

variable {n d p over : ℕ} {a b : ℝ} {per : List ℕ} {bcs : List (String × BCType)} {cs : CubeStokes d}
  {vnode pnode : ℕ → ℕ → ℕ} {l : List ℝ}

namespace CubeSEM

/-- The filter leaves polynomials of a degree less than the elements alone, element by element. -/
theorem filter_fixed_cells (h : CubeSEM n d p a b per bcs cs vnode pnode l) (hn : 1 ≤ n) (hp : 3 ≤ p) (hb : CubeBCs d per bcs)
    (alpha : ℝ) {u : Vel ℝ d} (hu0 : ∀ j, cs.vmesh.numNodes ≤ j → u j = 0) {U : Fin d → ℕ → MvPolynomial (Fin d) ℝ}
    (hF : ∀ k, CellField cs.vmesh p (fun j => u j k) (U k)) (hU : ∀ k e i, (U k e).degreeOf i ≤ p - 1) :
    cs.sem.filter cs.low alpha u = some u := by
  have H := h.setup hn hb
  have hC := h.vcube.cells
  obtain ⟨_, _, hvm, _⟩ := H.fields
  obtain ⟨mask, _, hcr⟩ := H.create
  obtain ⟨_, _, _, _, hdiag, _⟩ := StokesSEM.create_fields hcr
  have hlow : 0 < cs.low.numPoints := by rw [h.lowPoints]; omega
  obtain ⟨L, Ld, hL, hLd, hLpoly⟩ := C34_polynomials (d := d) hlow hC.numPos hC.dim cs.vmesh.grid.bary cs.vmesh.grid.value
    hC.weights hC.nodes cs.low.value
  obtain ⟨M, Md, hM, hMd, hMpoly⟩ := C34_polynomials (d := d) hC.numPos hlow hC.dim cs.low.bary cs.low.value
    h.lowWeights h.lowNodes cs.vmesh.grid.value
  have hLcols : Ld.cols = cs.vmesh.nodesPerElem := by
    obtain ⟨A, hA, _, hc, _⟩ := C34_products hlow hC.numPos hC.dim L
    rw [hLd, Option.some.injEq] at hA
    rw [hA, hc]; rfl
  have hMcols : Md.cols = cs.low.numPoints ^ d := by
    obtain ⟨A, hA, _, hc, _⟩ := C34_products hC.numPos hlow hC.dim M
    rw [hMd, Option.some.injEq] at hA
    rw [hA, hc]
  -- every element is left alone
  have hloc : ∀ e < n ^ d, ∀ i < cs.vmesh.nodesPerElem, ∀ k,
      Md.apply (Ld.apply (fun i => vGather cs.vmesh u e i k)) i = u (vnode e i) k := by
    intro e he i hi k
    have hdeg := degreeOf_affSub ((b - a) / (2 * n)) (centre n d a ((b - a) / (2 * n)) e) (U k e)
    have h1 : ∀ q < cs.low.numPoints ^ d, Ld.apply (fun i => vGather cs.vmesh u e i k) q =
        eval (gridPoint d cs.low.value q) (affSub ((b - a) / (2 * n)) (centre n d a ((b - a) / (2 * n)) e) (U k e)) := by
      intro q hq
      rw [← hLpoly _ (hC.toAffCells.affDegree (hF k e (by rw [hC.num]; exact he)).1 _) q hq]
      apply NMat.apply_congr
      intro j hj
      rw [hLcols] at hj
      exact hC.toAffCells.sample (hF k) he hj
    have h2 : Md.apply (Ld.apply (fun i => vGather cs.vmesh u e i k)) i =
        Md.apply (fun q => eval (gridPoint d cs.low.value q)
          (affSub ((b - a) / (2 * n)) (centre n d a ((b - a) / (2 * n)) e) (U k e))) i := by
      apply NMat.apply_congr
      intro q hq
      rw [hMcols] at hq
      exact h1 q hq
    rw [h2, hMpoly _ (fun j => by
      have g1 := hdeg j
      have g2 := hU k e j
      rw [h.lowPoints]
      omega) i hi, ← hC.toAffCells.sample (hF k) he hi, hC.toAffCells.gather _ he hi]
  unfold StokesSEM.filter
  rw [hvm]
  simp only [hL, hM, hLd, hMd]
  congr 1
  funext j k
  by_cases hj : j < cs.vmesh.numNodes
  · have hne : cs.sem.diagQqt j ≠ 0 := (H.finite j (by unfold StokesSEM.numV; rw [hvm]; exact hj)).1
    have hsc : vScatter cs.vmesh (fun m n k => Md.apply (Ld.apply (fun n => vGather cs.vmesh u m n k)) n) j k =
        cs.sem.diagQqt j * u j k := by
      rw [hdiag]
      unfold vScatter
      rw [Mesh.scatter_apply, Mesh.scatter_apply, Finset.sum_mul]
      refine Finset.sum_congr rfl fun e he => ?_
      rw [Finset.sum_mul]
      refine Finset.sum_congr rfl fun i hi => ?_
      rw [Finset.mem_range] at he hi
      rw [hC.num] at he
      split
      · rename_i hw
        rw [hC.elem e he i hi, writePos_nat (hC.lt e he i hi), Option.some.injEq] at hw
        beta_reduce
        rw [hloc e he i hi k, hw, mul_one]
      · rw [zero_mul]
    rw [hsc]
    field_simp
    ring
  · have h0 : u j k = 0 := by rw [hu0 j (not_lt.mp hj)]; rfl
    rw [h0, mul_zero, zero_add]
    unfold vScatter
    rw [Mesh.scatter_outside _ _ j (not_lt.mp hj)]
    simp

/-- The mass matrix integrates products exactly when one factor has a degree less than the elements. -/
theorem mass_prod (h : CubeSEM n d p a b per bcs cs vnode pnode l) (hn : 1 ≤ n) (hb : CubeBCs d per bcs) (hp : 1 ≤ p)
    {u v : Vel ℝ d} {U V : Fin d → ℕ → MvPolynomial (Fin d) ℝ} (hU : ∀ k, CellField cs.vmesh p (fun j => u j k) (U k))
    (hV : ∀ k, CellField cs.vmesh p (fun j => v j k) (V k)) (hdeg : ∀ k e i, (V k e).degreeOf i ≤ p - 1) :
    vMassForm cs.sem.vspace (vGather cs.vmesh u) (vGather cs.vmesh v) = ∑ e ∈ Finset.range (n ^ d),
      ∫ y in CubeCells.cell n d a ((b - a) / (2 * n)) e, eval y (∑ k, U k e * V k e) := by
  have H := h.setup hn hb
  have hC := h.vcube.cells
  unfold vMassForm
  apply hC.toAffCells.integrate h.vbuild h.rule h.count h.values
  · intro e he i
    refine le_trans (degreeOf_sum_le _ _ _) (Finset.sup_le fun k _ => ?_)
    refine le_trans (degreeOf_mul_le i _ _) ?_
    have g1 := hdeg k e i
    have g2 := (hU k e (by rw [hC.num]; exact he)).1 i
    omega
  · intro e he q hq
    have hq' : q < cs.vmesh.nodesPerElem := by rw [← h.numQuad_eq]; exact hq
    rw [map_sum]
    refine Finset.sum_congr rfl fun k _ => ?_
    have hint : ∀ y : ℕ → ℝ, cs.sem.vspace.interpolate y q = y q := by
      obtain ⟨_, _, _, _, _, _, _, _, _, _, hint, _⟩ := FESpace.build_fields h.vbuild
      intro y
      rw [hint, if_pos H.collocated]
    unfold vectorFn
    rw [hint, hint, map_mul, h.pt_eq he hq']
    unfold vGather
    rw [hC.toAffCells.gather _ he hq', hC.toAffCells.gather _ he hq',
      (hU k e (by rw [hC.num]; exact he)).2 q hq' _ (hC.elem e he q hq'),
      (hV k e (by rw [hC.num]; exact he)).2 q hq' _ (hC.elem e he q hq')]

/-- The points of the filter grid. -/
theorem low_roots (hcs : cubeStokes n d p over a b per bcs = .ok cs) (hp : 3 ≤ p) (i : Fin cs.low.numPoints) :
    (lobatto (p - 1)).eval (cs.low.value i) = 0 := by
  have h1 := (cubeStokes_grids hcs).1
  generalize cs.low = low at h1 i ⊢
  obtain ⟨N, rfl⟩ : ∃ N, p = N + 2 := ⟨p - 2, by omega⟩
  obtain ⟨l, h2, h3, _, h4, _⟩ := gll_list N
  simp only [createNodes, h2, Option.some.injEq] at h1
  subst h1
  exact (h4 _).mp (vec_mem h3 i)

end CubeSEM

/-- A polynomial that vanishes at the ends and is not orthogonal to the one with the roots of the filter grid. -/
theorem exists_not_orth (hp : 4 ≤ p) : ∃ g : Polynomial ℝ, g.eval (-1) = 0 ∧ g.eval 1 = 0 ∧ g.natDegree ≤ p - 1 ∧
    integ (lobatto (p - 1) * g) ≠ 0 := by
  obtain ⟨N, rfl⟩ : ∃ N, p = N + 4 := ⟨p - 4, by omega⟩
  refine ⟨(Polynomial.X ^ 2 - 1) * Polynomial.X ^ N, by simp, by simp, ?_, fun h0 => ?_⟩
  · refine Polynomial.natDegree_mul_le.trans ?_
    have h1 : (Polynomial.X ^ 2 - 1 : Polynomial ℝ).natDegree ≤ 2 := by compute_degree
    have h2 : (Polynomial.X ^ N : Polynomial ℝ).natDegree ≤ N := Polynomial.natDegree_X_pow_le N
    omega
  · have hs := lobatto_self (N + 2)
    rw [show N + 4 - 1 = N + 2 + 1 by omega] at h0
    have hlow : ∀ q : Polynomial ℝ, q.degree < ((N + 2 : ℕ) : WithBot ℕ) → integ (lobatto (N + 2 + 1) * q) = 0 :=
      fun q hq => lobatto_orth hq
    have hX : integ (lobatto (N + 2 + 1) * Polynomial.X ^ (N + 2)) = 0 := by
      have e : lobatto (N + 2 + 1) * ((Polynomial.X ^ 2 - 1) * Polynomial.X ^ N) =
          lobatto (N + 2 + 1) * Polynomial.X ^ (N + 2) - lobatto (N + 2 + 1) * Polynomial.X ^ N := by ring
      rw [e, map_sub, hlow (Polynomial.X ^ N) (lt_of_le_of_lt (Polynomial.degree_X_pow_le N) (by exact_mod_cast (by omega : N < N + 2))),
        sub_zero] at h0
      exact h0
    have hdeg : (Polynomial.derivative (legendre (N + 2 + 1))).natDegree = N + 2 := derivative_degree (N + 2)
    have hsplit := Polynomial.eraseLead_add_C_mul_X_pow (Polynomial.derivative (legendre (N + 2 + 1)))
    rw [hdeg] at hsplit
    have hne : Polynomial.derivative (legendre (N + 2 + 1)) ≠ 0 := derivative_ne_zero (N + 2)
    have hlt := Polynomial.degree_eraseLead_lt hne
    rw [Polynomial.degree_eq_natDegree hne, hdeg] at hlt
    rw [← hsplit, mul_add, map_add, hlow _ hlt, zero_add, mul_left_comm, integ_C_mul, hX, mul_zero] at hs
    exact lt_irrefl _ hs

/-- Two velocities: the filter damps one and keeps the other, and they are not orthogonal. -/
theorem CubeSEM.exists_oblique (h : CubeSEM n d p a b per [] cs vnode pnode l) (hcs : cubeStokes n d p over a b per [] = .ok cs)
    (hn : 1 ≤ n) (hp : 4 ≤ p) : ∃ w ∈ TSpace cs.sem, ∃ g ∈ TSpace cs.sem,
    (∀ alpha, cs.sem.filter cs.low alpha w = some ((1 - alpha) • w)) ∧ (∀ alpha, cs.sem.filter cs.low alpha g = some g) ∧
      vMassForm cs.sem.vspace (vGather cs.vmesh w) (vGather cs.vmesh g) ≠ 0 := by
  have hb : CubeBCs d per [] := Or.inr rfl
  have H := h.setup hn hb
  have hC := h.vcube.cells
  have hc := hC.width
  have hd := hC.dim
  obtain ⟨_, _, hvm, _⟩ := H.fields
  obtain ⟨g, hg0, hg1, hgd, hg⟩ := exists_not_orth hp
  let j0 : Fin d := ⟨0, hd⟩
  have hq : (Polynomial.X ^ 2 - 1 : Polynomial ℝ).natDegree ≤ 2 := by compute_degree
  have hlob : (lobatto (p - 1)).natDegree ≤ p := by
    obtain ⟨N, rfl⟩ : ∃ N, p = N + 2 := ⟨p - 2, by omega⟩
    exact (lobatto_natDegree N).le
  obtain ⟨w, hw, hW⟩ := h.exists_row_vel hn (fun _ j => if j = j0 then lobatto (p - 1) else Polynomial.X ^ 2 - 1)
    (fun k j => by beta_reduce; split <;> simp [lobatto]) (fun k j => by beta_reduce; split <;> simp [lobatto])
    (fun k j => by beta_reduce; split; exact hlob; omega)
  obtain ⟨v, hv, hV⟩ := h.exists_row_vel hn (fun _ j => if j = j0 then g else Polynomial.X ^ 2 - 1)
    (fun k j => by beta_reduce; split; exact hg0; simp) (fun k j => by beta_reduce; split; exact hg1; simp)
    (fun k j => by beta_reduce; split <;> omega)
  have hdegV : ∀ (k : Fin d) (e : ℕ) (i : Fin d), (∏ j, refPoly (if j = j0 then g else Polynomial.X ^ 2 - 1) ((b - a) / (2 * n))
      (centre n d a ((b - a) / (2 * n)) e j) j).degreeOf i ≤ p - 1 := by
    intro k e i
    refine (degreeOf_prod_le _ _ _).trans ?_
    rw [Finset.sum_eq_single i (fun j _ hj => by
      have := refPoly_degree (if j = j0 then g else Polynomial.X ^ 2 - 1) ((b - a) / (2 * n)) (centre n d a ((b - a) / (2 * n)) e j) j i
      rw [if_neg hj] at this
      omega) (fun hi => absurd (Finset.mem_univ i) hi)]
    have := refPoly_degree (if i = j0 then g else Polynomial.X ^ 2 - 1) ((b - a) / (2 * n)) (centre n d a ((b - a) / (2 * n)) e i) i i
    rw [if_pos rfl] at this
    refine this.trans ?_
    split <;> omega
  refine ⟨w, hw, v, hv, fun alpha => ?_, fun alpha => ?_, ?_⟩
  · refine h.filter_damped hn (by omega) hb alpha hW fun k e he q hq => ?_
    beta_reduce
    rw [eval_affSub, map_prod]
    refine Finset.prod_eq_zero (Finset.mem_univ j0) ?_
    rw [refPoly_eval, if_pos rfl, add_sub_cancel_right, mul_div_cancel_left₀ _ hc.ne']
    have hlow : 0 < cs.low.numPoints := by rw [h.lowPoints]; omega
    have hlt := Verif.Common.digit_lt cs.low.numPoints d j0 q hlow
    have : gridPoint d cs.low.value q j0 = cs.low.value ⟨_, hlt⟩ := by
      unfold gridPoint at0
      rw [dif_pos hlt]
    rw [this]
    exact low_roots hcs (by omega) _
  · refine h.filter_fixed_cells hn (by omega) hb alpha (fun j hj => ?_) hV hdegV
    exact ((H.mem_VSpace v).mp hv.1).2 j hj
  · rw [h.mass_prod hn hb (by omega) hW hV hdegV]
    obtain ⟨c, hcd⟩ : ∃ c, c = (b - a) / (2 * n) := ⟨_, rfl⟩
    rw [← hcd] at hc ⊢
    have hcell : ∀ e, ∫ y in CubeCells.cell n d a c e, eval y (∑ k : Fin d,
        (∏ j, refPoly (if j = j0 then lobatto (p - 1) else Polynomial.X ^ 2 - 1) c (centre n d a c e j) j) *
          ∏ j, refPoly (if j = j0 then g else Polynomial.X ^ 2 - 1) c (centre n d a c e j) j) =
        d * (c ^ d * ∏ j : Fin d, integ (if j = j0 then lobatto (p - 1) * g else (Polynomial.X ^ 2 - 1) * (Polynomial.X ^ 2 - 1))) := by
      intro e
      have : (∏ j, refPoly (if j = j0 then lobatto (p - 1) else Polynomial.X ^ 2 - 1) c (centre n d a c e j) j) *
          ∏ j, refPoly (if j = j0 then g else Polynomial.X ^ 2 - 1) c (centre n d a c e j) j =
          ∏ j : Fin d, refPoly (if j = j0 then lobatto (p - 1) * g else (Polynomial.X ^ 2 - 1) * (Polynomial.X ^ 2 - 1)) c
            (centre n d a c e j) j := by
        rw [← Finset.prod_mul_distrib]
        refine Finset.prod_congr rfl fun j _ => ?_
        split <;> rw [refPoly_mul]
      simp only [Finset.sum_const, Finset.card_univ, Fintype.card_fin, this, nsmul_eq_mul, map_mul, map_natCast]
      rw [integral_const_mul, ← integral_refPoly hc e]
    simp only [hcell]
    rw [Finset.sum_const, Finset.card_range, nsmul_eq_mul]
    refine mul_ne_zero (by positivity) (mul_ne_zero (by positivity) (mul_ne_zero (by positivity) (Finset.prod_ne_zero_iff.mpr fun j _ => ?_)))
    split
    · exact hg
    · rw [integ_apply]
      refine ne_of_gt (intervalIntegral.integral_pos (by norm_num) (Polynomial.continuous _).continuousOn (fun x _ => ?_) ?_)
      · rw [Polynomial.eval_mul]
        exact mul_self_nonneg _
      · exact ⟨0, by norm_num, by simp⟩

end Verif.NS
