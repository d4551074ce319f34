import Mathlib.Algebra.Order.Chebyshev
import Verif.Lemmas.CubeConv
import Verif.Lemmas.CubeFilter
import Verif.Lemmas.CubeGlobal
import Verif.Props.C62
import Verif.Props.C92

/-!
# Integrals of the components of a velocity

The sum of the entries of `B u` along an axis is the integral of the component. The filter keeps it, the viscous term and the
pressure gradient do not change it when no boundary condition is imposed.
-/

set_option linter.unusedSectionVars false

namespace Verif.NS

open Verif.Core Verif.Spec Verif.Linalg MvPolynomial MeasureTheory

section filter

variable {K : Type*} [Field K] [LinearOrder K] {d : ℕ} {sem : StokesSEM K d} {low : Nodes1D K}

/-- The filtered part of a field that agrees on copies is the local value of any element. -/
theorem filter_value [IsStrictOrderedRing K] (F : FilterSetup sem.vspace.mesh low) (hr : sem.vspace.mesh.InRange)
    (hal : Aligned sem.vspace.mesh low) (hdiag : sem.diagQqt = sem.vspace.mesh.scatter (fun _ _ => 1)) {u : Vel K d} {k : Fin d}
    (hu : Continuous sem.vspace.mesh (fun j => u j k)) {loc : ℕ → ℕ → Fin d → K}
    (hloc : ∀ m, ∀ n < sem.vspace.mesh.nodesPerElem, ∀ k, loc m n k = ∑ j ∈ Finset.range sem.vspace.mesh.nodesPerElem,
        vGather sem.vspace.mesh u m j k * filterEntry sem.vspace.mesh low n j)
    {p m n : ℕ} (hp : p < sem.vspace.mesh.numNodes) (hm : m < sem.vspace.mesh.numElements)
    (hn : n < sem.vspace.mesh.nodesPerElem) (he : sem.vspace.mesh.elements m n = p) :
    (1 / sem.diagQqt p) * vScatter sem.vspace.mesh loc p k = loc m n k := by
  have hne : sem.diagQqt p ≠ 0 := by
    rw [hdiag, Mesh.scatter_apply]
    apply ne_of_gt
    refine Finset.sum_pos' (fun m _ => Finset.sum_nonneg fun n _ => ?_) ⟨m, Finset.mem_range.mpr hm,
      Finset.sum_pos' (fun n _ => ?_) ⟨n, Finset.mem_range.mpr hn, ?_⟩⟩
    · split
      · rw [mul_one]; unfold maskOf; split <;> simp
      · exact le_rfl
    · split
      · rw [mul_one]; unfold maskOf; split <;> simp
      · exact le_rfl
    · rw [he, if_pos (writePos_nat hp), maskOf_nat]; simp
  have : vScatter sem.vspace.mesh loc p k = sem.diagQqt p * loc m n k := by
    rw [hdiag]
    unfold vScatter
    rw [Mesh.scatter_apply, Mesh.scatter_apply, Finset.sum_mul]
    refine Finset.sum_congr rfl fun m' hm' => ?_
    rw [Finset.sum_mul]
    refine Finset.sum_congr rfl fun n' hn' => ?_
    rw [Finset.mem_range] at hm' hn'
    split
    · rename_i hwp
      rw [mul_one]
      rcases hr m' hm' n' hn' with he' | ⟨h0, h1⟩
      · rw [he']; simp [maskOf, sentinel]
      · congr 1
        obtain ⟨a, ha⟩ := Int.eq_ofNat_of_zero_le h0
        rw [ha] at hwp h1
        rw [writePos_nat (by exact_mod_cast h1), Option.some.injEq] at hwp
        rw [hwp] at ha
        rw [hloc m' n' hn', hloc m n hn]
        exact filter_local_same F hal hu hm' hn' hm hn ha he (SameNode.refl _ _)
    · rw [zero_mul]
  rw [this, ← mul_assoc, one_div, inv_mul_cancel₀ hne, one_mul]

end filter

/-- A polynomial with given values at the points of a grid. -/
theorem exists_gridPoly {N d : ℕ} (hN : 0 < N) {x : Fin N → ℝ} (hx : Function.Injective x) (v : ℕ → ℝ) :
    ∃ R : MvPolynomial (Fin d) ℝ, (∀ k, R.degreeOf k ≤ N - 1) ∧ ∀ q < N ^ d, eval (gridPoint d x q) R = v q := by
  refine ⟨∑ j ∈ Finset.range (N ^ d), C (v j) * tensorBasis hN d x j, fun k => ?_, fun q hq => ?_⟩
  · refine le_trans (degreeOf_sum_le _ _ _) (Finset.sup_le fun j _ => ?_)
    exact le_trans (degreeOf_C_mul_le _ _ _) (tensorBasis_degree hN x hx j k)
  · rw [map_sum, Finset.sum_eq_single q]
    · rw [map_mul, tensorBasis_eval hN x hx q q hq hq, if_pos rfl, eval_C, mul_one]
    · intro j hj hjq
      rw [map_mul, tensorBasis_eval hN x hx q j hq (Finset.mem_range.mp hj), if_neg (Ne.symm hjq), mul_zero]
    · intro h; exact absurd (Finset.mem_range.mpr hq) h

variable {n d p over : ℕ} {a b : ℝ} {per : List ℕ} {bcs : List (String × BCType)} {cs : CubeStokes d}
  {vnode pnode : ℕ → ℕ → ℕ} {l : List ℝ}

theorem cubeStokes_grids (hcs : cubeStokes n d p over a b per bcs = .ok cs) :
    createNodes .gaussLobattoLegendre p = some cs.low ∧
      createQuadrature .gaussLobattoLegendre (p + 1 + over) = some cs.overQuad := by
  unfold cubeStokes at hcs
  split at hcs
  · exact absurd hcs (by simp)
  split at hcs
  · exact absurd hcs (by simp)
  split at hcs
  · exact absurd hcs (by simp)
  split at hcs
  · exact absurd hcs (by simp)
  split at hcs
  · exact absurd hcs (by simp)
  split at hcs
  · exact absurd hcs (by simp)
  rename_i ho
  split at hcs
  · exact absurd hcs (by simp)
  rename_i hl
  split at hcs
  · exact absurd hcs (by simp)
  rw [Except.ok.injEq] at hcs
  subst hcs
  exact ⟨hl, ho⟩

namespace CubeSEM

/-- The mass matrix integrates the components. -/
theorem mass_total (h : CubeSEM n d p a b per bcs cs vnode pnode l) (hn : 1 ≤ n) (hb : CubeBCs d per bcs)
    {u : Vel ℝ d} {k : Fin d} {U : ℕ → MvPolynomial (Fin d) ℝ} (hU : CellField cs.vmesh p (fun j => u j k) U) :
    ∑ j ∈ Finset.range cs.vmesh.numNodes, cs.sem.massDiag j k * u j k =
      ∑ e ∈ Finset.range (n ^ d), ∫ x in CubeCells.cell n d a ((b - a) / (2 * n)) e, eval x (U e) := by
  have H := h.setup hn hb
  have hv := H.valid
  have hC := h.vcube.cells
  obtain ⟨_, _, hvm, _⟩ := H.fields
  obtain ⟨mask, _, hcr⟩ := H.create
  obtain ⟨_, _, _, _, _, hm⟩ := StokesSEM.create_fields hcr
  have h1 : ∑ j ∈ Finset.range cs.vmesh.numNodes, cs.sem.massDiag j k * u j k =
      vMassForm cs.sem.vspace (fun _ _ _ => 1) (vGather cs.vmesh (fun j i => if i = k then u j k else 0)) := by
    rw [← vCovector cs.vmesh H.vrange (vMassForm cs.sem.vspace (fun _ _ _ => 1))
      (by rw [← hvm]; exact vMassForm_linear cs.sem.vspace hv.vwf _), hm]
    refine Finset.sum_congr rfl fun j _ => ?_
    rw [Finset.sum_eq_single k]
    · rw [if_pos rfl, mul_comm]
    · intro i _ hi; rw [if_neg hi, zero_mul]
    · intro hk; exact absurd (Finset.mem_univ k) hk
  rw [h1]
  unfold vMassForm
  apply hC.toAffCells.integrate h.vbuild h.rule h.count h.values
  · intro e he i
    have g := (hU e (by rw [hC.num]; exact he)).1 i
    have := hC.order
    omega
  · intro e he q hq
    have hq' : q < cs.vmesh.nodesPerElem := by rw [← h.numQuad_eq]; exact hq
    have hint : ∀ y : ℕ → ℝ, cs.sem.vspace.interpolate y q = y q := by
      obtain ⟨_, _, _, _, _, _, _, _, _, _, hint, _⟩ := FESpace.build_fields h.vbuild
      intro y
      rw [hint, if_pos H.collocated]
    unfold vectorFn
    rw [Finset.sum_eq_single k]
    · rw [hint, hint, one_mul, h.pt_eq he hq']
      unfold vGather
      rw [hC.toAffCells.gather _ he hq', (hU e (by rw [hC.num]; exact he)).2 q hq' _ (hC.elem e he q hq')]
      beta_reduce
      rw [if_pos rfl]
    · intro i _ hi
      rw [hint, hint]
      unfold vGather
      rw [hC.toAffCells.gather _ he hq']
      beta_reduce
      rw [if_neg hi, mul_zero]
    · intro hk; exact absurd (Finset.mem_univ k) hk

/-- The rule of the filter grid. -/
theorem low_rule (h : CubeSEM n d p a b per bcs cs vnode pnode l) (hcs : cubeStokes n d p over a b per bcs = .ok cs) (hp : 3 ≤ p) :
    ∃ w : ℕ → ℝ, ∀ f : MvPolynomial (Fin d) ℝ, (∀ k, f.degreeOf k ≤ p) →
      ∑ q ∈ Finset.range (cs.low.numPoints ^ d), w q * eval (gridPoint d cs.low.value q) f =
        ∫ x in Set.Icc (fun _ : Fin d => (-1 : ℝ)) (fun _ => 1), eval x f := by
  have hd := h.vcube.cells.dim
  obtain ⟨lq, ll, _, _, q3, q4, q5, q6, q7⟩ := gllQuadrature_spec (m := p - 1) (by omega)
  obtain ⟨W, hW, _, _, hrule⟩ := C80_tensor q6 d hd
  have hnodes : cs.low = lq.nodes := by
    have := (cubeStokes_grids hcs).1
    rw [show p - 1 + 1 = p by omega, this, Option.some.injEq] at q7
    exact q7
  refine ⟨fun q => W.getD q 0, fun f hf => ?_⟩
  rw [← hrule f (fun k => (hf k).trans (by omega)), hnodes, show ll.length = lq.nodes.numPoints by omega]
  refine Finset.sum_congr rfl fun q _ => ?_
  have : gridPoint d lq.nodes.value q = gridPoint d (vec ll lq.nodes.numPoints) q := by
    funext k
    rw [q5 d q k, show ll.length = lq.nodes.numPoints by omega]
  rw [this]

/-- The filter keeps the integral of every component. -/
theorem filter_total (h : CubeSEM n d p a b per bcs cs vnode pnode l) (hcs : cubeStokes n d p over a b per bcs = .ok cs)
    (hn : 1 ≤ n) (hp : 3 ≤ p) (hab : a < b) (hb : CubeBCs d per bcs) {alpha : ℝ} {u w : Vel ℝ d} {k : Fin d}
    (hu : Continuous cs.vmesh (fun j => u j k)) (hw : cs.sem.filter cs.low alpha u = some w) :
    ∑ j ∈ Finset.range cs.vmesh.numNodes, cs.sem.massDiag j k * w j k =
      ∑ j ∈ Finset.range cs.vmesh.numNodes, cs.sem.massDiag j k * u j k := by
  have H := h.setup hn hb
  have hC := h.vcube.cells
  have hcw := hC.width
  obtain ⟨mask, _, hcr⟩ := H.create
  obtain ⟨_, _, _, _, hdiag, _⟩ := StokesSEM.create_fields hcr
  obtain ⟨_, _, hvm, _⟩ := H.fields
  have F : FilterSetup cs.sem.vspace.mesh cs.low := by rw [hvm]; exact h.filterSetup hp
  obtain ⟨w', hw', loc, hloc, hval⟩ := filter_eq (sem := cs.sem) F alpha u
  rw [hw, Option.some.injEq] at hw'
  subst hw'
  obtain ⟨U, hU⟩ := hC.toAffCells.exists_field (fun j => u j k)
  obtain ⟨W, hW⟩ := hC.toAffCells.exists_field (fun j => w j k)
  rw [h.mass_total hn hb hU, h.mass_total hn hb hW]
  have hlow : 0 < cs.low.numPoints := by rw [h.lowPoints]; omega
  obtain ⟨L, Ld, hL, hLd, hLpoly⟩ := C34_polynomials (d := d) hlow hC.numPos hC.dim cs.vmesh.grid.bary cs.vmesh.grid.value
    hC.weights hC.nodes cs.low.value
  obtain ⟨M, Md, hM, hMd, hMpoly⟩ := C34_polynomials (d := d) hC.numPos hlow hC.dim cs.low.bary cs.low.value
    h.lowWeights h.lowNodes cs.vmesh.grid.value
  have hLcols : Ld.cols = cs.vmesh.nodesPerElem := by
    obtain ⟨A, hA, _, hc, _⟩ := C34_products hlow hC.numPos hC.dim L
    rw [hLd, Option.some.injEq] at hA
    rw [hA, hc]; rfl
  have hMcols : Md.cols = cs.low.numPoints ^ d := by
    obtain ⟨A, hA, _, hc, _⟩ := C34_products hC.numPos hlow hC.dim M
    rw [hMd, Option.some.injEq] at hA
    rw [hA, hc]
  obtain ⟨om, hrule⟩ := h.low_rule hcs hp
  obtain ⟨Wd, hWd, _, _, hfine⟩ := C80_tensor h.rule d hC.dim
  refine Finset.sum_congr rfl fun e he => ?_
  rw [Finset.mem_range] at he
  have heN : e < cs.vmesh.numElements := by rw [hC.num]; exact he
  set c := (b - a) / (2 * n) with hcdef
  set s := centre n d a c e with hs
  have hcell : CubeCells.cell n d a c e = Set.Icc (fun k => s k - c) (fun k => s k + c) := rfl
  rw [hcell, ← integral_affSub hcw, ← integral_affSub hcw]
  congr 1
  -- the interpolant of lower degree
  obtain ⟨R, hRdeg, hR⟩ := exists_gridPoly (d := d) hlow h.lowNodes (fun q => eval (gridPoint d cs.low.value q) (affSub c s (U e)))
  have hUdeg : ∀ i, (affSub c s (U e)).degreeOf i ≤ p := fun i =>
    (degreeOf_affSub c s (U e) i).trans ((hU e heN).1 i)
  have hWdeg : ∀ i, (affSub c s (W e)).degreeOf i ≤ p := fun i =>
    (degreeOf_affSub c s (W e) i).trans ((hW e heN).1 i)
  have hRU : ∫ x in Set.Icc (fun _ : Fin d => (-1 : ℝ)) (fun _ => 1), eval x R =
      ∫ x in Set.Icc (fun _ : Fin d => (-1 : ℝ)) (fun _ => 1), eval x (affSub c s (U e)) := by
    rw [← hrule _ hUdeg, ← hrule R (fun i => (hRdeg i).trans (by rw [h.lowPoints]; omega))]
    exact Finset.sum_congr rfl fun q hq => by rw [hR q (Finset.mem_range.mp hq)]
  have hlocR : ∀ i < cs.vmesh.nodesPerElem, loc e i k = eval (gridPoint d cs.vmesh.grid.value i) R := by
    intro i hi
    obtain ⟨Ld', Md', hLd', hMd', hfl⟩ := filter_local hC.numPos hlow hC.dim L M
    rw [hLd, Option.some.injEq] at hLd'
    rw [hMd, Option.some.injEq] at hMd'
    subst hLd' hMd'
    have h1 : loc e i k = Md.apply (Ld.apply (fun j => vGather cs.vmesh u e j k)) i := by
      rw [hfl _ i hi, hloc e i (by rw [hvm]; exact hi), hvm]
      refine Finset.sum_congr rfl fun j _ => ?_
      unfold filterEntry
      rw [hL, hM]
    have h2 : ∀ q < cs.low.numPoints ^ d, Ld.apply (fun i => vGather cs.vmesh u e i k) q = eval (gridPoint d cs.low.value q) R := by
      intro q hq
      rw [hR q hq, ← hLpoly _ (hC.toAffCells.affDegree (hU e heN).1 _) q hq]
      apply NMat.apply_congr
      intro j hj
      rw [hLcols] at hj
      exact hC.toAffCells.sample hU he hj
    rw [h1, ← hMpoly R (fun i => lt_of_le_of_lt (hRdeg i) (by omega)) i hi]
    apply NMat.apply_congr
    intro q hq
    rw [hMcols] at hq
    exact h2 q hq
  have hnode : ∀ i < cs.vmesh.nodesPerElem, eval (gridPoint d cs.vmesh.grid.value i) (affSub c s (W e)) =
      (1 - alpha) * eval (gridPoint d cs.vmesh.grid.value i) (affSub c s (U e)) +
        alpha * eval (gridPoint d cs.vmesh.grid.value i) R := by
    intro i hi
    have g1 := hC.toAffCells.sample hW he hi
    have g2 := hC.toAffCells.sample hU he hi
    rw [← g1, ← g2, ← hlocR i hi, hC.toAffCells.gather _ he hi, hC.toAffCells.gather _ he hi]
    beta_reduce
    rw [hval]
    congr 2
    exact filter_value F (by rw [hvm]; exact H.vrange) (by rw [hvm]; exact h.aligned hn hab) (by rw [hvm]; exact hdiag)
      (by rw [hvm]; exact hu) hloc (by rw [hvm]; exact hC.lt e he i hi) (by rw [hvm]; exact heN)
      (by rw [hvm]; exact hi) (by rw [hvm]; exact hC.elem e he i hi)
  have hsum : ∀ P : MvPolynomial (Fin d) ℝ, (∀ i, P.degreeOf i ≤ p) →
      ∑ q ∈ Finset.range (l.length ^ d), Wd.getD q 0 * eval (gridPoint d cs.vmesh.grid.value q) P =
        ∫ x in Set.Icc (fun _ : Fin d => (-1 : ℝ)) (fun _ => 1), eval x P := by
    intro P hP
    rw [← hfine P (fun i => (hP i).trans (by omega))]
    refine Finset.sum_congr rfl fun q _ => ?_
    have : gridPoint d cs.vmesh.grid.value q = gridPoint d (vec l l.length) q := by
      funext i
      rw [h.grid_eq]
      exact h.values q i
    rw [this]
  rw [← hsum _ hWdeg, ← hsum _ hUdeg]
  have hRU' := hRU
  rw [← hsum _ hUdeg, ← hsum R (fun i => (hRdeg i).trans (by rw [h.lowPoints]; omega))] at hRU'
  have hlen : l.length ^ d = cs.vmesh.nodesPerElem := by
    rw [← h.count, ← h.grid_eq]; rfl
  have : ∑ q ∈ Finset.range (l.length ^ d), Wd.getD q 0 * eval (gridPoint d cs.vmesh.grid.value q) (affSub c s (W e)) =
      (1 - alpha) * ∑ q ∈ Finset.range (l.length ^ d), Wd.getD q 0 * eval (gridPoint d cs.vmesh.grid.value q) (affSub c s (U e)) +
      alpha * ∑ q ∈ Finset.range (l.length ^ d), Wd.getD q 0 * eval (gridPoint d cs.vmesh.grid.value q) R := by
    rw [Finset.mul_sum, Finset.mul_sum, ← Finset.sum_add_distrib]
    refine Finset.sum_congr rfl fun q hq => ?_
    rw [hnode q (by rw [← hlen]; exact Finset.mem_range.mp hq)]
    ring
  rw [this, hRU']
  ring

/-- The unit velocity along an axis. -/
noncomputable def unitVel (cs : CubeStokes d) (k : Fin d) : Vel ℝ d := nodal cs.vmesh (fun i => if i = k then 1 else 0)

theorem unitVel_apply (k : Fin d) {j : ℕ} (hj : j < cs.vmesh.numNodes) (i : Fin d) :
    unitVel cs k j i = if i = k then 1 else 0 := by
  unfold unitVel nodal
  rw [if_pos hj]
  split <;> rename_i hi
  · simp [hi]
  · simp [hi]

theorem unitVel_field (h : CubeSEM n d p a b per bcs cs vnode pnode l) (k i : Fin d) :
    CellField cs.vmesh p (fun j => unitVel cs k j i) (fun _ => if i = k then 1 else 0) :=
  h.nodal_field (U := fun i => if i = k then 1 else 0) (fun i j => by split <;> simp) i

theorem unitVel_mem (h : CubeSEM n d p a b per [] cs vnode pnode l) (hn : 1 ≤ n) (k : Fin d) :
    unitVel cs k ∈ TSpace cs.sem := by
  have H := h.setup hn (Or.inr rfl)
  obtain ⟨_, _, hvm, _, hmask, _, _⟩ := H.fields
  refine ⟨(H.mem_VSpace _).mpr ⟨fun j hj => ?_, fun j hj => ?_⟩, fun i x hx y hy _ => ?_⟩
  · obtain ⟨g, m, h1, _⟩ := hj
    simp at h1
  · funext i
    exact if_neg (by omega)
  · rw [hvm] at hx hy
    beta_reduce
    rw [unitVel_apply k hx, unitVel_apply k hy]

theorem unitVel_dot (h : CubeSEM n d p a b per bcs cs vnode pnode l) (hn : 1 ≤ n) (hb : CubeBCs d per bcs) (k : Fin d) (r : Vel ℝ d) :
    cs.sem.vDot (unitVel cs k) r = ∑ j ∈ Finset.range cs.vmesh.numNodes, r j k := by
  obtain ⟨_, _, hvm, _⟩ := (h.setup hn hb).fields
  unfold StokesSEM.vDot StokesSEM.numV
  rw [hvm]
  refine Finset.sum_congr rfl fun j hj => ?_
  rw [Finset.sum_eq_single k]
  · rw [unitVel_apply k (Finset.mem_range.mp hj), if_pos rfl, one_mul]
  · intro i _ hi
    rw [unitVel_apply k (Finset.mem_range.mp hj), if_neg hi, zero_mul]
  · intro hk; exact absurd (Finset.mem_univ k) hk

theorem unitVel_mass (h : CubeSEM n d p a b per bcs cs vnode pnode l) (hn : 1 ≤ n) (hb : CubeBCs d per bcs) (k : Fin d) (r : Vel ℝ d) :
    ∑ j ∈ Finset.range cs.sem.numV, ∑ i, cs.sem.massDiag j i * (unitVel cs k j i * r j i) =
      ∑ j ∈ Finset.range cs.vmesh.numNodes, cs.sem.massDiag j k * r j k := by
  obtain ⟨_, _, hvm, _⟩ := (h.setup hn hb).fields
  unfold StokesSEM.numV
  rw [hvm]
  refine Finset.sum_congr rfl fun j hj => ?_
  rw [Finset.sum_eq_single k]
  · rw [unitVel_apply k (Finset.mem_range.mp hj), if_pos rfl, one_mul]
  · intro i _ hi
    rw [unitVel_apply k (Finset.mem_range.mp hj), if_neg hi, zero_mul, mul_zero]
  · intro hk; exact absurd (Finset.mem_univ k) hk

/-- The gradient of the unit velocity is zero. -/
theorem unitVel_grad (h : CubeSEM n d p a b per bcs cs vnode pnode l) (k : Fin d) {fs : FESpace ℝ d} {quad : Quadrature1D ℝ}
    (hb : FESpace.build cs.vmesh quad = some fs) {e q : ℕ} (he : e < n ^ d) (hq : q < fs.numQuad) (i j : Fin d) :
    vectorGrad fs (vGather cs.vmesh (unitVel cs k)) e q i j = 0 := by
  have := h.vcube.cells.toAffCells.scalarGrad hb (h.unitVel_field k j) he hq i
  refine Eq.trans this ?_
  split <;> simp

theorem unitVel_stiff (h : CubeSEM n d p a b per bcs cs vnode pnode l) (hn : 1 ≤ n) (hb : CubeBCs d per bcs) (k : Fin d) (ul) :
    vStiffForm cs.sem.vspace ul (vGather cs.vmesh (unitVel cs k)) = 0 := by
  obtain ⟨_, _, hvm, _⟩ := (h.setup hn hb).fields
  unfold vStiffForm integrate
  refine Finset.sum_eq_zero fun e he => Finset.sum_eq_zero fun q hq => ?_
  rw [Finset.mem_range, hvm, h.vcube.cells.num] at he
  rw [Finset.mem_range] at hq
  beta_reduce
  rw [Finset.sum_eq_zero fun i _ => Finset.sum_eq_zero fun j _ => by rw [h.unitVel_grad k h.vbuild he hq, mul_zero]]
  simp

theorem unitVel_press (h : CubeSEM n d p a b per [] cs vnode pnode l) (hn : 1 ≤ n) (k : Fin d) (q : ℕ → ℝ) :
    cs.sem.vDot (unitVel cs k) (cs.sem.Dt q) = 0 := by
  have H := h.setup hn (Or.inr rfl)
  obtain ⟨_, _, hvm, _⟩ := H.fields
  rw [Dt_dot H.valid _ (VSpace_masked (h.unitVel_mem hn k).1)]
  unfold integrate
  refine Finset.sum_eq_zero fun e he => Finset.sum_eq_zero fun i hi => ?_
  rw [Finset.mem_range, hvm, h.vcube.cells.num] at he
  rw [Finset.mem_range] at hi
  have : divFn cs.sem.vspace (vGather cs.sem.vspace.mesh (unitVel cs k)) e i = 0 := by
    unfold divFn
    rw [hvm]
    exact Finset.sum_eq_zero fun j _ => h.unitVel_grad k h.vbuild he hi j j
  beta_reduce
  rw [this]
  simp

/-- The sum of a covector along an axis is bounded by its norm in the exchange. -/
theorem sum_sq_le (h : CubeSEM n d p a b per bcs cs vnode pnode l) (hn : 1 ≤ n) (hb : CubeBCs d per bcs) (r : Vel ℝ d) (k : Fin d) :
    (∑ j ∈ Finset.range cs.vmesh.numNodes, r j k) ^ 2 ≤ cs.vmesh.numNodes * cs.sem.vDot r (vExchange cs.sem.vspace.mesh r) := by
  obtain ⟨_, _, hvm, _⟩ := (h.setup hn hb).fields
  rw [hvm]
  set E : ℕ → Fin d → ℝ := fun j i => cs.vmesh.exchange (fun p => r p i) j with hE
  set m := cs.vmesh.exchange (fun _ => (1 : ℝ)) with hm
  have hpos : ∀ j < cs.vmesh.numNodes, 1 ≤ m j := by
    intro j hj
    rw [hm, exchange_sum cs.vmesh _ j hj]
    have := Finset.single_le_sum (f := fun i => if SameNode cs.vmesh j i then (1 : ℝ) else 0) (s := Finset.range cs.vmesh.numNodes)
      (fun i _ => by split <;> simp) (Finset.mem_range.mpr hj)
    beta_reduce at this
    rw [if_pos (SameNode.refl _ _)] at this
    exact this
  have h1 : ∑ j ∈ Finset.range cs.vmesh.numNodes, r j k = ∑ j ∈ Finset.range cs.vmesh.numNodes, 1 / m j * E j k := by
    have := sum_continuous cs.vmesh (fun _ => 1) (fun j => r j k) (fun _ _ _ _ _ => rfl)
    simpa using this
  have h2 : ∀ i, ∑ j ∈ Finset.range cs.vmesh.numNodes, r j i * E j i = ∑ j ∈ Finset.range cs.vmesh.numNodes, E j i ^ 2 / m j := by
    intro i
    have := sum_continuous cs.vmesh (fun j => E j i) (fun j => r j i) (fun x hx y hy hs => exchange_same _ _ hx hy hs)
    refine Eq.trans (Finset.sum_congr rfl fun j _ => mul_comm _ _) (this.trans (Finset.sum_congr rfl fun j _ => ?_))
    change E j i / m j * E j i = _
    ring
  have h3 : ∑ j ∈ Finset.range cs.vmesh.numNodes, E j k ^ 2 / m j ≤ cs.sem.vDot r (vExchange cs.vmesh r) := by
    have : cs.sem.vDot r (vExchange cs.vmesh r) = ∑ i, ∑ j ∈ Finset.range cs.vmesh.numNodes, E j i ^ 2 / m j := by
      unfold StokesSEM.vDot StokesSEM.numV
      rw [hvm, Finset.sum_comm]
      exact Finset.sum_congr rfl fun i _ => h2 i
    rw [this]
    exact Finset.single_le_sum (f := fun i => ∑ j ∈ Finset.range cs.vmesh.numNodes, E j i ^ 2 / m j)
      (fun i _ => Finset.sum_nonneg fun j hj => div_nonneg (sq_nonneg _)
        (le_trans zero_le_one (hpos j (Finset.mem_range.mp hj)))) (Finset.mem_univ k)
  rw [h1]
  have h4 := sq_sum_le_card_mul_sum_sq (s := Finset.range cs.vmesh.numNodes) (f := fun j => 1 / m j * E j k)
  rw [Finset.card_range] at h4
  refine h4.trans (mul_le_mul_of_nonneg_left (le_trans (Finset.sum_le_sum fun j hj => ?_) h3) (Nat.cast_nonneg _))
  have hj := hpos j (Finset.mem_range.mp hj)
  have hj0 : 0 < m j := by linarith
  rw [mul_pow, div_pow, one_pow, div_mul_eq_mul_div, one_mul]
  apply div_le_div_of_nonneg_left (sq_nonneg _) hj0
  nlinarith

/-- Momentum balance of a step, up to the residual of the velocity solve. -/
theorem step_total (h : CubeSEM n d p a b per [] cs vnode pnode l) (hcs : cubeStokes n d p over a b per [] = .ok cs)
    (hn : 1 ≤ n) (hp : 3 ≤ p) (hab : a < b) {ps : List (ℕ → ℝ)} {f : Vel ℝ d} {mu dt alpha tol atol : ℝ} {timeOrder : ℕ}
    {precond : Option ((ℕ → ℝ) → ℕ → ℝ)} {project : Bool} {st : StokesSEM.Step ℝ d} (U : Fin timeOrder → Vel ℝ d)
    {bd : Fin (timeOrder + 1) → ℝ} (hbd : bdfkCoeffs timeOrder = some bd) (hmu : 0 ≤ mu) (hdt : 0 < dt)
    (hf : ∀ j, cs.vmesh.numNodes ≤ j → f j = 0)
    (hst : cs.sem.oneStep cs.low (List.ofFn U) ps f mu dt timeOrder alpha none precond project tol atol = .ok st) (k : Fin d) :
    |(∑ i, bd i.castSucc * ∑ j ∈ Finset.range cs.vmesh.numNodes, cs.sem.massDiag j k * U i j k) +
        bd (Fin.last timeOrder) * (∑ j ∈ Finset.range cs.vmesh.numNodes, cs.sem.massDiag j k * st.u j k) -
        dt * ∑ j ∈ Finset.range cs.vmesh.numNodes, f j k| ≤ dt * Real.sqrt (cs.vmesh.numNodes * st.uResidual) ∧
      ∃ z, st.uResidual ≤ max (tol ^ 2 * z) (atol ^ 2) := by
  have hb : CubeBCs d per [] := Or.inr rfl
  have H := h.setup hn hb
  have hv := H.valid
  obtain ⟨_, _, hvm, _⟩ := H.fields
  obtain ⟨c, pExt, b', us0, dp, hc, hpe, hb', _, hcg, hfil, _, hu, _⟩ := oneStep_ok hst
  rw [hbd, Option.some.injEq] at hb'
  subst hb'
  have hbeta := (C37_leading timeOrder bd hbd).2
  have hfm := (H.mem_VSpace f).mpr ⟨fun j hj => by obtain ⟨g, m, h1, _⟩ := hj; simp at h1, hf⟩
  have hrhs := stepRhs_mem (us := List.ofFn U) (mu := mu) (dt := dt) H.massOutside hfm pExt bd none
  obtain ⟨x, res, m, hcg', hxT, _, hres, hle⟩ := velocity_solve hv H.massOutside H.massPos' H.stiff mu dt
    (bd (Fin.last timeOrder)) hmu hdt hbeta _ hrhs tol atol
  rw [hcg, Option.some.injEq, Prod.mk.injEq, Prod.mk.injEq] at hcg'
  obtain ⟨rfl, rfl, rfl⟩ := hcg'
  refine ⟨?_, _, hle⟩
  have hT := h.unitVel_mem hn k
  have hM := VSpace_masked hT.1
  -- the filter
  have hfilt := h.filter_total hcs hn hp hab hb (k := k) (by have := hxT.2 k; rw [hvm] at this; exact this) hfil
  rw [lift] at hfilt
  -- the pressure correction
  have hQ := BQ_dot hv hdt.ne' hbeta.ne' hT (cs.sem.Dt dp)
  rw [h.unitVel_press hn k, h.unitVel_mass hn hb k] at hQ
  have hQ0 : ∑ j ∈ Finset.range cs.vmesh.numNodes, cs.sem.massDiag j k *
      cs.sem.Q dt (bd (Fin.last timeOrder)) (cs.sem.Dt dp) j k = 0 := by
    rcases mul_eq_zero.mp hQ with h0 | h0
    · exact absurd h0 (div_pos hbeta hdt).ne'
    · exact h0
  have hstu : ∑ j ∈ Finset.range cs.vmesh.numNodes, cs.sem.massDiag j k * st.u j k =
      ∑ j ∈ Finset.range cs.vmesh.numNodes, cs.sem.massDiag j k * us0 j k := by
    rw [hu, ← hfilt]
    simp only [Pi.add_apply, mul_add, Finset.sum_add_distrib]
    rw [hQ0, add_zero]
  -- the residual
  set r := stepRhs cs.sem (List.ofFn U) pExt f mu dt timeOrder bd none - cs.sem.H mu dt (bd (Fin.last timeOrder)) us0 with hr
  have hsplit : cs.sem.vDot (unitVel cs k) r = cs.sem.vDot (unitVel cs k) f + cs.sem.vDot (unitVel cs k) (cs.sem.Dt pExt) -
      cs.sem.vDot (unitVel cs k) (cs.sem.B (fun p k => (1 / dt) *
        StokesSEM.history (List.ofFn (fun i : Fin timeOrder => bd i.castSucc)) (List.ofFn U) p k)) -
      cs.sem.vDot (unitVel cs k) (cs.sem.H mu dt (bd (Fin.last timeOrder)) us0) := by
    rw [hr]
    unfold StokesSEM.vDot stepRhs
    simp only [Pi.sub_apply, Pi.add_apply, mul_sub, mul_add, Finset.sum_add_distrib, Finset.sum_sub_distrib]
  rw [H_dot hv hM, B_dot hv hM, h.unitVel_press hn k, h.unitVel_dot hn hb, h.unitVel_dot hn hb, h.unitVel_mass hn hb,
    h.unitVel_mass hn hb, hvm, h.unitVel_stiff hn hb k] at hsplit
  simp only [C43_history] at hsplit
  have hhist : ∑ j ∈ Finset.range cs.vmesh.numNodes, cs.sem.massDiag j k * (1 / dt * ∑ i : Fin timeOrder, bd i.castSucc * U i j k) =
      1 / dt * ∑ i : Fin timeOrder, bd i.castSucc * ∑ j ∈ Finset.range cs.vmesh.numNodes, cs.sem.massDiag j k * U i j k := by
    simp only [Finset.mul_sum]
    rw [Finset.sum_comm]
    refine Finset.sum_congr rfl fun i _ => Finset.sum_congr rfl fun j _ => ?_
    ring
  rw [hhist] at hsplit
  have hbound := h.sum_sq_le hn hb r k
  rw [← hres] at hbound
  have habs := Real.abs_le_sqrt hbound
  rw [hstu]
  set X := ∑ i : Fin timeOrder, bd i.castSucc * ∑ j ∈ Finset.range cs.vmesh.numNodes, cs.sem.massDiag j k * U i j k
  set Y := ∑ j ∈ Finset.range cs.vmesh.numNodes, cs.sem.massDiag j k * us0 j k
  set Fk := ∑ j ∈ Finset.range cs.vmesh.numNodes, f j k
  have : X + bd (Fin.last timeOrder) * Y - dt * Fk = - dt * ∑ j ∈ Finset.range cs.vmesh.numNodes, r j k := by
    rw [hsplit]
    field_simp
    ring
  rw [this, abs_mul, abs_neg, abs_of_pos hdt]
  exact mul_le_mul_of_nonneg_left habs hdt.le

end CubeSEM

end Verif.NS
