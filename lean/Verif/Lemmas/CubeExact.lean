import Verif.Lemmas.CubeClosed
import Verif.Lemmas.StokesExact

/-!
# Global polynomials in the Stokes spaces of a cube: mass, stiffness, pressure gradient and filter are exact
-/

namespace Verif.NS

open Verif.Core Verif.Spec MeasureTheory MvPolynomial

variable {n d p over : ℕ} {a b : ℝ} {per : List ℕ} {bcs : List (String × BCType)}

theorem cubeMesh_grid {t : NodeType} {mesh : Mesh ℝ d} {masks : List (String × (ℕ → Bool))}
    (h : cubeMesh n d p t a b per = .ok (mesh, masks)) : createNodes t (p + 1) = some mesh.grid := by
  unfold cubeMesh at h
  split at h
  · exact absurd h (by simp)
  rename_i grid hg
  split at h
  · exact absurd h (by simp)
  rename_i r hr
  simp only [Except.ok.injEq] at h
  rw [hg]
  have : mesh = (finalMesh grid r).1 := by rw [h]
  rw [this]
  rfl

/-- The nodal values of polynomials; zero beyond the last node. -/
noncomputable def nodal (mesh : Mesh ℝ d) (U : Fin d → MvPolynomial (Fin d) ℝ) : Vel ℝ d :=
  fun j k => if j < mesh.numNodes then eval (mesh.coords j) (U k) else 0

namespace CubeSEM

variable {cs : CubeStokes d} {vnode pnode : ℕ → ℕ → ℕ} {l : List ℝ}

theorem grid_eq (h : CubeSEM n d p a b per bcs cs vnode pnode l) : cs.vmesh.grid = cs.quad.nodes := by
  have h1 := cubeMesh_grid h.vcube.made
  rw [h.qnodes, Option.some.injEq] at h1
  exact h1.symm

theorem nodal_field (h : CubeSEM n d p a b per bcs cs vnode pnode l) {U : Fin d → MvPolynomial (Fin d) ℝ}
    (hU : ∀ k i, (U k).degreeOf i ≤ p) (k : Fin d) : CellField cs.vmesh p (fun j => nodal cs.vmesh U j k) (fun _ => U k) := by
  intro e he
  refine ⟨hU k, fun i hi v hv => ?_⟩
  have hC := h.vcube.cells
  rw [hC.num] at he
  obtain rfl := h.node_lt he hi hv
  exact (if_pos (hC.lt e he i hi)).symm

/-- Quadrature points are nodes. -/
theorem pt_eq (h : CubeSEM n d p a b per bcs cs vnode pnode l) {e q : ℕ} (he : e < n ^ d) (hq : q < cs.vmesh.nodesPerElem) :
    CubeCells.pt n a ((b - a) / (2 * n)) cs.quad e q = cs.vmesh.coords (vnode e q) := by
  funext k
  rw [h.vcube.cells.coords e he q hq k, h.grid_eq]
  rfl

theorem numQuad_eq (h : CubeSEM n d p a b per bcs cs vnode pnode l) : cs.sem.vspace.numQuad = cs.vmesh.nodesPerElem := by
  rw [FESpace.build_numQuad h.vbuild, ← h.grid_eq]
  rfl

/-- The diagonal mass matrix integrates exactly when one factor has a degree less than the elements. -/
theorem mass_dot (h : CubeSEM n d p a b per bcs cs vnode pnode l) (hn : 1 ≤ n) (hp : 3 ≤ p) (hb : CubeBCs d per bcs)
    {x : Vel ℝ d} (hx : x ∈ TSpace cs.sem) {V : Fin d → ℕ → MvPolynomial (Fin d) ℝ}
    (hV : ∀ k, CellField cs.vmesh p (fun j => x j k) (V k)) {F : Fin d → MvPolynomial (Fin d) ℝ}
    (hF : ∀ k i, (F k).degreeOf i ≤ p - 1) :
    cs.sem.vDot x (cs.sem.B (nodal cs.vmesh F)) = ∑ e ∈ Finset.range (n ^ d),
      ∫ y in CubeCells.cell n d a ((b - a) / (2 * n)) e, eval y (∑ k, F k * V k e) := by
  have H := h.setup hn hb
  have hv := H.valid
  have hC := h.vcube.cells
  obtain ⟨_, _, hvm, _⟩ := H.fields
  obtain ⟨mask, _, hcr⟩ := H.create
  obtain ⟨_, _, _, _, _, hm⟩ := StokesSEM.create_fields hcr
  rw [B_dot hv (VSpace_masked hx.1)]
  have h1 : ∑ j ∈ Finset.range cs.sem.numV, ∑ k, cs.sem.massDiag j k * (x j k * nodal cs.vmesh F j k) =
      vMassForm cs.sem.vspace (fun _ _ _ => 1) (vGather cs.vmesh (fun j k => x j k * nodal cs.vmesh F j k)) := by
    rw [← vCovector cs.vmesh H.vrange (vMassForm cs.sem.vspace (fun _ _ _ => 1))
      (by rw [← hvm]; exact vMassForm_linear cs.sem.vspace hv.vwf _), hm]
    have : cs.sem.numV = cs.vmesh.numNodes := by unfold StokesSEM.numV; rw [hvm]
    rw [this]
    exact Finset.sum_congr rfl fun j _ => Finset.sum_congr rfl fun k _ => mul_comm _ _
  rw [h1]
  unfold vMassForm
  apply hC.toAffCells.integrate h.vbuild h.rule h.count h.values
  · intro e he i
    refine le_trans (degreeOf_sum_le _ _ _) (Finset.sup_le fun k _ => ?_)
    refine le_trans (degreeOf_mul_le i _ _) ?_
    have g1 := hF k i
    have g2 := (hV k e (by rw [hC.num]; exact he)).1 i
    omega
  · intro e he q hq
    have hq' : q < cs.vmesh.nodesPerElem := by rw [← h.numQuad_eq]; exact hq
    rw [map_sum]
    refine Finset.sum_congr rfl fun k _ => ?_
    have hint : ∀ y : ℕ → ℝ, cs.sem.vspace.interpolate y q = y q := by
      obtain ⟨_, _, _, _, _, _, _, _, _, _, hint, _⟩ := FESpace.build_fields h.vbuild
      intro y
      rw [hint, if_pos H.collocated]
    unfold vectorFn
    rw [hint, hint, one_mul, map_mul, h.pt_eq he hq']
    unfold vGather
    rw [hC.toAffCells.gather _ he hq', (hV k e (by rw [hC.num]; exact he)).2 q hq' _ (hC.elem e he q hq')]
    have hnod : nodal cs.vmesh F (vnode e q) k = eval (cs.vmesh.coords (vnode e q)) (F k) := if_pos (hC.lt e he q hq')
    beta_reduce
    rw [hnod]
    ring

/-- The stiffness matrix integrates exactly against polynomials of a degree less than the elements. -/
theorem stiff_dot (h : CubeSEM n d p a b per bcs cs vnode pnode l) (hn : 1 ≤ n) (hp : 3 ≤ p) (hb : CubeBCs d per bcs)
    {x : Vel ℝ d} (hx : x ∈ TSpace cs.sem) {V : Fin d → ℕ → MvPolynomial (Fin d) ℝ}
    (hV : ∀ k, CellField cs.vmesh p (fun j => x j k) (V k)) {U : Fin d → MvPolynomial (Fin d) ℝ}
    (hU : ∀ k i, (U k).degreeOf i ≤ p - 1) :
    cs.sem.vDot x (cs.sem.A (nodal cs.vmesh U)) = ∑ e ∈ Finset.range (n ^ d),
      ∫ y in CubeCells.cell n d a ((b - a) / (2 * n)) e, eval y (∑ i, ∑ k, pderiv i (U k) * pderiv i (V k e)) := by
  have H := h.setup hn hb
  have hv := H.valid
  have hC := h.vcube.cells
  obtain ⟨_, _, hvm, _⟩ := H.fields
  rw [A_dot hv (VSpace_masked hx.1), hvm]
  unfold vStiffForm
  apply hC.toAffCells.integrate h.vbuild h.rule h.count h.values
  · intro e he i
    refine le_trans (degreeOf_sum_le _ _ _) (Finset.sup_le fun κ _ => le_trans (degreeOf_sum_le _ _ _) (Finset.sup_le fun k _ => ?_))
    refine le_trans (degreeOf_mul_le i _ _) ?_
    have g1 := le_trans (degreeOf_pderiv_le κ i (U k)) (hU k i)
    have g2 := le_trans (degreeOf_pderiv_le κ i (V k e)) ((hV k e (by rw [hC.num]; exact he)).1 i)
    omega
  · intro e he q hq
    rw [map_sum]
    refine Finset.sum_congr rfl fun i _ => ?_
    rw [map_sum]
    refine Finset.sum_congr rfl fun k _ => ?_
    rw [map_mul]
    have hU' : ∀ k i, (U k).degreeOf i ≤ p := fun k i => le_trans (hU k i) (Nat.sub_le p 1)
    have e1 := hC.toAffCells.scalarGrad h.vbuild (h.nodal_field hU' k) he hq i
    have e2 := hC.toAffCells.scalarGrad h.vbuild (hV k) he hq i
    rw [← e1, ← e2]
    rfl

/-- The pressure gradient is exact. -/
theorem grad_dot (h : CubeSEM n d p a b per bcs cs vnode pnode l) (hn : 1 ≤ n) (hp : 3 ≤ p) (hb : CubeBCs d per bcs)
    {x : Vel ℝ d} (hx : x ∈ TSpace cs.sem) {V : Fin d → ℕ → MvPolynomial (Fin d) ℝ}
    (hV : ∀ k, CellField cs.vmesh p (fun j => x j k) (V k)) {q : ℕ → ℝ} {Q : MvPolynomial (Fin d) ℝ}
    (hQ : ∀ i, Q.degreeOf i ≤ p - 2) (hq : ∀ j < cs.pmesh.numNodes, q j = eval (cs.pmesh.coords j) Q) :
    cs.sem.vDot x (cs.sem.Dt q) = ∑ e ∈ Finset.range (n ^ d),
      ∫ y in CubeCells.cell n d a ((b - a) / (2 * n)) e, eval y ((∑ k, pderiv k (V k e)) * Q) := by
  have H := h.setup hn hb
  have hv := H.valid
  have hP := h.pcube
  rw [← D_Dt_adjoint hv x (VSpace_masked hx.1), D_dot hv.pwf hv.prange]
  refine h.div_integral hp hV (Q := fun _ => Q) (fun e he => ⟨hQ, fun i hi v hv => ?_⟩)
  rw [hP.num] at he
  rw [hP.elem e he i hi] at hv
  have hv' : pnode e i = v := by exact_mod_cast hv
  subst hv'
  exact (hq _ (hP.lt e he i hi)).symm

/-- A velocity of polynomials without divergence has no discrete divergence. -/
theorem div_zero (h : CubeSEM n d p a b per bcs cs vnode pnode l) (hn : 1 ≤ n) (hp : 3 ≤ p) (hb : CubeBCs d per bcs)
    {U : Fin d → MvPolynomial (Fin d) ℝ} (hU : ∀ k i, (U k).degreeOf i ≤ p) (hdiv : ∑ k, pderiv k (U k) = 0) :
    cs.sem.D (nodal cs.vmesh U) = 0 := by
  classical
  have hv := (h.setup hn hb).valid
  funext j
  by_cases hj : j < cs.sem.numP
  · obtain ⟨Q, hQ⟩ := h.pcube.exists_field (fun i => if i = j then 1 else 0)
    have h1 := D_dot hv.pwf hv.prange (nodal cs.vmesh U) (fun i => if i = j then (1 : ℝ) else 0)
    rw [h.div_integral hp (h.nodal_field hU) hQ] at h1
    unfold nodeDot at h1
    rw [Finset.sum_eq_single j (fun i _ hij => by beta_reduce; rw [if_neg hij, zero_mul])
      (fun hn => absurd (Finset.mem_range.mpr hj) hn)] at h1
    beta_reduce at h1
    rw [if_pos rfl, one_mul] at h1
    rw [h1]
    refine Finset.sum_eq_zero fun e _ => ?_
    rw [hdiv]
    simp
  · exact D_outside cs.sem _ j (not_lt.mp hj)

/-- The filter leaves polynomials of a degree less than the elements alone. -/
theorem filter_fixed (h : CubeSEM n d p a b per bcs cs vnode pnode l) (hn : 1 ≤ n) (hp : 3 ≤ p) (hb : CubeBCs d per bcs)
    (alpha : ℝ) {U : Fin d → MvPolynomial (Fin d) ℝ} (hU : ∀ k i, (U k).degreeOf i ≤ p - 1) :
    cs.sem.filter cs.low alpha (nodal cs.vmesh U) = some (nodal cs.vmesh U) := by
  have H := h.setup hn hb
  have hC := h.vcube.cells
  obtain ⟨_, _, hvm, _⟩ := H.fields
  obtain ⟨mask, _, hcr⟩ := H.create
  obtain ⟨_, _, _, _, hdiag, _⟩ := StokesSEM.create_fields hcr
  have hlow : 0 < cs.low.numPoints := by rw [h.lowPoints]; omega
  obtain ⟨L, Ld, hL, hLd, hLpoly⟩ := C34_polynomials (d := d) hlow hC.numPos hC.dim cs.vmesh.grid.bary cs.vmesh.grid.value
    hC.weights hC.nodes cs.low.value
  obtain ⟨M, Md, hM, hMd, hMpoly⟩ := C34_polynomials (d := d) hC.numPos hlow hC.dim cs.low.bary cs.low.value
    h.lowWeights h.lowNodes cs.vmesh.grid.value
  have hLcols : Ld.cols = cs.vmesh.nodesPerElem := by
    obtain ⟨A, hA, _, hc, _⟩ := C34_products hlow hC.numPos hC.dim L
    rw [hLd, Option.some.injEq] at hA
    rw [hA, hc]; rfl
  have hMcols : Md.cols = cs.low.numPoints ^ d := by
    obtain ⟨A, hA, _, hc, _⟩ := C34_products hC.numPos hlow hC.dim M
    rw [hMd, Option.some.injEq] at hA
    rw [hA, hc]
  have hU' : ∀ k i, (U k).degreeOf i ≤ p := fun k i => le_trans (hU k i) (Nat.sub_le p 1)
  -- every element is left alone
  have hloc : ∀ e < n ^ d, ∀ i < cs.vmesh.nodesPerElem, ∀ k,
      Md.apply (Ld.apply (fun i => vGather cs.vmesh (nodal cs.vmesh U) e i k)) i = nodal cs.vmesh U (vnode e i) k := by
    intro e he i hi k
    have hdeg := degreeOf_affSub ((b - a) / (2 * n)) (centre n d a ((b - a) / (2 * n)) e) (U k)
    have h1 : ∀ q < cs.low.numPoints ^ d, Ld.apply (fun i => vGather cs.vmesh (nodal cs.vmesh U) e i k) q =
        eval (gridPoint d cs.low.value q) (affSub ((b - a) / (2 * n)) (centre n d a ((b - a) / (2 * n)) e) (U k)) := by
      intro q hq
      rw [← hLpoly _ (hC.toAffCells.affDegree (hU' k) _) q hq]
      apply NMat.apply_congr
      intro j hj
      rw [hLcols] at hj
      exact hC.toAffCells.sample (h.nodal_field hU' k) he hj
    have h2 : Md.apply (Ld.apply (fun i => vGather cs.vmesh (nodal cs.vmesh U) e i k)) i =
        Md.apply (fun q => eval (gridPoint d cs.low.value q)
          (affSub ((b - a) / (2 * n)) (centre n d a ((b - a) / (2 * n)) e) (U k))) i := by
      apply NMat.apply_congr
      intro q hq
      rw [hMcols] at hq
      exact h1 q hq
    rw [h2, hMpoly _ (fun j => by
      have g1 := hdeg j
      have g2 := hU k j
      rw [h.lowPoints]
      omega) i hi, ← hC.toAffCells.sample (h.nodal_field hU' k) he hi, hC.toAffCells.gather _ he hi]
  unfold StokesSEM.filter
  rw [hvm]
  simp only [hL, hM, hLd, hMd]
  congr 1
  funext j k
  by_cases hj : j < cs.vmesh.numNodes
  · have hne : cs.sem.diagQqt j ≠ 0 := (H.finite j (by unfold StokesSEM.numV; rw [hvm]; exact hj)).1
    have hsc : vScatter cs.vmesh (fun m n k => Md.apply (Ld.apply (fun n => vGather cs.vmesh (nodal cs.vmesh U) m n k)) n) j k =
        cs.sem.diagQqt j * nodal cs.vmesh U j k := by
      rw [hdiag]
      unfold vScatter
      rw [Mesh.scatter_apply, Mesh.scatter_apply, Finset.sum_mul]
      refine Finset.sum_congr rfl fun e he => ?_
      rw [Finset.sum_mul]
      refine Finset.sum_congr rfl fun i hi => ?_
      rw [Finset.mem_range] at he hi
      rw [hC.num] at he
      split
      · rename_i hw
        rw [hC.elem e he i hi, writePos_nat (hC.lt e he i hi), Option.some.injEq] at hw
        beta_reduce
        rw [hloc e he i hi k, hw, mul_one]
      · rw [zero_mul]
    rw [hsc]
    field_simp
    ring
  · have h0 : nodal cs.vmesh U j k = 0 := if_neg hj
    rw [h0, mul_zero, zero_add]
    unfold vScatter
    rw [Mesh.scatter_outside _ _ j (not_lt.mp hj)]
    simp

/-- The fluxes of a polynomial times a velocity of the space cancel: on interior faces and across periodic axes they match,
on the boundary the velocity or the polynomial is zero. -/
theorem flux_zero (h : CubeSEM n d p a b per bcs cs vnode pnode l) (hn : 1 ≤ n) (hb : CubeBCs d per bcs)
    {v : ℕ → ℝ} {V : ℕ → MvPolynomial (Fin d) ℝ} (hV : CellField cs.vmesh p v V) (hcont : Verif.NS.Continuous cs.vmesh v)
    (hz : ∀ j < cs.vmesh.numNodes, DirichletNode cs.masks bcs j → v j = 0) (k : Fin d) {S : MvPolynomial (Fin d) ℝ}
    (hper : (k : ℕ) ∈ per → faceSub k b S = faceSub k a S)
    (hnat : bcs = [] → (k : ℕ) ∉ per → faceSub k b S = 0 ∧ faceSub k a S = 0) :
    ∑ e ∈ Finset.range (n ^ d), ∫ x in CubeCells.cell n d a ((b - a) / (2 * n)) e, eval x (pderiv k (S * V e)) = 0 := by
  have hC := h.vcube.cells
  have hu := upper (a := a) (b := b) hn
  refine flux_cyclic hC.width hn k (fun e => S * V e) ?_
  intro e he e' he' hk ho
  rw [faceSub_mul, faceSub_mul]
  have hlt : digit n d k e < n := Verif.Common.digit_lt _ _ _ _ hn
  by_cases hlast : digit n d k e + 1 = n
  · rw [hlast, Nat.mod_self] at hk
    have hb1 : centre n d a ((b - a) / (2 * n)) e k + (b - a) / (2 * n) = b := by
      have : (n : ℝ) = (digit n d k e : ℝ) + 1 := by exact_mod_cast hlast.symm
      unfold centre
      conv_rhs => rw [hu]
      set c := (b - a) / (2 * (n : ℝ))
      rw [this]; ring
    have hb0 : centre n d a ((b - a) / (2 * n)) e' k - (b - a) / (2 * n) = a := by
      unfold centre
      rw [hk]; push_cast; ring
    by_cases hkp : (k : ℕ) ∈ per
    · rw [hb1, hb0, hper hkp, h.face_wrap hn hb hV hcont hz k (Or.inr hkp) he he' hlast hk ho]
    · by_cases hbc : bcs = []
      · obtain ⟨g1, g2⟩ := hnat hbc hkp
        rw [hb1, hb0, g1, g2, zero_mul, zero_mul]
      · have z : ∀ t, t = a ∨ t = b → ∀ j < cs.vmesh.numNodes, cs.vmesh.coords j k = t → v j = 0 := by
          intro t ht j hj hco
          refine hz j hj ((h.dirichlet_iff hb hj).mpr ⟨hbc, k, hkp, ?_⟩)
          rw [hco]; exact ht
        rw [hb1, hb0, hC.face_zero hV k he (Or.inr hb1.symm) (z b (Or.inr rfl)),
          hC.face_zero hV k he' (Or.inl hb0.symm) (z a (Or.inl rfl)), mul_zero, mul_zero]
  · rw [Nat.mod_eq_of_lt (by omega)] at hk
    have := hC.face_match hV k he he' hk ho
    have ht : centre n d a ((b - a) / (2 * n)) e' k - (b - a) / (2 * n) =
        centre n d a ((b - a) / (2 * n)) e k + (b - a) / (2 * n) := by
      unfold centre; rw [hk]; push_cast; ring
    rw [ht, this]

/-- The weak form of the Stokes operator on polynomials. -/
theorem weak (h : CubeSEM n d p a b per bcs cs vnode pnode l) (hn : 1 ≤ n) (hp : 3 ≤ p) (hb : CubeBCs d per bcs)
    {x : Vel ℝ d} (hx : x ∈ TSpace cs.sem) {mu : ℝ} {U : Fin d → MvPolynomial (Fin d) ℝ} {Q : MvPolynomial (Fin d) ℝ}
    {q : ℕ → ℝ} (hU : ∀ k i, (U k).degreeOf i ≤ p - 1) (hQ : ∀ i, Q.degreeOf i ≤ p - 2)
    (hq : ∀ j < cs.pmesh.numNodes, q j = eval (cs.pmesh.coords j) Q)
    (hper : ∀ i : Fin d, (i : ℕ) ∈ per → ∀ k, faceSub i b (C mu * pderiv i (U k) - if i = k then Q else 0) =
      faceSub i a (C mu * pderiv i (U k) - if i = k then Q else 0))
    (hnat : bcs = [] → ∀ i : Fin d, (i : ℕ) ∉ per → ∀ k, faceSub i b (C mu * pderiv i (U k) - if i = k then Q else 0) = 0 ∧
      faceSub i a (C mu * pderiv i (U k) - if i = k then Q else 0) = 0) :
    mu * cs.sem.vDot x (cs.sem.A (nodal cs.vmesh U)) - cs.sem.vDot x (cs.sem.Dt q) =
      cs.sem.vDot x (cs.sem.B (nodal cs.vmesh (fun k => pderiv k Q - C mu * ∑ i, pderiv i (pderiv i (U k))))) := by
  have hC := h.vcube.cells
  obtain ⟨_, _, hvm, _, hmask, _, _⟩ := (h.setup hn hb).fields
  have hV := fun k => hC.toAffCells.exists_field (fun j => x j k)
  choose V hV using hV
  have hint : ∀ e (P : MvPolynomial (Fin d) ℝ), IntegrableOn (fun x => eval x P)
    (CubeCells.cell n d a ((b - a) / (2 * n)) e) := fun e P => integrableOn_eval _ _ P
  rw [h.stiff_dot hn hp hb hx hV hU, h.grad_dot hn hp hb hx hV hQ hq, h.mass_dot hn hp hb hx hV (fun k i => ?_)]
  · have hsum : ∀ i k, ∑ e ∈ Finset.range (n ^ d), ∫ y in CubeCells.cell n d a ((b - a) / (2 * n)) e,
        eval y (pderiv i ((C mu * pderiv i (U k) - if i = k then Q else 0) * V k e)) = 0 := by
      intro i k
      refine h.flux_zero hn hb (hV k) ?_ (fun j hj hD => ?_) i (fun g => hper i g k) (fun g g' => hnat g i g' k)
      · have := hx.2 k
        rw [hvm] at this
        exact this
      · rw [hx.1 j (Or.inr ((hmask j).1 hD))]; rfl
    have htot : ∑ e ∈ Finset.range (n ^ d), ∫ y in CubeCells.cell n d a ((b - a) / (2 * n)) e,
        eval y (∑ i, ∑ k, pderiv i ((C mu * pderiv i (U k) - if i = k then Q else 0) * V k e)) = 0 := by
      simp only [map_sum]
      rw [Finset.sum_congr rfl fun e _ => integral_finsetSum _ (fun i _ => integrable_finsetSum _ fun k _ => hint e _),
        Finset.sum_comm]
      refine Finset.sum_eq_zero fun i _ => ?_
      rw [Finset.sum_congr rfl fun e _ => integral_finsetSum _ (fun k _ => hint e _), Finset.sum_comm]
      exact Finset.sum_eq_zero fun k _ => hsum i k
    rw [Finset.mul_sum, ← Finset.sum_sub_distrib, ← sub_eq_zero, ← Finset.sum_sub_distrib, ← htot]
    refine Finset.sum_congr rfl fun e _ => ?_
    have hsub : ∀ P R : MvPolynomial (Fin d) ℝ, (∫ y in CubeCells.cell n d a ((b - a) / (2 * n)) e, eval y P) -
        (∫ y in CubeCells.cell n d a ((b - a) / (2 * n)) e, eval y R) =
        ∫ y in CubeCells.cell n d a ((b - a) / (2 * n)) e, eval y (P - R) := by
      intro P R
      rw [← integral_sub (hint e P) (hint e R)]
      simp only [map_sub]
    have hmul : ∀ P : MvPolynomial (Fin d) ℝ, mu * (∫ y in CubeCells.cell n d a ((b - a) / (2 * n)) e, eval y P) =
        ∫ y in CubeCells.cell n d a ((b - a) / (2 * n)) e, eval y (C mu * P) := by
      intro P
      rw [← integral_const_mul]
      simp only [map_mul, eval_C]
    rw [hmul, hsub, hsub]
    have hpoly : C mu * (∑ i, ∑ k, pderiv i (U k) * pderiv i (V k e)) - (∑ k, pderiv k (V k e)) * Q -
        ∑ k, (pderiv k Q - C mu * ∑ i, pderiv i (pderiv i (U k))) * V k e =
        ∑ i, ∑ k, pderiv i ((C mu * pderiv i (U k) - if i = k then Q else 0) * V k e) := by
      have e1 : ∀ i k, pderiv i ((C mu * pderiv i (U k) - if i = k then Q else 0) * V k e) =
          C mu * (pderiv i (U k) * pderiv i (V k e)) - (if i = k then pderiv k (V k e) * Q else 0) -
            ((if i = k then pderiv k Q * V k e else 0) - C mu * pderiv i (pderiv i (U k)) * V k e) := by
        intro i k
        rw [Derivation.leibniz, map_sub, Derivation.leibniz, pderiv_C]
        by_cases hik : i = k
        · subst hik
          simp only [if_true, smul_eq_mul]; ring
        · simp only [if_neg hik, smul_eq_mul, map_zero]; ring
      simp only [e1, Finset.sum_sub_distrib, Finset.sum_ite_eq, Finset.mem_univ, if_true, Finset.sum_mul, Finset.mul_sum]
      have e2 : ∀ i : Fin d, ∑ k, (if i = k then pderiv k (V k e) * Q else 0) = pderiv i (V i e) * Q := fun i => by simp
      have e3 : ∀ i : Fin d, ∑ k, (if i = k then pderiv k Q * V k e else 0) = pderiv i Q * V i e := fun i => by simp
      simp only [sub_mul, Finset.sum_sub_distrib, Finset.sum_mul]
      rw [Finset.sum_comm (f := fun k i => C mu * pderiv i (pderiv i (U k)) * V k e)]
    rw [hpoly]
  · refine le_trans (degreeOf_sub_le _ _ _) (max_le ?_ ?_)
    · have := le_trans (degreeOf_pderiv_le k i Q) (hQ i)
      omega
    · refine le_trans (degreeOf_C_mul_le _ _ _) (le_trans (degreeOf_sum_le _ _ _) (Finset.sup_le fun κ _ => ?_))
      exact le_trans (degreeOf_pderiv_le _ _ _) (le_trans (degreeOf_pderiv_le _ _ _) (hU k i))

end CubeSEM

end Verif.NS
