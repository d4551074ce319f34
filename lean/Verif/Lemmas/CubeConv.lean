import Verif.Lemmas.CubeExact
import Verif.Props.C71

/-!
# The convection operator on global polynomials on the mesh of a cube
-/

namespace Verif.NS

open Verif.Core Verif.Spec MeasureTheory MvPolynomial

variable {n d p over : ℕ} {a b : ℝ} {per : List ℕ} {bcs : List (String × BCType)}

namespace CubeSEM

variable {cs : CubeStokes d} {vnode pnode : ℕ → ℕ → ℕ} {l : List ℝ}

/-- The values of a polynomial at the points of the overintegration, which may be the nodes. -/
theorem over_value (h : CubeSEM n d p a b per bcs cs vnode pnode l) {fs : FESpace ℝ d}
    (hb : FESpace.build cs.vmesh cs.overQuad = some fs) {u : ℕ → ℝ} {U : ℕ → MvPolynomial (Fin d) ℝ}
    (hU : CellField cs.vmesh p u U) {e q : ℕ} (he : e < n ^ d) (hq : q < fs.numQuad) :
    fs.interpolate (cs.vmesh.gather u e) q = eval (CubeCells.pt n a ((b - a) / (2 * n)) cs.overQuad e q) (U e) := by
  have hC := h.vcube.cells
  by_cases hs : cs.vmesh.grid.same cs.overQuad.nodes
  · obtain ⟨over, ho⟩ := h.oquad
    obtain ⟨oq, ol, o1, _, o3, _, _, _, o7⟩ := gllQuadrature_spec (m := p + over) (by have := hC.order; omega)
    rw [ho, Option.some.injEq] at o1
    subst o1
    have hgrid : cs.vmesh.grid = cs.overQuad.nodes := by
      have h1 := cubeMesh_grid h.vcube.made
      have h2 := hs.2.2
      rw [hC.points, o3] at h2
      rw [show p + over + 1 = p + 1 by omega, h1, Option.some.injEq] at o7
      exact o7
    obtain ⟨_, _, _, _, _, _, _, _, hnq, _, hint, _⟩ := FESpace.build_fields hb
    have hq' : q < cs.vmesh.nodesPerElem := by rw [hnq, ← hgrid] at hq; exact hq
    rw [hint, if_pos hs, hC.toAffCells.gather _ he hq', ← (hU e (by rw [hC.num]; exact he)).2 q hq' _ (hC.elem e he q hq')]
    congr 2
    funext k
    rw [hC.coords e he q hq' k, hgrid]
    rfl
  · exact hC.toAffCells.scalarFn hb hs hU he hq

/-- The convection term of polynomials is integrated exactly. -/
theorem conv_dot (h : CubeSEM n d p a b per bcs cs vnode pnode l) (hn : 1 ≤ n) (hb : CubeBCs d per bcs)
    {x : Vel ℝ d} (hx : x ∈ TSpace cs.sem) {V : Fin d → ℕ → MvPolynomial (Fin d) ℝ}
    (hV : ∀ k, CellField cs.vmesh p (fun j => x j k) (V k)) {U : Fin d → MvPolynomial (Fin d) ℝ}
    (hU : ∀ k i, (U k).degreeOf i ≤ p) (hconv : ∀ k i, (∑ j, U j * pderiv j (U k)).degreeOf i ≤ p - 1) (hp : 1 ≤ p) :
    cs.sem.vDot x (cs.sem.C (nodal cs.vmesh U)) = ∑ e ∈ Finset.range (n ^ d),
      ∫ y in CubeCells.cell n d a ((b - a) / (2 * n)) e, eval y (∑ k, (∑ j, U j * pderiv j (U k)) * V k e) := by
  have H := h.setup hn hb
  have hC := h.vcube.cells
  obtain ⟨hover, hom⟩ := H.over
  obtain ⟨_, _, hvm, _, hmask, _, _⟩ := H.fields
  have hob := (FESpace.create_build hover).1
  obtain ⟨over, ho⟩ := h.oquad
  obtain ⟨oq, ol, o1, _, o3, o4, o5, o6, _⟩ := gllQuadrature_spec (m := p + over) (by omega)
  rw [ho, Option.some.injEq] at o1
  subst o1
  have h1 : cs.sem.vDot x (cs.sem.C (nodal cs.vmesh U)) =
      vConvForm cs.sem.overint (vGather cs.vmesh (nodal cs.vmesh U)) (vGather cs.vmesh x) := by
    rw [← C_dot H _ x (fun j hD => hx.1 j (Or.inr ((hmask j).1 hD)))]
    unfold StokesSEM.vDot StokesSEM.numV
    rw [hvm]
  rw [h1]
  unfold vConvForm
  apply hC.toAffCells.integrate hob o6 (o3.trans o4.symm) (o5 d)
  · intro e he i
    refine le_trans (degreeOf_sum_le _ _ _) (Finset.sup_le fun k _ => le_trans (degreeOf_mul_le i _ _) ?_)
    have g1 := hconv k i
    have g2 := (hV k e (by rw [hC.num]; exact he)).1 i
    omega
  · intro e he q hq
    rw [Finset.sum_comm, map_sum]
    refine Finset.sum_congr rfl fun k _ => ?_
    rw [map_mul, map_sum, Finset.sum_mul]
    refine Finset.sum_congr rfl fun j _ => ?_
    have e1 := h.over_value hob (h.nodal_field hU j) he hq
    have e2 := hC.toAffCells.scalarGrad hob (h.nodal_field hU k) he hq j
    have e3 := h.over_value hob (hV k) he hq
    rw [map_mul, ← e1, ← e2, ← e3]
    rfl

/-- Against the velocities of the space, the convection operator is the nodal interpolant of the convection term. -/
theorem conv_mass (h : CubeSEM n d p a b per bcs cs vnode pnode l) (hn : 1 ≤ n) (hp : 3 ≤ p) (hb : CubeBCs d per bcs)
    {x : Vel ℝ d} (hx : x ∈ TSpace cs.sem) {U : Fin d → MvPolynomial (Fin d) ℝ}
    (hU : ∀ k i, (U k).degreeOf i ≤ p) (hconv : ∀ k i, (∑ j, U j * pderiv j (U k)).degreeOf i ≤ p - 1) :
    cs.sem.vDot x (cs.sem.C (nodal cs.vmesh U)) =
      cs.sem.vDot x (cs.sem.B (nodal cs.vmesh (fun k => ∑ j, U j * pderiv j (U k)))) := by
  have hV := fun k => h.vcube.cells.toAffCells.exists_field (fun j => x j k)
  choose V hV using hV
  rw [h.conv_dot hn hb hx hV hU hconv (by omega), h.mass_dot hn hp hb hx hV hconv]

/-- The convection operator looks at the nodes only. -/
theorem conv_congr (h : CubeSEM n d p a b per bcs cs vnode pnode l) (hn : 1 ≤ n) (hb : CubeBCs d per bcs) {u u' : Vel ℝ d}
    (huu : ∀ j < cs.vmesh.numNodes, u j = u' j) {x : Vel ℝ d} (hx : x ∈ TSpace cs.sem) :
    cs.sem.vDot x (cs.sem.C u) = cs.sem.vDot x (cs.sem.C u') := by
  have H := h.setup hn hb
  have hC := h.vcube.cells
  obtain ⟨hover, hom⟩ := H.over
  obtain ⟨_, _, hvm, _, hmask, _, _⟩ := H.fields
  have hob := (FESpace.create_build hover).1
  have h1 : ∀ u, cs.sem.vDot x (cs.sem.C u) = vConvForm cs.sem.overint (vGather cs.vmesh u) (vGather cs.vmesh x) := by
    intro u
    rw [← C_dot H u x (fun j hD => hx.1 j (Or.inr ((hmask j).1 hD)))]
    unfold StokesSEM.vDot StokesSEM.numV
    rw [hvm]
  rw [h1, h1]
  have hU := fun k => hC.toAffCells.exists_field (fun j => u j k)
  choose U hU using hU
  have hU' : ∀ k, CellField cs.vmesh p (fun j => u' j k) (U k) := by
    intro k e he
    refine ⟨(hU k e he).1, fun i hi v hv => ?_⟩
    rw [(hU k e he).2 i hi v hv]
    rw [hC.num] at he
    obtain rfl := h.node_lt he hi hv
    exact congrFun (huu _ (hC.lt e he i hi)) k
  unfold vConvForm
  apply integrate_congr
  intro e he q hq
  rw [hom, hC.num] at he
  refine Finset.sum_congr rfl fun i _ => Finset.sum_congr rfl fun j _ => ?_
  have e1 := h.over_value hob (hU i) he hq
  have e1' := h.over_value hob (hU' i) he hq
  have e2 := hC.toAffCells.scalarGrad hob (hU j) he hq i
  have e2' := hC.toAffCells.scalarGrad hob (hU' j) he hq i
  have g1 : vectorFn cs.sem.overint (vGather cs.vmesh u) e q i = vectorFn cs.sem.overint (vGather cs.vmesh u') e q i :=
    e1.trans e1'.symm
  have g2 : vectorGrad cs.sem.overint (vGather cs.vmesh u) e q i j = vectorGrad cs.sem.overint (vGather cs.vmesh u') e q i j :=
    e2.trans e2'.symm
  rw [g1, g2]

end CubeSEM

end Verif.NS
