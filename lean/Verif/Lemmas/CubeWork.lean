import Verif.Lemmas.CubeAdvect

/-!
# The work of the convection operator on the mesh of a cube
-/

namespace Verif.NS.CubeSEM

open Verif.Core Verif.Spec Verif.Linalg MeasureTheory MvPolynomial

variable {n d p over : ℕ} {a b : ℝ} {per : List ℕ} {cs : CubeStokes d} {vnode pnode : ℕ → ℕ → ℕ} {l : List ℝ}

/-- The overintegrated quadrature on the cells. -/
theorem over_integrate (h : CubeSEM n d p a b per [] cs vnode pnode l) (hcs : cubeStokes n d p over a b per [] = .ok cs) (hn : 1 ≤ n)
    (P : ℕ → MvPolynomial (Fin d) ℝ) (hP : ∀ e < n ^ d, ∀ k, (P e).degreeOf k ≤ 2 * (p + over) - 1) (w : QFun ℝ)
    (hw : ∀ e < n ^ d, ∀ q < cs.sem.overint.numQuad, w e q = eval (CubeCells.pt n a ((b - a) / (2 * n)) cs.overQuad e q) (P e)) :
    integrate cs.sem.overint w =
      ∑ e ∈ Finset.range (n ^ d), ∫ x in CubeCells.cell n d a ((b - a) / (2 * n)) e, eval x (P e) := by
  have H := h.setup hn (Or.inr rfl)
  have hC := h.vcube.cells
  obtain ⟨hover, hom⟩ := H.over
  have hob := (FESpace.create_build hover).1
  have ho := (cubeStokes_grids hcs).2
  have := hC.order
  obtain ⟨oq, ol, o1, _, o3, o4, o5, o6, _⟩ := gllQuadrature_spec (m := p + over) (by omega)
  rw [show p + over + 1 = p + 1 + over by omega, ho, Option.some.injEq] at o1
  subst o1
  exact hC.toAffCells.integrate hob o6 (o3.trans o4.symm) (o5 d) P (fun e he k => (hP e he k).trans (by omega)) w hw

/-- The work of the convection term as a quadrature. -/
theorem work_form (h : CubeSEM n d p a b per [] cs vnode pnode l) (hn : 1 ≤ n) (u v : Vel ℝ d) :
    ∑ j ∈ Finset.range cs.vmesh.numNodes, ∑ k, v j k * cs.sem.C u j k =
      vConvForm cs.sem.overint (vGather cs.vmesh u) (vGather cs.vmesh v) :=
  C_dot (h.setup hn (Or.inr rfl)) u v fun j hj => by
    obtain ⟨g, m, hg, _⟩ := hj
    simp at hg

theorem over_points (h : CubeSEM n d p a b per [] cs vnode pnode l) (hn : 1 ≤ n) {u : Vel ℝ d}
    {U : Fin d → ℕ → MvPolynomial (Fin d) ℝ} (hU : ∀ k, CellField cs.vmesh p (fun j => u j k) (U k)) {e q : ℕ} (he : e < n ^ d)
    (hq : q < cs.sem.overint.numQuad) :
    (∀ k, vectorFn cs.sem.overint (vGather cs.vmesh u) e q k =
      eval (CubeCells.pt n a ((b - a) / (2 * n)) cs.overQuad e q) (U k e)) ∧
    ∀ i k, vectorGrad cs.sem.overint (vGather cs.vmesh u) e q i k =
      eval (CubeCells.pt n a ((b - a) / (2 * n)) cs.overQuad e q) (pderiv i (U k e)) := by
  obtain ⟨hover, hom⟩ := (h.setup hn (Or.inr rfl)).over
  have hob := (FESpace.create_build hover).1
  exact ⟨fun k => h.over_value hob (hU k) he hq, fun i k => h.vcube.cells.toAffCells.scalarGrad hob (hU k) he hq i⟩

/-- The sum over the cells of the integrals of a derivative of products of velocity components. -/
theorem flux_prod (h : CubeSEM n d p a b per [] cs vnode pnode l) (hn : 1 ≤ n) (hper : ∀ k : Fin d, (k : ℕ) ∈ per) {u : Vel ℝ d}
    {U : Fin d → ℕ → MvPolynomial (Fin d) ℝ} (hU : ∀ k, CellField cs.vmesh p (fun j => u j k) (U k))
    (hcont : ∀ k, Verif.NS.Continuous cs.vmesh (fun j => u j k)) (j : Fin d) (s : List (Fin d)) :
    ∑ e ∈ Finset.range (n ^ d), ∫ y in CubeCells.cell n d a ((b - a) / (2 * n)) e,
      eval y (pderiv j ((s.map fun k => U k e).prod)) = 0 := by
  refine flux_cyclic h.vcube.cells.width hn j (fun e => (s.map fun k => U k e).prod) fun e he e' he' hd ho => ?_
  beta_reduce
  induction s with
  | nil => simp [faceSub]
  | cons k s ih =>
    rw [List.map_cons, List.prod_cons, List.map_cons, List.prod_cons, faceSub_mul, faceSub_mul, ih,
      h.face_cyclic hn (hper j) (hU k) (hcont k) he he' hd ho]

/-- With enough quadrature points the work is the integral of `((u·∇)u)·u`. -/
theorem conv_work (h : CubeSEM n d p a b per [] cs vnode pnode l) (hcs : cubeStokes n d p over a b per [] = .ok cs)
    (hover : p + 1 ≤ 2 * over) (hn : 1 ≤ n) {u : Vel ℝ d} {U : Fin d → ℕ → MvPolynomial (Fin d) ℝ}
    (hU : ∀ k, CellField cs.vmesh p (fun j => u j k) (U k)) :
    ∑ j ∈ Finset.range cs.vmesh.numNodes, ∑ k, u j k * cs.sem.C u j k = ∑ e ∈ Finset.range (n ^ d),
      ∫ y in CubeCells.cell n d a ((b - a) / (2 * n)) e, eval y (∑ i, ∑ k, U i e * pderiv i (U k e) * U k e) := by
  have hC := h.vcube.cells
  rw [h.work_form hn]
  refine h.over_integrate hcs hn _ (fun e he κ => ?_) _ fun e he q hq => ?_
  · refine le_trans (degreeOf_sum_le _ _ _) (Finset.sup_le fun i _ => le_trans (degreeOf_sum_le _ _ _) (Finset.sup_le fun k _ => ?_))
    have g0 := degreeOf_mul_le κ (U i e * pderiv i (U k e)) (U k e)
    have g4 := degreeOf_mul_le κ (U i e) (pderiv i (U k e))
    have g1 := (hU i e (by rw [hC.num]; exact he)).1 κ
    have g2 := (hU k e (by rw [hC.num]; exact he)).1 κ
    have g3 := degreeOf_pderiv_le i κ (U k e)
    omega
  · obtain ⟨e1, e2⟩ := h.over_points hn hU he hq
    rw [map_sum]
    refine Finset.sum_congr rfl fun i _ => ?_
    rw [map_sum]
    refine Finset.sum_congr rfl fun k _ => ?_
    rw [e1, e2, e1, map_mul, map_mul]

/-- Integration by parts of the work on a periodic cube. -/
theorem work_parts (h : CubeSEM n d p a b per [] cs vnode pnode l) (hn : 1 ≤ n) (hper : ∀ k : Fin d, (k : ℕ) ∈ per) {u : Vel ℝ d}
    {U : Fin d → ℕ → MvPolynomial (Fin d) ℝ} (hU : ∀ k, CellField cs.vmesh p (fun j => u j k) (U k))
    (hcont : ∀ k, Verif.NS.Continuous cs.vmesh (fun j => u j k)) :
    ∑ e ∈ Finset.range (n ^ d), ∫ y in CubeCells.cell n d a ((b - a) / (2 * n)) e,
        eval y (∑ i, ∑ k, U i e * pderiv i (U k e) * U k e) =
      -(1 / 2) * ∑ e ∈ Finset.range (n ^ d), ∫ y in CubeCells.cell n d a ((b - a) / (2 * n)) e,
        eval y ((∑ k, U k e ^ 2) * ∑ j, pderiv j (U j e)) := by
  have hint : ∀ e (P : MvPolynomial (Fin d) ℝ), IntegrableOn (fun x => eval x P)
    (CubeCells.cell n d a ((b - a) / (2 * n)) e) := fun e P => integrableOn_eval _ _ P
  have h0 : ∀ i k : Fin d, ∑ e ∈ Finset.range (n ^ d), ∫ y in CubeCells.cell n d a ((b - a) / (2 * n)) e,
      eval y (pderiv i (U i e * (U k e * U k e))) = 0 := by
    intro i k
    have := h.flux_prod hn hper hU hcont i [i, k, k]
    simpa using this
  have key : ∑ e ∈ Finset.range (n ^ d), ((∫ y in CubeCells.cell n d a ((b - a) / (2 * n)) e,
        eval y (∑ i, ∑ k, U i e * pderiv i (U k e) * U k e)) + (∫ y in CubeCells.cell n d a ((b - a) / (2 * n)) e,
        eval y (∑ i, ∑ k, U i e * pderiv i (U k e) * U k e)) + ∫ y in CubeCells.cell n d a ((b - a) / (2 * n)) e,
        eval y ((∑ k, U k e ^ 2) * ∑ j, pderiv j (U j e))) = 0 := by
    have h1 : ∑ i : Fin d, ∑ k : Fin d, ∑ e ∈ Finset.range (n ^ d), ∫ y in CubeCells.cell n d a ((b - a) / (2 * n)) e,
      eval y (pderiv i (U i e * (U k e * U k e))) = 0 := Finset.sum_eq_zero fun i _ => Finset.sum_eq_zero fun k _ => h0 i k
    refine Eq.trans ?_ h1
    refine Eq.trans ?_ (Finset.sum_congr rfl fun i _ => Finset.sum_comm)
    rw [Finset.sum_comm]
    refine Finset.sum_congr rfl fun e _ => ?_
    rw [← integral_add (hint e _) (hint e _)]
    simp only [← map_add]
    rw [← integral_add (hint e _) (hint e _)]
    have h2 : ∀ i : Fin d, ∑ k : Fin d, ∫ y in CubeCells.cell n d a ((b - a) / (2 * n)) e, eval y (pderiv i (U i e * (U k e * U k e))) =
        ∫ y in CubeCells.cell n d a ((b - a) / (2 * n)) e, eval y (∑ k : Fin d, pderiv i (U i e * (U k e * U k e))) := by
      intro i
      simp only [map_sum]
      rw [integral_finsetSum _ (fun j _ => hint e _)]
    simp only [h2]
    rw [← integral_finsetSum _ (fun j _ => hint e _)]
    congr 1
    funext y
    rw [← map_add, ← map_sum]
    congr 1
    have h3 : (∑ k, U k e ^ 2) * ∑ j, pderiv j (U j e) = ∑ i, ∑ k, U k e ^ 2 * pderiv i (U i e) := by
      rw [Finset.sum_mul_sum, Finset.sum_comm]
    rw [h3]
    simp only [← Finset.sum_add_distrib]
    refine Finset.sum_congr rfl fun i _ => Finset.sum_congr rfl fun k _ => ?_
    simp only [Derivation.leibniz, smul_eq_mul]
    ring
  rw [Finset.sum_add_distrib, Finset.sum_add_distrib] at key
  linarith

theorem shift_sum (V : Fin d → ℝ) (G : Fin d → Fin d → ℝ) (i : Fin d) (c : ℝ) :
    ∑ x, ∑ j, (V x + if x = i then c else 0) * G x j * (V j + if j = i then c else 0) =
      ∑ x, ∑ j, V x * G x j * V j + (c * ∑ x, ∑ j, V x * G x j * (if j = i then 1 else 0) +
        (c * ∑ k, G i k * V k + c ^ 2 * G i i)) := by
  have s1 : ∀ F : Fin d → ℝ, ∑ j, F j * (if j = i then 1 else 0) = F i := fun F => by simp
  have s3 : ∀ F : Fin d → ℝ, ∑ j, F j * (if j = i then c else 0) = F i * c := fun F => by simp
  have h1 : ∀ x, ∑ j, (V x + if x = i then c else 0) * G x j * (V j + if j = i then c else 0) =
      ∑ j, V x * G x j * V j + (V x * G x i) * c + (∑ j, G x j * V j + G x i * c) * (if x = i then c else 0) := by
    intro x
    rw [← s3 (fun j => V x * G x j), ← s3 (fun j => G x j), add_mul, Finset.sum_mul, Finset.sum_mul]
    simp only [← Finset.sum_add_distrib]
    exact Finset.sum_congr rfl fun j _ => by ring
  simp only [h1, Finset.sum_add_distrib, s3, s1, ← Finset.sum_mul]
  ring

/-- Adding a constant velocity along the first axis adds a multiple of the total of the convection term to its work. -/
theorem work_shift (h : CubeSEM n d p a b per [] cs vnode pnode l) (hcs : cubeStokes n d p over a b per [] = .ok cs)
    (hover : 1 ≤ over) (hn : 1 ≤ n) (hper : ∀ k : Fin d, (k : ℕ) ∈ per) {u : Vel ℝ d} (hu : u ∈ TSpace cs.sem) (i : Fin d) (c : ℝ) :
    ∑ j ∈ Finset.range cs.vmesh.numNodes, ∑ k, (u + c • unitVel cs i) j k * cs.sem.C (u + c • unitVel cs i) j k =
      ∑ j ∈ Finset.range cs.vmesh.numNodes, ∑ k, u j k * cs.sem.C u j k +
        c * ∑ j ∈ Finset.range cs.vmesh.numNodes, cs.sem.C u j i := by
  have hC := h.vcube.cells
  have hb : CubeBCs d per [] := Or.inr rfl
  obtain ⟨_, _, hvm, _⟩ := (h.setup hn hb).fields
  have hUe : ∀ k, ∃ V, CellField cs.vmesh p (fun j => u j k) V := fun k => hC.exists_field _
  choose U hU using hUe
  have hcont : ∀ k, Verif.NS.Continuous cs.vmesh (fun j => u j k) := fun k => by have := hu.2 k; rwa [hvm] at this
  have hW : ∀ k, CellField cs.vmesh p (fun j => (u + c • unitVel cs i) j k) (fun e => U k e + C (if k = i then c else 0)) := by
    intro k e he
    obtain ⟨g1, g2⟩ := hU k e he
    obtain ⟨f1, f2⟩ := h.unitVel_field i k e he
    refine ⟨fun κ => (degreeOf_add_le κ _ _).trans (max_le (g1 κ) (by simp)), fun m hm w hw => ?_⟩
    have e1 := g2 m hm w hw
    have e2 := f2 m hm w hw
    simp only [Pi.add_apply, Pi.smul_apply, smul_eq_mul] at e1 e2 ⊢
    rw [map_add, eval_C, e1, ← e2]
    split <;> simp
  have hdot : ∑ j ∈ Finset.range cs.vmesh.numNodes, cs.sem.C u j i =
      ∑ j ∈ Finset.range cs.vmesh.numNodes, ∑ k, unitVel cs i j k * cs.sem.C u j k := by
    rw [← h.unitVel_dot hn hb]
    unfold StokesSEM.vDot StokesSEM.numV
    rw [hvm]
  have hB : integrate cs.sem.overint (fun e q => ∑ k, vectorGrad cs.sem.overint (vGather cs.vmesh u) e q i k *
      vectorFn cs.sem.overint (vGather cs.vmesh u) e q k) = 0 := by
    rw [h.over_integrate hcs hn (fun e => C (1 / 2) * ∑ k, pderiv i (U k e * U k e))]
    · have h0 : ∀ k : Fin d, ∑ e ∈ Finset.range (n ^ d), ∫ y in CubeCells.cell n d a ((b - a) / (2 * n)) e,
          eval y (pderiv i (U k e * U k e)) = 0 := by
        intro k
        have := h.flux_prod hn hper hU hcont i [k, k]
        simpa using this
      have h1 : ∀ e, ∫ y in CubeCells.cell n d a ((b - a) / (2 * n)) e, eval y (C (1 / 2) * ∑ k, pderiv i (U k e * U k e)) =
          1 / 2 * ∑ k, ∫ y in CubeCells.cell n d a ((b - a) / (2 * n)) e, eval y (pderiv i (U k e * U k e)) := by
        intro e
        have hint : ∀ P : MvPolynomial (Fin d) ℝ, IntegrableOn (fun x => eval x P)
          (CubeCells.cell n d a ((b - a) / (2 * n)) e) := fun P => integrableOn_eval _ _ P
        rw [← integral_finsetSum _ (fun j _ => hint _), ← integral_const_mul]
        congr 1
        funext y
        rw [map_mul, eval_C, map_sum]
      simp only [h1]
      rw [← Finset.mul_sum, Finset.sum_comm, Finset.sum_eq_zero fun k _ => h0 k, mul_zero]
    · intro e he κ
      refine (degreeOf_C_mul_le _ _ _).trans ((degreeOf_sum_le _ _ _).trans (Finset.sup_le fun k _ => ?_))
      have g1 := (hU k e (by rw [hC.num]; exact he)).1 κ
      have g2 := degreeOf_pderiv_le i κ (U k e * U k e)
      have g3 := degreeOf_mul_le κ (U k e) (U k e)
      omega
    · intro e he q hq
      obtain ⟨e1, e2⟩ := h.over_points hn hU he hq
      rw [map_mul, eval_C, map_sum, Finset.mul_sum]
      refine Finset.sum_congr rfl fun k _ => ?_
      rw [e1, e2, Derivation.leibniz, smul_eq_mul, map_add, map_mul]
      ring
  have hD : integrate cs.sem.overint (fun e q => vectorGrad cs.sem.overint (vGather cs.vmesh u) e q i i) = 0 := by
    rw [h.over_integrate hcs hn (fun e => pderiv i (U i e))]
    · have := h.flux_prod hn hper hU hcont i [i]
      simpa using this
    · intro e he κ
      have g1 := (hU i e (by rw [hC.num]; exact he)).1 κ
      have g2 := degreeOf_pderiv_le i κ (U i e)
      omega
    · intro e he q hq
      exact (h.over_points hn hU he hq).2 i i
  rw [hdot, h.work_form hn, h.work_form hn, h.work_form hn]
  unfold vConvForm
  have hsplit : integrate cs.sem.overint (fun e q => ∑ x, ∑ j,
        vectorFn cs.sem.overint (vGather cs.vmesh (u + c • unitVel cs i)) e q x *
          vectorGrad cs.sem.overint (vGather cs.vmesh (u + c • unitVel cs i)) e q x j *
          vectorFn cs.sem.overint (vGather cs.vmesh (u + c • unitVel cs i)) e q j) =
      integrate cs.sem.overint (fun e q => (∑ x, ∑ j, vectorFn cs.sem.overint (vGather cs.vmesh u) e q x *
          vectorGrad cs.sem.overint (vGather cs.vmesh u) e q x j * vectorFn cs.sem.overint (vGather cs.vmesh u) e q j) +
        (c * (∑ x, ∑ j, vectorFn cs.sem.overint (vGather cs.vmesh u) e q x *
          vectorGrad cs.sem.overint (vGather cs.vmesh u) e q x j * vectorFn cs.sem.overint (vGather cs.vmesh (unitVel cs i)) e q j) +
        (c * (∑ k, vectorGrad cs.sem.overint (vGather cs.vmesh u) e q i k * vectorFn cs.sem.overint (vGather cs.vmesh u) e q k) +
          c ^ 2 * vectorGrad cs.sem.overint (vGather cs.vmesh u) e q i i))) := by
    apply integrate_congr
    intro e he q hq
    rw [(h.setup hn hb).over.2, hC.num] at he
    obtain ⟨e1, e2⟩ := h.over_points hn hU he hq
    obtain ⟨w1, w2⟩ := h.over_points hn hW he hq
    obtain ⟨f1, f2⟩ := h.over_points hn (h.unitVel_field i) he hq
    simp only [e1, e2, w1, w2, f1, map_add, eval_C, pderiv_C, add_zero]
    have hf : ∀ j : Fin d, eval (CubeCells.pt n a ((b - a) / (2 * n)) cs.overQuad e q) (if j = i then (1 : MvPolynomial (Fin d) ℝ) else 0) =
        if j = i then 1 else 0 := fun j => by split <;> simp
    simp only [hf]
    exact shift_sum _ _ i c
  rw [hsplit, integrate_add, integrate_add, integrate_add, integrate_mul, integrate_mul, integrate_mul, hB, hD]
  ring

/-- Constant velocities have no discrete divergence. -/
theorem unitVel_div (h : CubeSEM n d p a b per [] cs vnode pnode l) (hn : 1 ≤ n) (hp : 3 ≤ p) (i : Fin d) :
    cs.sem.D (unitVel cs i) = 0 := by
  refine h.div_orth_cells hn hp (Or.inr rfl) (h.unitVel_field i) fun e _ Q _ => ?_
  have : ∑ k : Fin d, pderiv k (if k = i then (1 : MvPolynomial (Fin d) ℝ) else 0) = 0 :=
    Finset.sum_eq_zero fun k _ => by split <;> simp
  rw [this]
  simp

end Verif.NS.CubeSEM
