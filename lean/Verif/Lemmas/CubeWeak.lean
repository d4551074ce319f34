import Verif.Lemmas.CubeFE

/-!
# The Poisson problem on the mesh of a cube
-/

namespace Verif.Core

open Verif.Spec MeasureTheory MvPolynomial

variable {n d p : ℕ} {a b : ℝ} {per : List ℕ} {t : NodeType}

theorem poissonQuadrature_spec (hp : 1 ≤ p) (hd : 1 ≤ d) : ∃ quad l, poissonQuadrature p d = some quad ∧
    quad.nodes.nodeType = .gaussLegendre ∧ quad.nodes.numPoints = p + (d + 1) / 2 ∧ l.length = p + (d + 1) / 2 ∧
    (∀ q k, gridPoint d quad.nodes.value q k = gridPoint d (vec l l.length) q k) ∧ Function.Injective quad.nodes.value ∧
    QuadratureRule quad.weights l (2 * (p + (d + 1) / 2) - 1) := by
  obtain ⟨l, h1, h2, h3, _, h5⟩ := C79_gauss_legendre (p + (d + 1) / 2) (by omega)
  refine ⟨⟨⟨.gaussLegendre, p + (d + 1) / 2, vec l (p + (d + 1) / 2), vec (glBary l (glWeights (p + (d + 1) / 2) l))
    (p + (d + 1) / 2)⟩, glWeights (p + (d + 1) / 2) l⟩, l, ?_, rfl, rfl, h2, ?_, ?_, h5⟩
  · simp only [poissonQuadrature, createQuadrature, createNodes, h1, Option.map_some]
  · intro q k
    change gridPoint d (vec l (p + (d + 1) / 2)) q k = _
    rw [h2]
  · exact (vec_strictMono h2 h3).injective

theorem FESpace.build_exists {mesh : Mesh ℝ d} {quad : Quadrature1D ℝ} (hd : 1 ≤ d) (hn : 0 < mesh.grid.numPoints)
    (hq : 0 < quad.nodes.numPoints) (hw : TrueWeights mesh.grid.bary mesh.grid.value)
    (hinj : Function.Injective mesh.grid.value) {W : List ℝ} (hW : weightsNd quad.weights d = some W) :
    ∃ fs, FESpace.build mesh quad = some fs := by
  obtain ⟨M, A, hM, hA, _⟩ := C34_polynomials (d := d) hq hn hd mesh.grid.bary mesh.grid.value hw hinj quad.nodes.value
  unfold FESpace.build
  rw [hM]
  simp only
  rw [hA, hW]
  exact ⟨_, rfl⟩

/-- Node `j` lies on a face of the cube that is not periodic. -/
def OnBoundary (mesh : Mesh ℝ d) (a b : ℝ) (per : List ℕ) (j : ℕ) : Prop :=
  ∃ k : Fin d, (k : ℕ) ∉ per ∧ (mesh.coords j k = a ∨ mesh.coords j k = b)

/-- The boundary condition `{'boundary': (BCType.DIRICHLET, 0.)}`. -/
def zeroDirichlet : List (PoissonBC ℝ) := [⟨"boundary", .dirichlet, some 0⟩]

namespace CubeMesh

variable {mesh : Mesh ℝ d} {masks : List (String × (ℕ → Bool))} {node : ℕ → ℕ → ℕ}

theorem dirichlet_iff (h : CubeMesh n d p t a b per mesh masks node) (hper : ∃ k : Fin d, (k : ℕ) ∉ per) {j : ℕ}
    (hj : j < mesh.numNodes) : PoissonDirichlet masks zeroDirichlet j ↔ OnBoundary mesh a b per j := by
  obtain ⟨mask, hm⟩ := h.group hper
  rw [OnBoundary, ← h.boundary mask hm j hj]
  unfold PoissonDirichlet DirichletNode zeroDirichlet
  constructor
  · rintro ⟨g, mask', hg, hl, hm'⟩
    simp only [List.map_cons, List.map_nil, List.mem_singleton, Prod.mk.injEq] at hg
    rw [hg.1, hm, Option.some.injEq] at hl
    rw [hl]; exact hm'
  · intro hj
    exact ⟨"boundary", mask, by simp, hm, hj⟩

theorem linked (h : CubeMesh n d p t a b per mesh masks node) (hn : 1 ≤ n) (hper : ∃ k : Fin d, (k : ℕ) ∉ per) {j : ℕ}
    (hj : j < mesh.numNodes) : Verif.Core.Linked mesh (PoissonDirichlet masks zeroDirichlet) j := by
  obtain ⟨κ, hκ⟩ := hper
  have hC := h.cells
  have step : ∀ {e i i'}, e < n ^ d → i < mesh.nodesPerElem → i' < mesh.nodesPerElem →
      Verif.Core.Linked mesh (PoissonDirichlet masks zeroDirichlet) (node e i) →
      Verif.Core.Linked mesh (PoissonDirichlet masks zeroDirichlet) (node e i') := by
    intro e i i' he hi hi' hl
    exact .step _ _ e i i' hl (by rw [hC.num]; exact he) hi hi' (hC.elem e he i hi) (hC.elem e he i' hi')
  have key : ∀ s, ∀ e < n ^ d, digit n d κ e = s → ∀ i < mesh.nodesPerElem,
      Verif.Core.Linked mesh (PoissonDirichlet masks zeroDirichlet) (node e i) := by
    intro s
    induction s with
    | zero =>
      intro e he hs i hi
      obtain ⟨i1, h1, _, h3⟩ := hC.face_node he i κ (show 0 < p + 1 by omega)
      refine step he h1 hi (.base _ ?_)
      rw [h.dirichlet_iff ⟨κ, hκ⟩ (hC.lt e he i1 h1)]
      refine ⟨κ, hκ, Or.inl ?_⟩
      rw [h3, Function.update_self, hC.first, centre, hs]
      push_cast
      ring
    | succ s ih =>
      intro e he hs i hi
      have hlt : digit n d κ e < n := Verif.Common.digit_lt _ _ _ _ hn
      obtain ⟨e', he', hd'⟩ := digit_update hn κ e (show s < n by omega)
      obtain ⟨i1, h1, g1, _⟩ := hC.face_node he' i κ (show p < p + 1 by omega)
      obtain ⟨i2, h2, g2, _⟩ := hC.face_node he i κ (show 0 < p + 1 by omega)
      have hs' := hd' κ
      rw [if_pos rfl] at hs'
      have hl := ih e' he' hs' i1 h1
      have heq : node e' i1 = node e i2 := by
        apply hC.shared e' he' i1 h1 e he i2 h2
        intro k hk
        have f1 := g1 ⟨k, hk⟩
        have f2 := g2 ⟨k, hk⟩
        have f3 := hd' ⟨k, hk⟩
        simp only at f1 f2 f3
        rw [f1, f2, f3]
        by_cases hkκ : (⟨k, hk⟩ : Fin d) = κ
        · subst hkκ
          rw [if_pos rfl, if_pos rfl, if_pos rfl]
          simp only at hs
          rw [hs]; ring
        · rw [if_neg hkκ, if_neg hkκ, if_neg hkκ]
      rw [heq] at hl
      exact step he h2 hi hl
  obtain ⟨e, he, i, hi, rfl⟩ := hC.onto j hj
  exact key _ e he rfl i hi

/-- Everything `solve_poisson` needs. -/
structure Setup (mesh : Mesh ℝ d) (masks : List (String × (ℕ → Bool))) (p : ℕ) (quad : Quadrature1D ℝ)
    (fs : FESpace ℝ d) (l : List ℝ) : Prop where
  quadrature : poissonQuadrature p d = some quad
  build : FESpace.build mesh quad = some fs
  apart : ¬ mesh.grid.same quad.nodes
  rule : QuadratureRule quad.weights l (2 * (p + (d + 1) / 2) - 1)
  count : quad.nodes.numPoints = l.length
  values : ∀ q k, gridPoint d quad.nodes.value q k = gridPoint d (vec l l.length) q k
  wellPosed : WellPosed mesh quad fs (PoissonDirichlet masks zeroDirichlet)

theorem setup (h : CubeMesh n d p t a b per mesh masks node) (hn : 1 ≤ n) (ht : t.hasEnds)
    (hper : ∃ k : Fin d, (k : ℕ) ∉ per) : ∃ quad fs l, Setup mesh masks p quad fs l := by
  have hC := h.cells
  have hd := hC.dim
  obtain ⟨quad, l, h1, h2, h3, h4, h5, h6, h7⟩ := poissonQuadrature_spec hC.order hd
  obtain ⟨W, hW, hWl, hWp, _⟩ := C80_tensor h7 d hd
  obtain ⟨fs, hfs⟩ := FESpace.build_exists (mesh := mesh) (quad := quad) hd hC.numPos (by rw [h3]; omega) hC.weights hC.nodes hW
  have hns : ¬ mesh.grid.same quad.nodes := by
    rintro ⟨hs, _⟩
    rw [h.family, h2] at hs
    rcases ht with ht | ht <;> rw [ht] at hs <;> exact absurd hs (by decide)
  obtain ⟨_, _, W', _, _, hW', _, _, hnq, hfw, _⟩ := FESpace.build_fields hfs
  rw [hW, Option.some.injEq] at hW'
  subst hW'
  refine ⟨quad, fs, l, h1, hfs, hns, h7, by rw [h3, h4], h5, ?_⟩
  refine ⟨hC.inRange, hC.numPos, hC.weights, hC.nodes, h6, by rw [hC.points, h3]; omega, hC.create hfs, ?_, ?_, ?_⟩
  · intro q hq
    rw [hnq, h3, ← h4, ← hWl] at hq
    rw [hfw, List.getD_eq_getElem _ _ hq]
    exact hWp _ (List.getElem_mem hq)
  · intro e he q hq
    rw [hC.num] at he
    rw [hC.jacdet hfs he hq]
    exact pow_pos hC.width d
  · intro j hj
    exact h.linked hn hper hj

variable {quad : Quadrature1D ℝ} {fs : FESpace ℝ d} {l : List ℝ}

theorem stiffness (h : CubeMesh n d p t a b per mesh masks node) (S : Setup mesh masks p quad fs l) {u v : ℕ → ℝ}
    {U V : ℕ → MvPolynomial (Fin d) ℝ} (hU : CellField mesh p u U) (hV : CellField mesh p v V) :
    integrate fs (fun m q => ∑ i, scalarGrad fs (mesh.gather u) m q i * scalarGrad fs (mesh.gather v) m q i) =
      ∑ e ∈ Finset.range (n ^ d), ∫ x in CubeCells.cell n d a ((b - a) / (2 * n)) e, eval x (∑ k, pderiv k (U e) * pderiv k (V e)) := by
  have hC := h.cells
  have hd := hC.dim
  apply hC.integrate S.build S.rule S.count S.values
  · intro e he k
    rw [← hC.num] at he
    refine le_trans (degreeOf_sum_le _ _ _) (Finset.sup_le fun i _ => ?_)
    refine le_trans (degreeOf_mul_le k _ _) ?_
    have h1 := le_trans (degreeOf_pderiv_le i k (U e)) ((hU e he).1 k)
    have h2 := le_trans (degreeOf_pderiv_le i k (V e)) ((hV e he).1 k)
    omega
  · intro e he q hq
    rw [map_sum]
    refine Finset.sum_congr rfl fun i _ => ?_
    rw [hC.scalarGrad S.build hU he hq, hC.scalarGrad S.build hV he hq, map_mul]

theorem mass (h : CubeMesh n d p t a b per mesh masks node) (S : Setup mesh masks p quad fs l) {u v : ℕ → ℝ}
    {U V : ℕ → MvPolynomial (Fin d) ℝ} (hU : CellField mesh p u U) (hV : CellField mesh p v V) :
    integrate fs (fun m q => scalarFn fs (mesh.gather u) m q * scalarFn fs (mesh.gather v) m q) =
      ∑ e ∈ Finset.range (n ^ d), ∫ x in CubeCells.cell n d a ((b - a) / (2 * n)) e, eval x (U e * V e) := by
  have hC := h.cells
  have hd := hC.dim
  apply hC.integrate S.build S.rule S.count S.values
  · intro e he k
    rw [← hC.num] at he
    refine le_trans (degreeOf_mul_le k _ _) ?_
    have h1 := (hU e he).1 k
    have h2 := (hV e he).1 k
    omega
  · intro e he q hq
    rw [hC.scalarFn S.build S.apart hU he hq, hC.scalarFn S.build S.apart hV he hq, map_mul]

end CubeMesh

end Verif.Core
