import Verif.Lemmas.CubeGlobal

/-!
# C81, C82, C83: `solve_poisson` on meshes of the unit cube
-/

namespace Verif.Core

open Verif.Spec MeasureTheory MvPolynomial

variable {n d p : ℕ} {a b : ℝ} {per : List ℕ} {t : NodeType} {mesh : Mesh ℝ d} {masks : List (String × (ℕ → Bool))}
  {quad : Quadrature1D ℝ}

/-- The closed cube `[a, b] ^ d`. -/
def cube (d : ℕ) (a b : ℝ) : Set (Fin d → ℝ) := Set.Icc (fun _ => a) (fun _ => b)

theorem cube_eq (hn : 1 ≤ n) : cube d a b = Set.Icc (fun _ : Fin d => a) (fun _ => a + 2 * ((b - a) / (2 * n)) * n) := by
  have hn0 : (n : ℝ) ≠ 0 := by positivity
  unfold cube
  congr 1
  funext _
  field_simp
  ring

theorem cubeMesh_of (hn : 1 ≤ n) (hd : 1 ≤ d) (hp : 1 ≤ p) (ht : t.hasEnds) (hab : a < b)
    (hm : cubeMesh n d p t a b per = .ok (mesh, masks)) : ∃ node, CubeMesh n d p t a b per mesh masks node := by
  obtain ⟨mesh', masks', node, h⟩ := cubeMesh_spec (t := t) hn hd hp ht hab per
  have h1 := h.made
  rw [hm, Except.ok.injEq, Prod.mk.injEq] at h1
  rw [← h1.1, ← h1.2] at h
  exact ⟨node, h⟩

/-- The functions of the library succeed. -/
theorem C81_succeeds (hn : 1 ≤ n) (hd : 1 ≤ d) (hp : 1 ≤ p) (ht : t.hasEnds) (hab : a < b) (per : List ℕ) :
    ∃ (mesh : Mesh ℝ d) (masks : List (String × (ℕ → Bool))) (quad : Quadrature1D ℝ),
      cubeMesh n d p t a b per = .ok (mesh, masks) ∧ poissonQuadrature p d = some quad ∧ mesh.numElements = n ^ d ∧
      mesh.grid.numPoints = p + 1 := by
  obtain ⟨mesh, masks, node, h⟩ := cubeMesh_spec (t := t) hn hd hp ht hab per
  obtain ⟨quad, _, h1, _⟩ := poissonQuadrature_spec hp hd
  exact ⟨mesh, masks, quad, h.made, h1, h.cells.num, h.cells.points⟩

/-- The nodes of the mesh determine a space of continuous functions on the cube: the elements cover the cube and overlap
in null sets, every nodal vector belongs to a function, the function is unique on the cube and continuous there. -/
theorem C81_space (hn : 1 ≤ n) (hd : 1 ≤ d) (hp : 1 ≤ p) (ht : t.hasEnds) (hab : a < b)
    (hm : cubeMesh n d p t a b per = .ok (mesh, masks)) :
    (∀ x, x ∈ cube d a b ↔ ∃ e < mesh.numElements, x ∈ elementBox mesh e) ∧
    (∀ e < mesh.numElements, ∀ e' < mesh.numElements, e ≠ e' → volume (elementBox mesh e ∩ elementBox mesh e') = 0) ∧
    (∀ j < mesh.numNodes, mesh.coords j ∈ cube d a b) ∧
    ∀ u : ℕ → ℝ, (∃ uh, NodalFunction mesh p u uh) ∧ ∀ uh, NodalFunction mesh p u uh →
      ContinuousOn uh (cube d a b) ∧ ∀ uh', NodalFunction mesh p u uh' → Set.EqOn uh uh' (cube d a b) := by
  obtain ⟨node, h⟩ := cubeMesh_of hn hd hp ht hab hm
  have hC := h.cells
  have hcover : ∀ x, x ∈ cube d a b ↔ ∃ e < n ^ d, x ∈ CubeCells.cell n d a ((b - a) / (2 * n)) e := by
    intro x
    rw [cube_eq hn, ← CubeCells.cover hn hC.width, Set.mem_iUnion]
    exact ⟨fun ⟨e, he⟩ => ⟨e, e.2, he⟩, fun ⟨e, he, hx⟩ => ⟨⟨e, he⟩, hx⟩⟩
  refine ⟨fun x => ?_, ?_, fun j hj => ⟨fun k => (h.inside j hj k).1, fun k => (h.inside j hj k).2⟩, fun u => ⟨hC.exists_nodalFunction u, ?_⟩⟩
  · rw [hcover x, hC.num]
    constructor
    · rintro ⟨e, he, hx⟩; exact ⟨e, he, by rw [hC.box he]; exact hx⟩
    · rintro ⟨e, he, hx⟩; exact ⟨e, he, by rw [← hC.box he]; exact hx⟩
  · intro e he e' he' hne
    rw [hC.num] at he he'
    rw [hC.box he, hC.box he']
    exact CubeCells.overlap hC.width he he' hne
  · intro uh hu
    obtain ⟨U, hU, hUe⟩ := hC.nodalFunction hu
    constructor
    · have hloc : LocallyFinite (fun e : Fin (n ^ d) => CubeCells.cell n d a ((b - a) / (2 * n)) (e : ℕ)) :=
        locallyFinite_of_finite _
      rw [cube_eq hn, ← CubeCells.cover hn hC.width]
      refine hloc.continuousOn_iUnion (fun e => isClosed_Icc) (fun e => ?_)
      exact (MvPolynomial.continuous_eval (U e)).continuousOn.congr (fun x hx => hUe e e.2 x hx)
    · intro uh' hu' x hx
      obtain ⟨U', hU', hUe'⟩ := hC.nodalFunction hu'
      obtain ⟨e, he, hxe⟩ := (hcover x).mp hx
      rw [hUe e he x hxe, hUe' e he x hxe, hC.field_unique hU hU' he]

/-- The two integrals of the weak form, as sums over the cells. -/
theorem weak_sums (hn : 1 ≤ n) {node : ℕ → ℕ → ℕ} (h : CubeMesh n d p t a b per mesh masks node)
    {U V F : ℕ → MvPolynomial (Fin d) ℝ} {uh vh fh : (Fin d → ℝ) → ℝ}
    (hU : ∀ e < n ^ d, ∀ x ∈ CubeCells.cell n d a ((b - a) / (2 * n)) e, uh x = eval x (U e))
    (hV : ∀ e < n ^ d, ∀ x ∈ CubeCells.cell n d a ((b - a) / (2 * n)) e, vh x = eval x (V e))
    (hF : ∀ e < n ^ d, ∀ x ∈ CubeCells.cell n d a ((b - a) / (2 * n)) e, fh x = eval x (F e)) :
    IntegrableOn (fun x => ∑ k, partialDeriv k uh x * partialDeriv k vh x) (cube d a b) ∧
    IntegrableOn (fun x => fh x * vh x) (cube d a b) ∧
    (∫ x in cube d a b, ∑ k, partialDeriv k uh x * partialDeriv k vh x) = ∑ e ∈ Finset.range (n ^ d),
      ∫ x in CubeCells.cell n d a ((b - a) / (2 * n)) e, eval x (∑ k, pderiv k (U e) * pderiv k (V e)) ∧
    (∫ x in cube d a b, fh x * vh x) = ∑ e ∈ Finset.range (n ^ d),
      ∫ x in CubeCells.cell n d a ((b - a) / (2 * n)) e, eval x (F e * V e) := by
  have hC := h.cells
  have g1 := CubeCells.global (a := a) (c := (b - a) / (2 * n)) hn hC.width
    (fun x => ∑ k, partialDeriv k uh x * partialDeriv k vh x)
    (fun e => ∑ k, pderiv k (U e) * pderiv k (V e)) (fun e he x hx => by
      rw [map_sum]
      refine Finset.sum_congr rfl fun k _ => ?_
      rw [CubeCells.partial_eq hU he hx, CubeCells.partial_eq hV he hx, map_mul])
  have g2 := CubeCells.global (a := a) (c := (b - a) / (2 * n)) hn hC.width (fun x => fh x * vh x)
    (fun e => F e * V e) (fun e he x hx => by
      rw [hF e he x (openCell_sub hx), hV e he x (openCell_sub hx), map_mul])
  rw [← cube_eq hn] at g1 g2
  exact ⟨g1.1, g2.1, g1.2, g2.2⟩

/-- `∫ ∇u ∇v = ∫ f v` on the cube. -/
def WeakForm (d : ℕ) (a b : ℝ) (uh vh fh : (Fin d → ℝ) → ℝ) : Prop :=
  ∫ x in cube d a b, ∑ k, partialDeriv k uh x * partialDeriv k vh x = ∫ x in cube d a b, fh x * vh x

/-- The solution of `solve_poisson`, solved to convergence, is zero at the boundary nodes and satisfies the weak form of
Poisson's equation, with exact integrals, against every function of the space that is zero at the boundary nodes; it is
the only nodal vector that does. -/
theorem C81_galerkin (hn : 1 ≤ n) (hd : 1 ≤ d) (hp : 1 ≤ p) (ht : t.hasEnds) (hab : a < b)
    (hper : ∃ k : Fin d, (k : ℕ) ∉ per) (hm : cubeMesh n d p t a b per = .ok (mesh, masks))
    (hq : poissonQuadrature p d = some quad) (f : ℕ → ℝ) : ∃ u, solvePoisson mesh quad masks f zeroDirichlet 0 0 = .ok u ∧
      (∀ j < mesh.numNodes, OnBoundary mesh a b per j → u j = 0) ∧
      (∀ v : ℕ → ℝ, (∀ j < mesh.numNodes, OnBoundary mesh a b per j → v j = 0) →
        ∀ uh vh fh, NodalFunction mesh p u uh → NodalFunction mesh p v vh → NodalFunction mesh p f fh →
          WeakForm d a b uh vh fh) ∧
      ∀ u' : ℕ → ℝ, (∀ j < mesh.numNodes, OnBoundary mesh a b per j → u' j = 0) →
        (∀ v : ℕ → ℝ, (∀ j < mesh.numNodes, OnBoundary mesh a b per j → v j = 0) →
          ∀ uh vh fh, NodalFunction mesh p u' uh → NodalFunction mesh p v vh → NodalFunction mesh p f fh →
            WeakForm d a b uh vh fh) → ∀ j < mesh.numNodes, u' j = u j := by
  classical
  obtain ⟨node, h⟩ := cubeMesh_of hn hd hp ht hab hm
  have hC := h.cells
  obtain ⟨quad', fs, l, S⟩ := h.setup hn ht hper
  have hqq : quad' = quad := by
    have := S.quadrature
    rw [hq, Option.some.injEq] at this
    exact this.symm
  subst hqq
  have hgroups : ∀ bc ∈ zeroDirichlet, bc.type = .dirichlet → (masks.lookup bc.group).isSome := by
    intro bc hbc _
    rw [zeroDirichlet, List.mem_singleton] at hbc
    subst hbc
    obtain ⟨mask, hmask⟩ := h.group hper
    simp only [hmask, Option.isSome_some]
  obtain ⟨u, hu, hzero, hweak, huniq⟩ := C61_galerkin mesh quad' fs masks zeroDirichlet S.wellPosed
    (by intro bc hbc; rw [zeroDirichlet, List.mem_singleton] at hbc; subst hbc; rfl) hgroups f
  -- fields cut off outside the nodes
  have hcut : ∀ {v : ℕ → ℝ}, (∀ j < mesh.numNodes, OnBoundary mesh a b per j → v j = 0) → ∀ j,
      PoissonDirichlet masks zeroDirichlet j → (fun j => if j < mesh.numNodes then v j else 0) j = 0 := by
    intro v hv j hj
    simp only
    split
    · next hjn => exact hv j hjn ((h.dirichlet_iff hper hjn).mp hj)
    · rfl
  have hfield : ∀ {v : ℕ → ℝ} {V}, CellField mesh p v V → CellField mesh p (fun j => if j < mesh.numNodes then v j else 0) V := by
    intro v V hV e he
    refine ⟨(hV e he).1, fun i hi w hw => ?_⟩
    have hwn : w < mesh.numNodes := by
      have := hC.elem e (by rw [← hC.num]; exact he) i hi
      rw [hw] at this
      have hw' : w = node e i := by exact_mod_cast this
      rw [hw']
      exact hC.lt e (by rw [← hC.num]; exact he) i hi
    simp only [if_pos hwn]
    exact (hV e he).2 i hi w hw
  refine ⟨u, hu, fun j hj hb => hzero j ((h.dirichlet_iff hper hj).mpr hb), ?_, ?_⟩
  · intro v hv uh vh fh hU hV hF
    obtain ⟨U, hU, hUe⟩ := hC.nodalFunction hU
    obtain ⟨V, hV, hVe⟩ := hC.nodalFunction hV
    obtain ⟨F, hF, hFe⟩ := hC.nodalFunction hF
    have h1 := hweak _ (hcut hv)
    rw [h.stiffness S hU (hfield hV), h.mass S hF (hfield hV)] at h1
    obtain ⟨_, _, g1, g2⟩ := weak_sums hn h hUe hVe hFe
    unfold WeakForm
    rw [g1, g2]
    exact h1
  · intro u' hu' hw' j hj
    have h1 := huniq _ (hcut hu') (fun v hv => ?_) j hj
    · simp only [if_pos hj] at h1
      exact h1
    · obtain ⟨uh, hU⟩ := hC.exists_nodalFunction u'
      obtain ⟨vh, hV⟩ := hC.exists_nodalFunction v
      obtain ⟨fh, hF⟩ := hC.exists_nodalFunction f
      have h2 := hw' v (fun j hj hb => hv j ((h.dirichlet_iff hper hj).mpr hb)) uh vh fh hU hV hF
      obtain ⟨U, hU, hUe⟩ := hC.nodalFunction hU
      obtain ⟨V, hV, hVe⟩ := hC.nodalFunction hV
      obtain ⟨F, hF, hFe⟩ := hC.nodalFunction hF
      obtain ⟨_, _, g1, g2⟩ := weak_sums hn h hUe hVe hFe
      unfold WeakForm at h2
      rw [g1, g2] at h2
      rw [h.stiffness S (hfield hU) hV, h.mass S hF hV]
      exact h2

/-- The energy `∫ |∇v|² / 2 - f v`. -/
noncomputable def energy (d : ℕ) (a b : ℝ) (fh vh : (Fin d → ℝ) → ℝ) : ℝ :=
  (∫ x in cube d a b, ∑ k, partialDeriv k vh x * partialDeriv k vh x) / 2 - ∫ x in cube d a b, fh x * vh x

theorem partial_sub {n : ℕ} {c : ℝ} {U V : ℕ → MvPolynomial (Fin d) ℝ} {uh vh : (Fin d → ℝ) → ℝ}
    (hU : ∀ e < n ^ d, ∀ x ∈ CubeCells.cell n d a c e, uh x = eval x (U e))
    (hV : ∀ e < n ^ d, ∀ x ∈ CubeCells.cell n d a c e, vh x = eval x (V e)) :
    ∀ e < n ^ d, ∀ x ∈ CubeCells.cell n d a c e, vh x - uh x = eval x (V e - U e) := by
  intro e he x hx
  rw [hU e he x hx, hV e he x hx, map_sub]

/-- It minimises the energy over the functions of the space that are zero at the boundary nodes, and only it does. -/
theorem C81_energy (hn : 1 ≤ n) (hd : 1 ≤ d) (hp : 1 ≤ p) (ht : t.hasEnds) (hab : a < b)
    (hper : ∃ k : Fin d, (k : ℕ) ∉ per) (hm : cubeMesh n d p t a b per = .ok (mesh, masks))
    (hq : poissonQuadrature p d = some quad) (f : ℕ → ℝ) : ∃ u, solvePoisson mesh quad masks f zeroDirichlet 0 0 = .ok u ∧
      ∀ v : ℕ → ℝ, (∀ j < mesh.numNodes, OnBoundary mesh a b per j → v j = 0) →
        ∀ uh vh fh, NodalFunction mesh p u uh → NodalFunction mesh p v vh → NodalFunction mesh p f fh →
          energy d a b fh uh ≤ energy d a b fh vh ∧
          (energy d a b fh vh = energy d a b fh uh → ∀ j < mesh.numNodes, v j = u j) := by
  obtain ⟨u, hu, hzero, hweak, huniq⟩ := C81_galerkin hn hd hp ht hab hper hm hq f
  obtain ⟨u0, hu0, hz0, hw0, hun0⟩ := C81_galerkin hn hd hp ht hab hper hm hq (fun _ => 0)
  obtain ⟨node, h⟩ := cubeMesh_of hn hd hp ht hab hm
  have hC := h.cells
  refine ⟨u, hu, fun v hv uh vh fh hU hV hF => ?_⟩
  have hw := hweak (fun j => v j - u j) (fun j hj hb => by simp only [hv j hj hb, hzero j hj hb, sub_self]) uh
    (fun x => vh x - uh x) fh hU ⟨fun e he => ?_, fun j hj => ?_⟩ hF
  rotate_left
  · obtain ⟨P, hP, hPe⟩ := hU.piecewise e he
    obtain ⟨Q, hQ, hQe⟩ := hV.piecewise e he
    refine ⟨Q - P, fun k => ?_, fun x hx => by rw [hPe x hx, hQe x hx, map_sub]⟩
    exact le_trans (degreeOf_sub_le k Q P) (max_le (hQ k) (hP k))
  · simp only [hU.nodal j hj, hV.nodal j hj]
  obtain ⟨U, hUf, hUe⟩ := hC.nodalFunction hU
  obtain ⟨V, hVf, hVe⟩ := hC.nodalFunction hV
  obtain ⟨F, hFf, hFe⟩ := hC.nodalFunction hF
  have hWe := partial_sub hUe hVe
  obtain ⟨_, _, a1, b1⟩ := weak_sums hn h hUe hUe hFe
  obtain ⟨_, _, a2, b2⟩ := weak_sums hn h hVe hVe hFe
  obtain ⟨_, _, a3, b3⟩ := weak_sums hn h hUe hWe hFe
  obtain ⟨i4, _, a4, _⟩ := weak_sums hn h hWe hWe hFe
  unfold WeakForm at hw
  have hint : ∀ e (P : MvPolynomial (Fin d) ℝ), IntegrableOn (fun x => eval x P) (CubeCells.cell n d a ((b - a) / (2 * n)) e) :=
    fun e P => integrableOn_eval _ _ P
  -- the difference of the energies
  have hdiff : energy d a b fh vh - energy d a b fh uh =
      (∫ x in cube d a b, ∑ k, partialDeriv k (fun x => vh x - uh x) x * partialDeriv k (fun x => vh x - uh x) x) / 2 := by
    rw [a3, b3] at hw
    unfold energy
    rw [a1, a2, a4, b1, b2]
    have e1 : ∑ e ∈ Finset.range (n ^ d), ∫ x in CubeCells.cell n d a ((b - a) / (2 * n)) e, eval x (F e * (V e - U e)) =
        ∑ e ∈ Finset.range (n ^ d), (∫ x in CubeCells.cell n d a ((b - a) / (2 * n)) e, eval x (F e * V e)) -
          ∑ e ∈ Finset.range (n ^ d), ∫ x in CubeCells.cell n d a ((b - a) / (2 * n)) e, eval x (F e * U e) := by
      rw [← Finset.sum_sub_distrib]
      refine Finset.sum_congr rfl fun e _ => ?_
      rw [← integral_sub (hint e _) (hint e _)]
      congr 1
      funext x
      simp only [map_mul, map_sub]
      ring
    have e2 : ∑ e ∈ Finset.range (n ^ d), (∫ x in CubeCells.cell n d a ((b - a) / (2 * n)) e,
          eval x (∑ k, pderiv k (V e) * pderiv k (V e))) -
        ∑ e ∈ Finset.range (n ^ d), (∫ x in CubeCells.cell n d a ((b - a) / (2 * n)) e,
          eval x (∑ k, pderiv k (U e) * pderiv k (U e))) =
        2 * ∑ e ∈ Finset.range (n ^ d), (∫ x in CubeCells.cell n d a ((b - a) / (2 * n)) e,
          eval x (∑ k, pderiv k (U e) * pderiv k (V e - U e))) +
        ∑ e ∈ Finset.range (n ^ d), (∫ x in CubeCells.cell n d a ((b - a) / (2 * n)) e,
          eval x (∑ k, pderiv k (V e - U e) * pderiv k (V e - U e))) := by
      rw [Finset.mul_sum, ← Finset.sum_sub_distrib, ← Finset.sum_add_distrib]
      refine Finset.sum_congr rfl fun e _ => ?_
      rw [← integral_sub (hint e _) (hint e _), ← integral_const_mul, ← integral_add ((hint e _).const_mul 2) (hint e _)]
      congr 1
      funext x
      simp only [map_sum, map_mul, map_sub]
      rw [← Finset.sum_sub_distrib, Finset.mul_sum, ← Finset.sum_add_distrib]
      refine Finset.sum_congr rfl fun k _ => ?_
      ring
    linarith
  have hnn : 0 ≤ ∫ x in cube d a b, ∑ k, partialDeriv k (fun x => vh x - uh x) x * partialDeriv k (fun x => vh x - uh x) x :=
    integral_nonneg fun x => Finset.sum_nonneg fun k _ => mul_self_nonneg _
  refine ⟨by linarith, fun heq j hj => ?_⟩
  -- a field without energy is the solution for zero forcing, hence zero
  have hz : (∫ x in cube d a b, ∑ k, partialDeriv k (fun x => vh x - uh x) x * partialDeriv k (fun x => vh x - uh x) x) = 0 := by
    linarith
  have hae : ∀ᵐ x ∂(volume.restrict (cube d a b)), ∀ k, partialDeriv k (fun x => vh x - uh x) x = 0 := by
    have h1 := (integral_eq_zero_iff_of_nonneg (fun x => Finset.sum_nonneg fun k _ => mul_self_nonneg _) i4).mp hz
    filter_upwards [h1] with x hx k
    have h2 := (Finset.sum_eq_zero_iff_of_nonneg (fun k _ => mul_self_nonneg
      (partialDeriv k (fun x => vh x - uh x) x))).mp hx k (Finset.mem_univ k)
    exact mul_self_eq_zero.mp h2
  have hdz := hun0 (fun j => v j - u j) (fun j hj hb => by simp only [hv j hj hb, hzero j hj hb, sub_self]) ?_ j hj
  · have hz2 := hun0 (fun _ => 0) (fun _ _ _ => rfl) ?_ j hj
    · have h1 : v j - u j = u0 j := hdz
      have h2 : 0 = u0 j := hz2
      linarith
    · intro w hw' uh1 wh fh1 h1 h2 h3
      obtain ⟨U1, hU1, hU1e⟩ := hC.nodalFunction h1
      obtain ⟨W1, hW1, hW1e⟩ := hC.nodalFunction h2
      obtain ⟨F1, hF1, hF1e⟩ := hC.nodalFunction h3
      have hzf : CellField mesh p (fun _ => (0 : ℝ)) (fun _ => 0) := fun e _ =>
        ⟨fun k => by rw [degreeOf_zero]; omega, fun _ _ _ _ => by simp⟩
      obtain ⟨_, _, g1, g2⟩ := weak_sums hn h hU1e hW1e hF1e
      unfold WeakForm
      rw [g1, g2]
      refine Finset.sum_congr rfl fun e he => ?_
      rw [Finset.mem_range] at he
      rw [hC.field_unique hU1 hzf he, hC.field_unique hF1 hzf he]
      simp
  · intro w hw' dh wh fh1 h1 h2 h3
    obtain ⟨D, hD, hDe⟩ := hC.nodalFunction h1
    obtain ⟨W1, hW1, hW1e⟩ := hC.nodalFunction h2
    obtain ⟨F1, hF1, hF1e⟩ := hC.nodalFunction h3
    have hzf : CellField mesh p (fun _ => (0 : ℝ)) (fun _ => 0) := fun e _ =>
      ⟨fun k => by rw [degreeOf_zero]; omega, fun _ _ _ _ => by simp⟩
    have hDf : CellField mesh p (fun j => v j - u j) (fun e => V e - U e) := fun e he =>
      ⟨fun k => le_trans (degreeOf_sub_le k _ _) (max_le ((hVf e he).1 k) ((hUf e he).1 k)), fun i hi w hw => by
        rw [map_sub, (hVf e he).2 i hi w hw, (hUf e he).2 i hi w hw]⟩
    obtain ⟨_, _, g1, g2⟩ := weak_sums hn h hWe hW1e hF1e
    obtain ⟨_, _, g3, _⟩ := weak_sums hn h hDe hW1e hF1e
    unfold WeakForm
    rw [g3, g2]
    have e1 : ∑ e ∈ Finset.range (n ^ d), (∫ x in CubeCells.cell n d a ((b - a) / (2 * n)) e,
        eval x (∑ k, pderiv k (D e) * pderiv k (W1 e))) = 0 := by
      have : ∀ e ∈ Finset.range (n ^ d), (∫ x in CubeCells.cell n d a ((b - a) / (2 * n)) e,
          eval x (∑ k, pderiv k (D e) * pderiv k (W1 e))) = (∫ x in CubeCells.cell n d a ((b - a) / (2 * n)) e,
          eval x (∑ k, pderiv k (V e - U e) * pderiv k (W1 e))) := by
        intro e he
        rw [hC.field_unique hD hDf (Finset.mem_range.mp he)]
      rw [Finset.sum_congr rfl this, ← g1]
      refine integral_eq_zero_of_ae ?_
      filter_upwards [hae] with x hx
      simp [hx]
    rw [e1]
    symm
    refine Finset.sum_eq_zero fun e he => ?_
    rw [hC.field_unique hF1 hzf (Finset.mem_range.mp he)]
    simp

/-- The hypotheses of C81 hold for the unit square with eight by eight cubic Gauss-Lobatto-Legendre elements, periodic along
the first axis. -/
example : NodeType.hasEnds .gaussLobattoLegendre ∧ (∃ k : Fin 2, (k : ℕ) ∉ [0]) ∧
    ∃ (mesh : Mesh ℝ 2) (masks : List (String × (ℕ → Bool))) (quad : Quadrature1D ℝ),
      cubeMesh 8 2 3 .gaussLobattoLegendre 0 1 [0] = .ok (mesh, masks) ∧ poissonQuadrature 3 2 = some quad ∧
      mesh.numElements = 64 := by
  refine ⟨Or.inr rfl, ⟨1, by simp⟩, ?_⟩
  obtain ⟨mesh, masks, quad, h1, h2, h3, _⟩ := C81_succeeds (n := 8) (d := 2) (p := 3) (t := .gaussLobattoLegendre)
    (a := 0) (b := 1) (by omega) (by omega) (by omega) (Or.inr rfl) (by norm_num) [0]
  exact ⟨mesh, masks, quad, h1, h2, by rw [h3]; norm_num⟩

/-! ### C82: the patch test -/

/-- A polynomial that vanishes on a face of the cube. -/
theorem faceSub_of_cube (hab : a < b) {P : MvPolynomial (Fin d) ℝ} {k : Fin d} {s : ℝ} (hs : s ∈ Set.Icc a b)
    (h : ∀ x ∈ cube d a b, x k = s → eval x P = 0) : faceSub k s P = 0 := by
  refine MvPolynomial.funext_set (fun _ => Set.Icc a b) (fun _ => Set.Icc_infinite hab) (fun x hx => ?_)
  rw [eval_faceSub, map_zero]
  have hx' : ∀ i, x i ∈ Set.Icc a b := fun i => hx i (Set.mem_univ i)
  have hin : ∀ i, Function.update x k s i ∈ Set.Icc a b := by
    intro i
    by_cases hi : i = k
    · subst hi; rw [Function.update_self]; exact hs
    · rw [Function.update_of_ne hi]; exact hx' i
  exact h _ ⟨fun i => (hin i).1, fun i => (hin i).2⟩ (Function.update_self _ _ _)

/-- The Laplacian of a polynomial. -/
noncomputable def laplacian (U : MvPolynomial (Fin d) ℝ) : MvPolynomial (Fin d) ℝ := ∑ k, pderiv k (pderiv k U)

/-- It is the sum of the second partial derivatives. -/
theorem eval_laplacian (U : MvPolynomial (Fin d) ℝ) (x : Fin d → ℝ) :
    eval x (laplacian U) = ∑ k, partialDeriv k (partialDeriv k (fun y => eval y U)) x := by
  unfold laplacian
  rw [map_sum]
  refine Finset.sum_congr rfl fun k _ => ?_
  have h1 : partialDeriv k (fun y => eval y U) = fun y => eval y (pderiv k U) := by
    funext y
    exact (hasLineDerivAt_eval U k y).lineDeriv
  rw [h1]
  exact (hasLineDerivAt_eval (pderiv k U) k x).lineDeriv.symm

/-- Polynomial solutions of degree at most `p` in every variable are reproduced at all nodes: zero on the faces that carry
the boundary condition, with zero normal derivative on the other ones. -/
theorem C82_natural (hn : 1 ≤ n) (hd : 1 ≤ d) (hp : 1 ≤ p) (ht : t.hasEnds) (hab : a < b)
    (hper : ∃ k : Fin d, (k : ℕ) ∉ per) (hm : cubeMesh n d p t a b per = .ok (mesh, masks))
    (hq : poissonQuadrature p d = some quad) (U : MvPolynomial (Fin d) ℝ) (hU : ∀ k, U.degreeOf k ≤ p)
    (hD : ∀ x ∈ cube d a b, ∀ k : Fin d, (k : ℕ) ∉ per → x k = a ∨ x k = b → eval x U = 0)
    (hN : ∀ x ∈ cube d a b, ∀ k : Fin d, (k : ℕ) ∈ per → x k = a ∨ x k = b → eval x (pderiv k U) = 0)
    (f : ℕ → ℝ) (hf : ∀ j < mesh.numNodes, f j = - eval (mesh.coords j) (laplacian U)) :
    ∃ u, solvePoisson mesh quad masks f zeroDirichlet 0 0 = .ok u ∧
      ∀ j < mesh.numNodes, u j = eval (mesh.coords j) U := by
  obtain ⟨u, hu, hzero, hweak, huniq⟩ := C81_galerkin hn hd hp ht hab hper hm hq f
  obtain ⟨node, h⟩ := cubeMesh_of hn hd hp ht hab hm
  have hC := h.cells
  have hn0 : (n : ℝ) ≠ 0 := by positivity
  have hb : a + 2 * ((b - a) / (2 * n)) * n = b := by field_simp; ring
  have hin : ∀ j < mesh.numNodes, mesh.coords j ∈ cube d a b := fun j hj =>
    ⟨fun k => (h.inside j hj k).1, fun k => (h.inside j hj k).2⟩
  refine ⟨u, hu, fun j hj => (huniq (fun j => eval (mesh.coords j) U) ?_ ?_ j hj).symm⟩
  · rintro j hj ⟨k, hk, hor⟩
    exact hD _ (hin j hj) k hk hor
  · intro v hv uh vh fh hUh hVh hFh
    obtain ⟨U', hU', hUe⟩ := hC.nodalFunction hUh
    obtain ⟨V, hV, hVe⟩ := hC.nodalFunction hVh
    obtain ⟨F, hF, hFe⟩ := hC.nodalFunction hFh
    have hnode : ∀ e < mesh.numElements, ∀ i < mesh.nodesPerElem, ∀ w : ℕ, mesh.elements e i = w → w < mesh.numNodes := by
      intro e he i hi w hw
      rw [hC.num] at he
      rw [hC.elem e he i hi] at hw
      have hw' : node e i = w := by exact_mod_cast hw
      rw [← hw']
      exact hC.lt e he i hi
    have hUc : CellField mesh p (fun j => eval (mesh.coords j) U) (fun _ => U) := fun e _ => ⟨hU, fun _ _ _ _ => rfl⟩
    have hFc : CellField mesh p f (fun _ => - laplacian U) := fun e he => by
      refine ⟨fun k => ?_, fun i hi w hw => ?_⟩
      · rw [degreeOf_neg]
        refine le_trans (degreeOf_sum_le _ _ _) (Finset.sup_le fun i _ => ?_)
        exact le_trans (degreeOf_pderiv_le i k _) (le_trans (degreeOf_pderiv_le i k _) (hU k))
      · rw [hf w (hnode e he i hi w hw), map_neg]
    obtain ⟨_, _, g1, g2⟩ := weak_sums hn h hUe hVe hFe
    unfold WeakForm
    rw [g1, g2]
    have key := hC.green U hV (fun k s hs => ?_)
    · rw [Finset.sum_congr rfl fun e he => by rw [hC.field_unique hU' hUc (Finset.mem_range.mp he)], key]
      refine Finset.sum_congr rfl fun e he => ?_
      rw [hC.field_unique hF hFc (Finset.mem_range.mp he)]
      rfl
    · rw [hb] at hs
      by_cases hk : (k : ℕ) ∈ per
      · right
        refine faceSub_of_cube hab (by rcases hs with rfl | rfl <;> simp [hab.le]) (fun x hx hxk => ?_)
        refine hN x hx k hk ?_
        rw [hxk]; exact hs
      · left
        intro j hj hjk
        refine hv j hj ⟨k, hk, ?_⟩
        rw [hjk]; exact hs

/-- On a cube without periodic axes every polynomial of degree at most `p` in every variable that is zero on the boundary
is reproduced exactly at all nodes from the values of its negative Laplacian at the nodes. -/
theorem C82_patch (hn : 1 ≤ n) (hd : 1 ≤ d) (hp : 1 ≤ p) (ht : t.hasEnds) (hab : a < b)
    (hm : cubeMesh n d p t a b [] = .ok (mesh, masks)) (hq : poissonQuadrature p d = some quad)
    (U : MvPolynomial (Fin d) ℝ) (hU : ∀ k, U.degreeOf k ≤ p)
    (hD : ∀ x ∈ cube d a b, (∃ k, x k = a ∨ x k = b) → eval x U = 0)
    (f : ℕ → ℝ) (hf : ∀ j < mesh.numNodes, f j =
      - ∑ k, partialDeriv k (partialDeriv k (fun y => eval y U)) (mesh.coords j)) :
    ∃ u, solvePoisson mesh quad masks f zeroDirichlet 0 0 = .ok u ∧
      ∀ j < mesh.numNodes, u j = eval (mesh.coords j) U := by
  refine C82_natural hn hd hp ht hab ⟨⟨0, by omega⟩, by simp⟩ hm hq U hU (fun x hx k _ hk => hD x hx ⟨k, hk⟩)
    (fun x hx k hk => by simp at hk) f (fun j hj => ?_)
  rw [hf j hj, eval_laplacian]

/-- A polynomial that meets the hypotheses of C82 on the unit square: `x (1 - x) y (1 - y)`. -/
example : (∀ k, (X 0 * (1 - X 0) * (X 1 * (1 - X 1)) : MvPolynomial (Fin 2) ℝ).degreeOf k ≤ 2) ∧
    (∀ x ∈ cube 2 0 1, (∃ k, x k = 0 ∨ x k = 1) →
      eval x (X 0 * (1 - X 0) * (X 1 * (1 - X 1)) : MvPolynomial (Fin 2) ℝ) = 0) := by
  constructor
  · have h1 : ∀ i k : Fin 2, (X i * (1 - X i) : MvPolynomial (Fin 2) ℝ).degreeOf k ≤ if k = i then 2 else 0 := by
      intro i k
      refine le_trans (degreeOf_mul_le k _ _) ?_
      have h2 : (1 - X i : MvPolynomial (Fin 2) ℝ).degreeOf k ≤ if k = i then 1 else 0 := by
        refine le_trans (degreeOf_sub_le k _ _) (max_le (by simp) ?_)
        rw [degreeOf_X]
      rw [degreeOf_X]
      by_cases hki : k = i
      · subst hki; simp only [if_true] at h2 ⊢; omega
      · simp only [hki, Ne.symm hki, if_false] at h2 ⊢; omega
    intro k
    refine le_trans (degreeOf_mul_le k _ _) ?_
    have h2 := h1 0 k
    have h3 := h1 1 k
    fin_cases k <;> simp at h2 h3 ⊢ <;> omega
  · rintro x - ⟨k, hk⟩
    fin_cases k <;> rcases hk with hk | hk <;> simp at hk <;> simp [hk]

end Verif.Core
