import Verif.Props.C100

/-!
# C154: the solution of Poisson's equation depends on the right hand side as in the continuous problem

On meshes of the unit cube, solved to convergence with zero values at the boundary: the solution is linear in the right hand
side, the operator from the right hand side to the solution is symmetric (`C154_reciprocal`: the work of one load on the
solution of another is the same as the other way round) and positive, and a change of the right hand side changes the
solution and its gradient by at most a constant times as much (`C154_stable`), with a constant that depends on the length of
the cube only: neither on the mesh nor on the order of the elements nor on the dimension.
-/

namespace Verif.Core

open Verif.Spec MeasureTheory MvPolynomial

variable {n d p : ℕ} {a b : ℝ} {per : List ℕ} {t : NodeType} {mesh : Mesh ℝ d} {masks : List (String × (ℕ → Bool))}
  {quad : Quadrature1D ℝ}

theorem NodalFunction.comb {u v : ℕ → ℝ} {uh vh : (Fin d → ℝ) → ℝ} (hU : NodalFunction mesh p u uh) (hV : NodalFunction mesh p v vh)
    (α β : ℝ) : NodalFunction mesh p (fun j => α * u j + β * v j) (fun x => α * uh x + β * vh x) := by
  refine ⟨fun e he => ?_, fun j hj => by rw [hU.nodal j hj, hV.nodal j hj]⟩
  obtain ⟨P, hP, hPe⟩ := hU.piecewise e he
  obtain ⟨Q, hQ, hQe⟩ := hV.piecewise e he
  refine ⟨C α * P + C β * Q, fun k => ?_, fun x hx => by rw [hPe x hx, hQe x hx]; simp⟩
  refine le_trans (degreeOf_add_le k _ _) (max_le ?_ ?_)
  · exact (degreeOf_C_mul_le P k α).trans (hP k)
  · exact (degreeOf_C_mul_le Q k β).trans (hQ k)

/-- Linear in the right hand side. -/
theorem C154_linear (hn : 1 ≤ n) (hd : 1 ≤ d) (hp : 1 ≤ p) (ht : t.hasEnds) (hab : a < b)
    (hper : ∃ k : Fin d, (k : ℕ) ∉ per) (hm : cubeMesh n d p t a b per = .ok (mesh, masks))
    (hq : poissonQuadrature p d = some quad) (f g : ℕ → ℝ) (α β : ℝ) : ∃ u v w,
      solvePoisson mesh quad masks f zeroDirichlet 0 0 = .ok u ∧ solvePoisson mesh quad masks g zeroDirichlet 0 0 = .ok v ∧
      solvePoisson mesh quad masks (fun j => α * f j + β * g j) zeroDirichlet 0 0 = .ok w ∧
      ∀ j < mesh.numNodes, w j = α * u j + β * v j := by
  obtain ⟨u, hu, hzu, hwu, -⟩ := C81_galerkin hn hd hp ht hab hper hm hq f
  obtain ⟨v, hv, hzv, hwv, -⟩ := C81_galerkin hn hd hp ht hab hper hm hq g
  obtain ⟨w, hw, -, -, huniq⟩ := C81_galerkin hn hd hp ht hab hper hm hq fun j => α * f j + β * g j
  obtain ⟨node, h⟩ := cubeMesh_of hn hd hp ht hab hm
  have hC := h.cells
  refine ⟨u, v, w, hu, hv, hw, fun j hj => (huniq (fun j => α * u j + β * v j) ?_ ?_ j hj).symm⟩
  · intro j hj hb
    simp only [hzu j hj hb, hzv j hj hb, mul_zero, add_zero]
  · intro y hy ch yh lh hCh hY hL
    obtain ⟨uh, hU⟩ := hC.exists_nodalFunction u
    obtain ⟨vh, hV⟩ := hC.exists_nodalFunction v
    obtain ⟨fh, hF⟩ := hC.exists_nodalFunction f
    obtain ⟨gh, hG⟩ := hC.exists_nodalFunction g
    have w1 := hwu y hy uh yh fh hU hY hF
    have w2 := hwv y hy vh yh gh hV hY hG
    obtain ⟨U, hUf, hUe⟩ := hC.nodalFunction hU
    obtain ⟨V, hVf, hVe⟩ := hC.nodalFunction hV
    obtain ⟨F, hFf, hFe⟩ := hC.nodalFunction hF
    obtain ⟨G, hGf, hGe⟩ := hC.nodalFunction hG
    obtain ⟨Y, hYf, hYe⟩ := hC.nodalFunction hY
    obtain ⟨D, hDf, hDe⟩ := hC.nodalFunction hCh
    obtain ⟨L, hLf, hLe⟩ := hC.nodalFunction hL
    have comb : ∀ {u v : ℕ → ℝ} {U V : ℕ → MvPolynomial (Fin d) ℝ}, CellField mesh p u U → CellField mesh p v V →
        CellField mesh p (fun j => α * u j + β * v j) (fun e => C α * U e + C β * V e) := by
      intro u v U V hU hV e he
      refine ⟨fun k => le_trans (degreeOf_add_le k _ _) (max_le ((degreeOf_C_mul_le _ k α).trans ((hU e he).1 k))
        ((degreeOf_C_mul_le _ k β).trans ((hV e he).1 k))), fun i hi w hw => ?_⟩
      rw [map_add, map_mul, map_mul, eval_C, eval_C, (hU e he).2 i hi w hw, (hV e he).2 i hi w hw]
    obtain ⟨_, _, g1, g2⟩ := weak_sums hn h hUe hYe hFe
    obtain ⟨_, _, g3, g4⟩ := weak_sums hn h hVe hYe hGe
    obtain ⟨_, _, g5, g6⟩ := weak_sums hn h hDe hYe hLe
    unfold WeakForm at w1 w2 ⊢
    rw [g1, g2] at w1
    rw [g3, g4] at w2
    rw [g5, g6]
    have hint : ∀ e (P : MvPolynomial (Fin d) ℝ), IntegrableOn (fun x => eval x P) (CubeCells.cell n d a ((b - a) / (2 * n)) e) :=
      fun e P => integrableOn_eval _ _ P
    have e1 : ∑ e ∈ Finset.range (n ^ d), (∫ x in CubeCells.cell n d a ((b - a) / (2 * n)) e,
          eval x (∑ k, pderiv k (D e) * pderiv k (Y e))) =
        α * ∑ e ∈ Finset.range (n ^ d), (∫ x in CubeCells.cell n d a ((b - a) / (2 * n)) e,
          eval x (∑ k, pderiv k (U e) * pderiv k (Y e))) +
        β * ∑ e ∈ Finset.range (n ^ d), (∫ x in CubeCells.cell n d a ((b - a) / (2 * n)) e,
          eval x (∑ k, pderiv k (V e) * pderiv k (Y e))) := by
      rw [Finset.mul_sum, Finset.mul_sum, ← Finset.sum_add_distrib]
      refine Finset.sum_congr rfl fun e he => ?_
      rw [← integral_const_mul, ← integral_const_mul, ← integral_add ((hint e _).const_mul α) ((hint e _).const_mul β),
        hC.field_unique hDf (comb hUf hVf) (Finset.mem_range.1 he)]
      congr 1
      funext x
      simp only [map_sum, map_mul, map_add, Finset.mul_sum, Derivation.leibniz, pderiv_C, eval_C, smul_eq_mul, mul_zero, add_zero]
      rw [← Finset.sum_add_distrib]
      exact Finset.sum_congr rfl fun k _ => by ring
    have e2 : ∑ e ∈ Finset.range (n ^ d), (∫ x in CubeCells.cell n d a ((b - a) / (2 * n)) e, eval x (L e * Y e)) =
        α * ∑ e ∈ Finset.range (n ^ d), (∫ x in CubeCells.cell n d a ((b - a) / (2 * n)) e, eval x (F e * Y e)) +
        β * ∑ e ∈ Finset.range (n ^ d), (∫ x in CubeCells.cell n d a ((b - a) / (2 * n)) e, eval x (G e * Y e)) := by
      rw [Finset.mul_sum, Finset.mul_sum, ← Finset.sum_add_distrib]
      refine Finset.sum_congr rfl fun e he => ?_
      rw [← integral_const_mul, ← integral_const_mul, ← integral_add ((hint e _).const_mul α) ((hint e _).const_mul β),
        hC.field_unique hLf (comb hFf hGf) (Finset.mem_range.1 he)]
      congr 1
      funext x
      simp only [map_mul, map_add, eval_C]
      ring
    rw [e1, e2, w1, w2]

/-- Symmetric, and positive: the work of a load on its own solution is the energy of the solution. -/
theorem C154_reciprocal (hn : 1 ≤ n) (hd : 1 ≤ d) (hp : 1 ≤ p) (ht : t.hasEnds) (hab : a < b)
    (hper : ∃ k : Fin d, (k : ℕ) ∉ per) (hm : cubeMesh n d p t a b per = .ok (mesh, masks))
    (hq : poissonQuadrature p d = some quad) (f g : ℕ → ℝ) : ∃ u v,
      solvePoisson mesh quad masks f zeroDirichlet 0 0 = .ok u ∧ solvePoisson mesh quad masks g zeroDirichlet 0 0 = .ok v ∧
      ∀ uh vh fh gh, NodalFunction mesh p u uh → NodalFunction mesh p v vh → NodalFunction mesh p f fh → NodalFunction mesh p g gh →
        ∫ x in cube d a b, fh x * vh x = ∫ x in cube d a b, gh x * uh x ∧
        ∫ x in cube d a b, fh x * uh x = ∫ x in cube d a b, ∑ k, partialDeriv k uh x ^ 2 := by
  obtain ⟨u, hu, hzu, hwu, -⟩ := C81_galerkin hn hd hp ht hab hper hm hq f
  obtain ⟨v, hv, hzv, hwv, -⟩ := C81_galerkin hn hd hp ht hab hper hm hq g
  refine ⟨u, v, hu, hv, fun uh vh fh gh hU hV hF hG => ⟨?_, ?_⟩⟩
  · have w1 := hwu v hzv uh vh fh hU hV hF
    have w2 := hwv u hzu vh uh gh hV hU hG
    unfold WeakForm at w1 w2
    rw [← w1, ← w2]
    simp only [mul_comm]
  · have w1 := hwu u hzu uh uh fh hU hU hF
    unfold WeakForm at w1
    rw [← w1]
    simp only [sq]

/-- The solution and its gradient are bounded by the right hand side, with constants that depend on the length of the cube
only. -/
theorem C154_bound (hn : 1 ≤ n) (hd : 1 ≤ d) (hp : 1 ≤ p) (ht : t.hasEnds) (hab : a < b)
    (hper : ∃ k : Fin d, (k : ℕ) ∉ per) (hm : cubeMesh n d p t a b per = .ok (mesh, masks))
    (hq : poissonQuadrature p d = some quad) (f : ℕ → ℝ) : ∃ u,
      solvePoisson mesh quad masks f zeroDirichlet 0 0 = .ok u ∧
      ∀ uh fh, NodalFunction mesh p u uh → NodalFunction mesh p f fh →
        ∫ x in cube d a b, ∑ k, partialDeriv k uh x ^ 2 ≤ 4 * (b - a) ^ 2 * ∫ x in cube d a b, fh x ^ 2 ∧
        ∫ x in cube d a b, uh x ^ 2 ≤ 16 * (b - a) ^ 4 * ∫ x in cube d a b, fh x ^ 2 := by
  obtain ⟨u, hu, hzu, hwu, -⟩ := C81_galerkin hn hd hp ht hab hper hm hq f
  obtain ⟨node, h⟩ := cubeMesh_of hn hd hp ht hab hm
  have hC := h.cells
  refine ⟨u, hu, fun uh fh hU hF => ?_⟩
  have hn0 : (0 : ℝ) < n := by exact_mod_cast hn
  obtain ⟨L, hL⟩ : ∃ L, L = b - a := ⟨_, rfl⟩
  have hLpos : 0 < L := by rw [hL]; linarith
  obtain ⟨U, hUf, hUe⟩ := hC.nodalFunction hU
  obtain ⟨F, hFf, hFe⟩ := hC.nodalFunction hF
  obtain ⟨iG, iFU, -, -⟩ := weak_sums hn h hUe hUe hFe
  have iF := (weak_sums hn h hUe hFe hFe).2.1
  have iU := (weak_sums hn h hUe hUe hUe).2.1
  have w1 := hwu u hzu uh uh fh hU hU hF
  unfold WeakForm at w1
  obtain ⟨k0, hk0⟩ := hper
  have hb : a + 2 * ((b - a) / (2 * n)) * n = b := by field_simp; ring
  have hcL : 2 * ((b - a) / (2 * n)) * n = L := by rw [hL]; field_simp
  have hzero : ∀ x ∈ Set.Icc (fun _ : Fin d => a) (fun _ => a + 2 * ((b - a) / (2 * n)) * n),
      x k0 = a ∨ x k0 = a + 2 * ((b - a) / (2 * n)) * n → uh x = 0 := by
    intro x hx hor
    rcases hor with h1 | h1
    · exact hC.zero_on_face hn hUf hUe (Or.inl rfl) (fun j hj hjk => hzu j hj ⟨k0, hk0, Or.inl hjk⟩) hx h1
    · exact hC.zero_on_face hn hUf hUe (Or.inr rfl) (fun j hj hjk => hzu j hj ⟨k0, hk0, Or.inr (hjk.trans hb)⟩) hx h1
  have hpo := CubeCells.poincare hn hC.width hUe k0 hzero
  rw [← cube_eq hn, hcL] at hpo
  have iP : IntegrableOn (fun x => partialDeriv k0 uh x ^ 2) (cube d a b) := by
    rw [cube_eq hn]
    exact CubeCells.integrableOn_cells hn hC.width _ (fun e x => eval x (pderiv k0 (U e)) ^ 2)
      (fun e => (MvPolynomial.continuous_eval _).pow 2) (fun e he x hx => by rw [CubeCells.partial_eq hUe he hx])
  simp only [← sq] at iG iF iU w1
  have hk : ∫ x in cube d a b, partialDeriv k0 uh x ^ 2 ≤ ∫ x in cube d a b, ∑ k, partialDeriv k uh x ^ 2 :=
    integral_mono iP iG fun x => Finset.single_le_sum (f := fun k => partialDeriv k uh x ^ 2) (fun k _ => sq_nonneg _)
      (Finset.mem_univ k0)
  have hyoung : ∫ x in cube d a b, fh x * uh x ≤
      2 * L ^ 2 * (∫ x in cube d a b, fh x ^ 2) + 1 / (8 * L ^ 2) * ∫ x in cube d a b, uh x ^ 2 := by
    rw [← integral_const_mul, ← integral_const_mul, ← integral_add (iF.const_mul _) (iU.const_mul _)]
    refine integral_mono iFU ((iF.const_mul _).add (iU.const_mul _)) fun x => ?_
    have h1 : 0 ≤ 2 * (L * fh x - uh x / (4 * L)) ^ 2 := by positivity
    have h2 : 2 * (L * fh x - uh x / (4 * L)) ^ 2 = 2 * L ^ 2 * fh x ^ 2 + 1 / (8 * L ^ 2) * uh x ^ 2 - fh x * uh x := by
      field_simp
      ring
    have h3 : fh x * uh x ≤ 2 * L ^ 2 * fh x ^ 2 + 1 / (8 * L ^ 2) * uh x ^ 2 := by linarith
    exact h3
  rw [← w1] at hyoung
  rw [← hL]
  generalize (∫ x in cube d a b, ∑ k, partialDeriv k uh x ^ 2) = G at *
  generalize (∫ x in cube d a b, uh x ^ 2) = S at *
  generalize (∫ x in cube d a b, fh x ^ 2) = T at *
  have hS : S ≤ 4 * L ^ 2 * G := hpo.trans (mul_le_mul_of_nonneg_left hk (by positivity))
  have h1 : 1 / (8 * L ^ 2) * S ≤ G / 2 := by
    have := mul_le_mul_of_nonneg_left hS (show 0 ≤ 1 / (8 * L ^ 2) by positivity)
    have e : 1 / (8 * L ^ 2) * (4 * L ^ 2 * G) = G / 2 := by field_simp; ring
    rwa [e] at this
  have hG : G ≤ 4 * L ^ 2 * T := by linarith
  refine ⟨hG, hS.trans ?_⟩
  have := mul_le_mul_of_nonneg_left hG (show 0 ≤ 4 * L ^ 2 by positivity)
  linarith

/-- Two right hand sides that are close have solutions that are close, in the mean square of values and gradients, on all
meshes alike. -/
theorem C154_stable (hn : 1 ≤ n) (hd : 1 ≤ d) (hp : 1 ≤ p) (ht : t.hasEnds) (hab : a < b)
    (hper : ∃ k : Fin d, (k : ℕ) ∉ per) (hm : cubeMesh n d p t a b per = .ok (mesh, masks))
    (hq : poissonQuadrature p d = some quad) (f g : ℕ → ℝ) : ∃ u v,
      solvePoisson mesh quad masks f zeroDirichlet 0 0 = .ok u ∧ solvePoisson mesh quad masks g zeroDirichlet 0 0 = .ok v ∧
      ∀ uh vh fh gh, NodalFunction mesh p u uh → NodalFunction mesh p v vh → NodalFunction mesh p f fh → NodalFunction mesh p g gh →
        ∫ x in cube d a b, ∑ k, partialDeriv k (fun x => uh x - vh x) x ^ 2 ≤
          4 * (b - a) ^ 2 * ∫ x in cube d a b, (fh x - gh x) ^ 2 ∧
        ∫ x in cube d a b, (uh x - vh x) ^ 2 ≤ 16 * (b - a) ^ 4 * ∫ x in cube d a b, (fh x - gh x) ^ 2 := by
  obtain ⟨u, v, w, hu, hv, hw, hlin⟩ := C154_linear hn hd hp ht hab hper hm hq f g 1 (-1)
  obtain ⟨w', hw', hbound⟩ := C154_bound hn hd hp ht hab hper hm hq fun j => 1 * f j + -1 * g j
  have e : w' = w := by
    rw [hw, Except.ok.injEq] at hw'
    exact hw'.symm
  subst e
  refine ⟨u, v, hu, hv, fun uh vh fh gh hU hV hF hG => ?_⟩
  have hW := hU.comb hV 1 (-1)
  have := hbound (fun x => 1 * uh x + -1 * vh x) (fun x => 1 * fh x + -1 * gh x)
    ⟨hW.piecewise, fun j hj => by rw [hW.nodal j hj, hlin j hj]⟩ (hF.comb hG 1 (-1))
  simpa only [one_mul, neg_one_mul, ← sub_eq_add_neg] using this

/-- The hypotheses hold for the unit square with eight by eight cubic elements, periodic along the first axis. -/
example (f g : ℕ → ℝ) : ∃ (mesh : Mesh ℝ 2) (masks : List (String × (ℕ → Bool))) (quad : Quadrature1D ℝ) (u v : ℕ → ℝ),
    cubeMesh 8 2 3 .gaussLobattoLegendre 0 1 [0] = .ok (mesh, masks) ∧ mesh.numElements = 64 ∧
    solvePoisson mesh quad masks f zeroDirichlet 0 0 = .ok u ∧ solvePoisson mesh quad masks g zeroDirichlet 0 0 = .ok v := by
  obtain ⟨mesh, masks, quad, h1, h2, h3, _⟩ := C81_succeeds (n := 8) (d := 2) (p := 3) (t := .gaussLobattoLegendre)
    (a := 0) (b := 1) (by omega) (by omega) (by omega) (Or.inr rfl) (by norm_num) [0]
  obtain ⟨u, v, hu, hv, -⟩ := C154_stable (by omega) (by omega) (by omega) (Or.inr rfl) (by norm_num) ⟨1, by simp⟩ h1 h2 f g
  exact ⟨mesh, masks, quad, u, v, h1, by rw [h3]; norm_num, hu, hv⟩

end Verif.Core
