import Verif.Props.C81

/-!
# C83: periodic meshes and `solve_poisson`
-/

namespace Verif.Core

open Verif.Spec MeasureTheory MvPolynomial

variable {n d p : ℕ} {a b : ℝ} {per : List ℕ} {t : NodeType} {mesh : Mesh ℝ d} {masks : List (String × (ℕ → Bool))}
  {quad : Quadrature1D ℝ}

/-- Values at identified nodes agree. -/
def PeriodicField (mesh : Mesh ℝ d) (u : ℕ → ℝ) : Prop :=
  ∀ i < mesh.numNodes, ∀ j < mesh.numNodes, mesh.nodeIndices i = mesh.nodeIndices j → u i = u j

/-- Identified nodes are on the boundary together, and the solution agrees there. Missing: the other nodes, where it does
not in general (`C83_not_periodic`). -/
theorem C83_boundary_partial (hn : 1 ≤ n) (hd : 1 ≤ d) (hp : 1 ≤ p) (ht : t.hasEnds) (hab : a < b)
    (hper : ∃ k : Fin d, (k : ℕ) ∉ per) (hm : cubeMesh n d p t a b per = .ok (mesh, masks))
    (hq : poissonQuadrature p d = some quad) (f : ℕ → ℝ) : ∃ u, solvePoisson mesh quad masks f zeroDirichlet 0 0 = .ok u ∧
      ∀ i < mesh.numNodes, ∀ j < mesh.numNodes, mesh.nodeIndices i = mesh.nodeIndices j →
        (OnBoundary mesh a b per i ↔ OnBoundary mesh a b per j) ∧ (OnBoundary mesh a b per i → u i = u j) := by
  obtain ⟨u, hu, hzero, _⟩ := C81_galerkin hn hd hp ht hab hper hm hq f
  obtain ⟨node, h⟩ := cubeMesh_of hn hd hp ht hab hm
  have key : ∀ i < mesh.numNodes, ∀ j < mesh.numNodes, mesh.nodeIndices i = mesh.nodeIndices j →
      OnBoundary mesh a b per i → OnBoundary mesh a b per j := by
    rintro i hi j hj hij ⟨k, hk, hor⟩
    refine ⟨k, hk, ?_⟩
    rcases (h.identified i hi j hj).mp hij k with h1 | h1
    · rw [← h1]; exact hor
    · exact absurd h1.1 hk
  refine ⟨u, hu, fun i hi j hj hij => ⟨⟨key i hi j hj hij, key j hj i hi hij.symm⟩, fun hb => ?_⟩⟩
  rw [hzero i hi hb, hzero j hj (key i hi j hj hij hb)]

/-- `C r X_i ^ m` has degree at most `M` in `X_i` only. -/
theorem degreeOf_term (i k : Fin d) (r : ℝ) {m M : ℕ} (hm : m ≤ M) :
    (C r * X i ^ m : MvPolynomial (Fin d) ℝ).degreeOf k ≤ if k = i then M else 0 := by
  refine le_trans (degreeOf_mul_le k _ _) ?_
  rw [degreeOf_C, zero_add]
  refine le_trans (degreeOf_pow_le k _ _) ?_
  rw [degreeOf_X]
  split <;> simp [hm]

/-- The witness: `(6 x⁵ - 15 x⁴ + 10 x³) (y - 2 y³ + y⁴) + (6 x³ - 12 x⁴ + 6 x⁵) (y - y²)`. -/
noncomputable def skew : MvPolynomial (Fin 2) ℝ :=
  (C 6 * X 0 ^ 5 + C (-15) * X 0 ^ 4 + C 10 * X 0 ^ 3) * (C 1 * X 1 ^ 1 + C (-2) * X 1 ^ 3 + C 1 * X 1 ^ 4) +
    (C 6 * X 0 ^ 3 + C (-12) * X 0 ^ 4 + C 6 * X 0 ^ 5) * (C 1 * X 1 ^ 1 + C (-1) * X 1 ^ 2)

theorem skew_degree (k : Fin 2) : skew.degreeOf k ≤ 5 := by
  have hx : ∀ r1 r2 r3 : ℝ, ∀ m1 m2 m3, m1 ≤ 5 → m2 ≤ 5 → m3 ≤ 5 →
      (C r1 * X 0 ^ m1 + C r2 * X 0 ^ m2 + C r3 * X 0 ^ m3 : MvPolynomial (Fin 2) ℝ).degreeOf k ≤ if k = 0 then 5 else 0 := by
    intro r1 r2 r3 m1 m2 m3 h1 h2 h3
    exact le_trans (degreeOf_add_le k _ _) (max_le (le_trans (degreeOf_add_le k _ _)
      (max_le (degreeOf_term 0 k r1 h1) (degreeOf_term 0 k r2 h2))) (degreeOf_term 0 k r3 h3))
  have hy : (C 1 * X 1 ^ 1 + C (-2) * X 1 ^ 3 + C 1 * X 1 ^ 4 : MvPolynomial (Fin 2) ℝ).degreeOf k ≤ if k = 1 then 5 else 0 :=
    le_trans (degreeOf_add_le k _ _) (max_le (le_trans (degreeOf_add_le k _ _)
      (max_le (degreeOf_term 1 k 1 (by omega)) (degreeOf_term 1 k (-2) (by omega)))) (degreeOf_term 1 k 1 (by omega)))
  have hy2 : (C 1 * X 1 ^ 1 + C (-1) * X 1 ^ 2 : MvPolynomial (Fin 2) ℝ).degreeOf k ≤ if k = 1 then 5 else 0 :=
    le_trans (degreeOf_add_le k _ _) (max_le (degreeOf_term 1 k 1 (by omega)) (degreeOf_term 1 k (-1) (by omega)))
  have h1 := hx 6 (-15) 10 5 4 3 (by omega) (by omega) (by omega)
  have h2 := hx 6 (-12) 6 3 4 5 (by omega) (by omega) (by omega)
  unfold skew
  refine le_trans (degreeOf_add_le k _ _) (max_le (le_trans (degreeOf_mul_le k _ _) ?_) (le_trans (degreeOf_mul_le k _ _) ?_))
  · fin_cases k <;> simp at h1 hy ⊢ <;> omega
  · fin_cases k <;> simp at h2 hy2 ⊢ <;> omega

theorem skew_eval (x : Fin 2 → ℝ) : eval x skew = (6 * x 0 ^ 5 - 15 * x 0 ^ 4 + 10 * x 0 ^ 3) * (x 1 - 2 * x 1 ^ 3 + x 1 ^ 4) +
    (6 * x 0 ^ 3 - 12 * x 0 ^ 4 + 6 * x 0 ^ 5) * (x 1 - x 1 ^ 2) := by
  simp [skew]
  ring

theorem skew_pderiv (x : Fin 2 → ℝ) : eval x (pderiv 0 skew) =
    (30 * x 0 ^ 4 - 60 * x 0 ^ 3 + 30 * x 0 ^ 2) * (x 1 - 2 * x 1 ^ 3 + x 1 ^ 4) +
    (18 * x 0 ^ 2 - 48 * x 0 ^ 3 + 30 * x 0 ^ 4) * (x 1 - x 1 ^ 2) := by
  simp [skew, pderiv_mul, Derivation.leibniz_pow, pderiv_X_of_ne (show (1 : Fin 2) ≠ 0 by decide)]
  ring

theorem pderiv_numeral (i : Fin 2) (m : ℕ) [m.AtLeastTwo] : pderiv i (OfNat.ofNat m : MvPolynomial (Fin 2) ℝ) = 0 := by
  have h : (OfNat.ofNat m : MvPolynomial (Fin 2) ℝ) = ((OfNat.ofNat m : ℕ) : MvPolynomial (Fin 2) ℝ) := Nat.cast_ofNat.symm
  rw [h]
  exact Derivation.map_natCast _ _

theorem skew_laplacian (x : Fin 2 → ℝ) : eval x (laplacian skew) =
    (120 * x 0 ^ 3 - 180 * x 0 ^ 2 + 60 * x 0) * (x 1 - 2 * x 1 ^ 3 + x 1 ^ 4) +
    (6 * x 0 ^ 5 - 15 * x 0 ^ 4 + 10 * x 0 ^ 3) * (-12 * x 1 + 12 * x 1 ^ 2) +
    (36 * x 0 - 144 * x 0 ^ 2 + 120 * x 0 ^ 3) * (x 1 - x 1 ^ 2) -
    2 * (6 * x 0 ^ 3 - 12 * x 0 ^ 4 + 6 * x 0 ^ 5) := by
  simp [skew, laplacian, Fin.sum_univ_two, pderiv_mul, pderiv_numeral, Derivation.leibniz_pow,
    pderiv_X_of_ne (show (1 : Fin 2) ≠ 0 by decide), pderiv_X_of_ne (show (0 : Fin 2) ≠ 1 by decide)]
  have h2 : ∀ i : Fin 2, pderiv i (2 : MvPolynomial (Fin 2) ℝ) = 0 := fun i => pderiv_numeral i 2
  have h3 : ∀ i : Fin 2, pderiv i (3 : MvPolynomial (Fin 2) ℝ) = 0 := fun i => pderiv_numeral i 3
  have h4 : ∀ i : Fin 2, pderiv i (4 : MvPolynomial (Fin 2) ℝ) = 0 := fun i => pderiv_numeral i 4
  have h5 : ∀ i : Fin 2, pderiv i (5 : MvPolynomial (Fin 2) ℝ) = 0 := fun i => pderiv_numeral i 5
  simp only [h2, h3, h4, h5, map_zero]
  ring

/-- Violation: on the unit square with a periodic first axis there is a periodic forcing for which the converged solution of
`solve_poisson` takes different values at identified nodes. -/
theorem C83_not_periodic (hn : 1 ≤ n) (hp : 5 ≤ p) (ht : t.hasEnds) : ∃ (mesh : Mesh ℝ 2)
    (masks : List (String × (ℕ → Bool))) (quad : Quadrature1D ℝ) (f u : ℕ → ℝ),
    cubeMesh n 2 p t 0 1 [0] = .ok (mesh, masks) ∧ poissonQuadrature p 2 = some quad ∧ PeriodicField mesh f ∧
    solvePoisson mesh quad masks f zeroDirichlet 0 0 = .ok u ∧ ¬ PeriodicField mesh u := by
  obtain ⟨mesh, masks, quad, hm, hq, _⟩ := C81_succeeds (n := n) (d := 2) (p := p) (t := t) (a := 0) (b := 1) hn (by omega)
    (by omega) ht (by norm_num) [0]
  obtain ⟨node, h⟩ := cubeMesh_of hn (by omega) (by omega) ht (by norm_num) hm
  have hC := h.cells
  have hn0 : (0 : ℝ) < n := by positivity
  have hD : ∀ x ∈ cube 2 0 1, ∀ k : Fin 2, (k : ℕ) ∉ [0] → x k = 0 ∨ x k = 1 → eval x skew = 0 := by
    intro x _ k hk hor
    have hk1 : k = 1 := by fin_cases k <;> simp_all
    subst hk1
    rw [skew_eval]
    rcases hor with h1 | h1 <;> rw [h1] <;> ring
  have hN : ∀ x ∈ cube 2 0 1, ∀ k : Fin 2, (k : ℕ) ∈ [0] → x k = 0 ∨ x k = 1 → eval x (pderiv k skew) = 0 := by
    intro x _ k hk hor
    have hk0 : k = 0 := by fin_cases k <;> simp_all
    subst hk0
    rw [skew_pderiv]
    rcases hor with h1 | h1 <;> rw [h1] <;> ring
  obtain ⟨u, hu, hval⟩ := C82_natural hn (by omega) (by omega) ht (by norm_num) ⟨1, by simp⟩ hm hq skew
    (fun k => le_trans (skew_degree k) hp) hD hN (fun j => - eval (mesh.coords j) (laplacian skew)) (fun j _ => rfl)
  refine ⟨mesh, masks, quad, _, u, hm, hq, ?_, hu, ?_⟩
  · intro i hi j hj hij
    have hid := (h.identified i hi j hj).mp hij
    have h1 : mesh.coords i 1 = mesh.coords j 1 := by
      rcases hid 1 with h1 | h1
      · exact h1
      · simp at h1
    simp only [skew_laplacian]
    rcases hid 0 with h0 | ⟨_, ⟨h0, h0'⟩ | ⟨h0, h0'⟩⟩
    · rw [h0, h1]
    · rw [h0, h0', h1]; ring
    · rw [h0, h0', h1]; ring
  · intro hper
    have hone : at0 mesh.grid.value 1 < 1 ∧ -1 < at0 mesh.grid.value 1 := by
      have hw := hC.within 1 (by omega)
      have hnp := hC.points
      have hne : ∀ r, r < p + 1 → r ≠ 1 → at0 mesh.grid.value 1 ≠ at0 mesh.grid.value r := by
        intro r hr hr1 he
        rw [at0, at0, dif_pos (by omega), dif_pos (by omega)] at he
        have := hC.nodes he
        rw [Fin.mk.injEq] at this
        omega
      have h1 := hne p (by omega) (by omega)
      have h2 := hne 0 (by omega) (by omega)
      rw [hC.last] at h1
      rw [hC.first] at h2
      exact ⟨lt_of_le_of_ne hw.2 h1, lt_of_le_of_ne hw.1 (Ne.symm h2)⟩
    obtain ⟨i0, hi0, hd0⟩ := digit_surj (b := p + 1) (d := 2) (fun _ => ⟨1, by omega⟩)
    obtain ⟨e0, he0, hde0⟩ := digit_surj (b := n) (d := 2) (fun _ => ⟨0, by omega⟩)
    obtain ⟨e1, he1, hde1⟩ := digit_update hn (0 : Fin 2) e0 (show n - 1 < n by omega)
    obtain ⟨i1, hi1, _, hc1⟩ := hC.face_node he0 i0 0 (show 0 < p + 1 by omega)
    obtain ⟨i2, hi2, _, hc2⟩ := hC.face_node he1 i0 0 (show p < p + 1 by omega)
    have hx1 : mesh.coords (node e0 i1) 0 = 0 := by
      rw [hc1, Function.update_self, hC.first, centre, hde0 0]
      simp
    have hx2 : mesh.coords (node e1 i2) 0 = 1 := by
      rw [hc2, Function.update_self, hC.last, centre, hde1 0, if_pos rfl]
      have : ((n - 1 : ℕ) : ℝ) = n - 1 := by rw [Nat.cast_sub hn]; simp
      rw [this]
      field_simp
      ring
    have hy : ∀ e < n ^ 2, ∀ i < mesh.nodesPerElem, ∀ r, digit n 2 1 e = 0 → mesh.coords (node e i) = Function.update
        (fun j => 1 / (2 * n) * gridPoint 2 mesh.grid.value i0 j + centre n 2 0 (1 / (2 * n)) e j) 0 r →
        mesh.coords (node e i) 1 = 1 / (2 * n) * (1 + at0 mesh.grid.value 1) := by
      intro e he i hi r hde hc
      have hde' : digit n 2 ((1 : Fin 2) : ℕ) e = 0 := hde
      rw [hc, Function.update_of_ne (by decide), hC.grid, hd0 1, centre, hde']
      push_cast
      ring
    rw [show ((1 : ℝ) - 0) / (2 * n) = 1 / (2 * n) by ring] at hc1 hc2
    have hy1 := hy e0 he0 i1 hi1 _ (hde0 1) hc1
    have hy2 := hy e1 he1 i2 hi2 _ (by
      have := hde1 1
      rw [if_neg (by decide)] at this
      rw [show ((1 : Fin 2) : ℕ) = 1 from rfl] at this
      rw [this]; exact hde0 1) hc2
    have hypos : 0 < mesh.coords (node e0 i1) 1 := by
      rw [hy1]
      have := hone.2
      exact mul_pos (by positivity) (by linarith)
    have hylt : mesh.coords (node e0 i1) 1 < 1 := by
      rw [hy1]
      have h1 : (1 : ℝ) ≤ n := by exact_mod_cast hn
      have h2 := hone.1
      rw [div_mul_eq_mul_div, div_lt_one (by linarith)]
      linarith
    have hv1 := hC.lt e0 he0 i1 hi1
    have hv2 := hC.lt e1 he1 i2 hi2
    have heq := hper _ hv1 _ hv2 ((h.identified _ hv1 _ hv2).mpr (fun k => by
      fin_cases k
      · exact Or.inr ⟨by simp, Or.inl ⟨hx1, hx2⟩⟩
      · left
        change mesh.coords (node e0 i1) 1 = mesh.coords (node e1 i2) 1
        rw [hy1, hy2]))
    rw [hval _ hv1, hval _ hv2, skew_eval, skew_eval, hx1, hx2, hy2, ← hy1] at heq
    generalize mesh.coords (node e0 i1) 1 = y at hypos hylt heq
    have h3 : y * (1 - y) * (1 + y * (1 - y)) = 0 := by linear_combination (-1 : ℝ) * heq
    have h4 : 0 < y * (1 - y) := mul_pos hypos (by linarith)
    have h5 : 0 < y * (1 - y) * (1 + y * (1 - y)) := mul_pos h4 (by linarith)
    linarith

/-- The hypotheses of the violation hold for four by four elements of order five. -/
example : ∃ (mesh : Mesh ℝ 2) (masks : List (String × (ℕ → Bool))) (quad : Quadrature1D ℝ) (f u : ℕ → ℝ),
    cubeMesh 4 2 5 .newtonCotes 0 1 [0] = .ok (mesh, masks) ∧ poissonQuadrature 5 2 = some quad ∧ PeriodicField mesh f ∧
    solvePoisson mesh quad masks f zeroDirichlet 0 0 = .ok u ∧ ¬ PeriodicField mesh u :=
  C83_not_periodic (by omega) (by omega) (Or.inl rfl)

end Verif.Core
