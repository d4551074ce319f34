import Verif.Lemmas.CubeEnergy

/-!
# A vortex and a potential on a square with walls

The stiffness matrix takes a flow without divergence to one with divergence: the divergence sits at the walls.
-/

set_option linter.unusedSectionVars false

namespace Verif.NS

open Verif.Core Verif.Spec Verif.Linalg MvPolynomial MeasureTheory

variable {n p over : ℕ} {a b : ℝ} {cs : CubeStokes 2} {vnode pnode : ℕ → ℕ → ℕ} {l : List ℝ}

/-- A polynomial with double roots at `r` and `-r`, and its derivatives. -/
noncomputable def wallF (r : ℝ) : Fin 4 → Polynomial ℝ :=
  ![(Polynomial.X ^ 2 - Polynomial.C (r ^ 2)) ^ 2,
    Polynomial.C 4 * Polynomial.X * (Polynomial.X ^ 2 - Polynomial.C (r ^ 2)),
    Polynomial.C 12 * Polynomial.X ^ 2 - Polynomial.C (4 * r ^ 2), Polynomial.C 24 * Polynomial.X]

theorem wallF_deriv0 (r : ℝ) : Polynomial.derivative (wallF r 0) = wallF r 1 := by
  simp only [wallF, Matrix.cons_val_zero, Matrix.cons_val_one, Polynomial.derivative_pow, Polynomial.derivative_sub,
    Polynomial.derivative_X, Polynomial.derivative_C]
  apply Polynomial.funext
  intro t
  simp
  ring

theorem wallF_deriv1 (r : ℝ) : Polynomial.derivative (wallF r 1) = wallF r 2 := by
  apply Polynomial.funext
  intro t
  simp [wallF, Polynomial.derivative_mul, Polynomial.derivative_pow]
  ring

theorem wallF_deriv2 (r : ℝ) : Polynomial.derivative (wallF r 2) = wallF r 3 := by
  apply Polynomial.funext
  intro t
  simp [wallF, Polynomial.derivative_pow]
  ring

theorem wallF_degree (r : ℝ) (i : Fin 4) : (wallF r i).natDegree ≤ 4 := by
  fin_cases i
  all_goals simp only [wallF]
  · change ((Polynomial.X ^ 2 - Polynomial.C (r ^ 2) : Polynomial ℝ) ^ 2).natDegree ≤ 4
    compute_degree
  · change (Polynomial.C 4 * Polynomial.X * (Polynomial.X ^ 2 - Polynomial.C (r ^ 2)) : Polynomial ℝ).natDegree ≤ 4
    compute_degree!
  · change (Polynomial.C 12 * Polynomial.X ^ 2 - Polynomial.C (4 * r ^ 2) : Polynomial ℝ).natDegree ≤ 4
    compute_degree!
  · change (Polynomial.C 24 * Polynomial.X : Polynomial ℝ).natDegree ≤ 4
    compute_degree!

/-- The odd polynomials of the potential. -/
noncomputable def wallG (r : ℝ) : Fin 2 → Polynomial ℝ :=
  ![Polynomial.X * (Polynomial.X ^ 2 - Polynomial.C (r ^ 2)), Polynomial.X ^ 3 * (Polynomial.X ^ 2 - Polynomial.C (r ^ 2))]

theorem wallG_degree (r : ℝ) (i : Fin 2) : (wallG r i).natDegree ≤ 5 := by
  fin_cases i
  all_goals simp only [wallG]
  · change (Polynomial.X * (Polynomial.X ^ 2 - Polynomial.C (r ^ 2)) : Polynomial ℝ).natDegree ≤ 5
    compute_degree!
  · change (Polynomial.X ^ 3 * (Polynomial.X ^ 2 - Polynomial.C (r ^ 2)) : Polynomial ℝ).natDegree ≤ 5
    compute_degree

/-- A product of polynomials of the two coordinates. -/
noncomputable def pairPoly (m : ℝ) (f g : Polynomial ℝ) : MvPolynomial (Fin 2) ℝ := refPoly f 1 m 0 * refPoly g 1 m 1

theorem pairPoly_eval (m : ℝ) (f g : Polynomial ℝ) (x : Fin 2 → ℝ) :
    eval x (pairPoly m f g) = f.eval (x 0 - m) * g.eval (x 1 - m) := by
  unfold pairPoly
  rw [map_mul, refPoly_eval, refPoly_eval, div_one, div_one]

theorem pairPoly_d0 (m : ℝ) (f g : Polynomial ℝ) : pderiv 0 (pairPoly m f g) = pairPoly m (Polynomial.derivative f) g := by
  unfold pairPoly
  rw [Derivation.leibniz, refPoly_pderiv, refPoly_pderiv]
  simp
  ring

theorem pairPoly_d1 (m : ℝ) (f g : Polynomial ℝ) : pderiv 1 (pairPoly m f g) = pairPoly m f (Polynomial.derivative g) := by
  unfold pairPoly
  rw [Derivation.leibniz, refPoly_pderiv, refPoly_pderiv]
  simp

theorem pairPoly_degree (m : ℝ) {f g : Polynomial ℝ} {N : ℕ} (hf : f.natDegree ≤ N) (hg : g.natDegree ≤ N) (i : Fin 2) :
    (pairPoly m f g).degreeOf i ≤ N := by
  unfold pairPoly
  refine (degreeOf_mul_le _ _ _).trans ?_
  have h1 := refPoly_degree f 1 m (0 : Fin 2) i
  have h2 := refPoly_degree g 1 m (1 : Fin 2) i
  fin_cases i
  · simp at h1 h2 ⊢
    omega
  · simp at h1 h2 ⊢
    omega

/-- The velocity of the vortex. -/
noncomputable def vortexU (m r : ℝ) : Fin 2 → MvPolynomial (Fin 2) ℝ :=
  ![pairPoly m (wallF r 0) (wallF r 1), -pairPoly m (wallF r 1) (wallF r 0)]

/-- Its Laplacian. -/
noncomputable def vortexL (m r : ℝ) : Fin 2 → MvPolynomial (Fin 2) ℝ :=
  ![pairPoly m (wallF r 2) (wallF r 1) + pairPoly m (wallF r 0) (wallF r 3),
    -(pairPoly m (wallF r 3) (wallF r 0) + pairPoly m (wallF r 1) (wallF r 2))]

/-- The potential. -/
noncomputable def vortexQ (m r : ℝ) : MvPolynomial (Fin 2) ℝ :=
  pairPoly m (wallG r 1) (wallG r 0) - pairPoly m (wallG r 0) (wallG r 1)

theorem vortexU_lap (m r : ℝ) (k : Fin 2) : ∑ i, pderiv i (pderiv i (vortexU m r k)) = vortexL m r k := by
  rw [Fin.sum_univ_two]
  fin_cases k
  · simp [vortexU, vortexL, pairPoly_d0, pairPoly_d1, wallF_deriv0, wallF_deriv1, wallF_deriv2]
  · simp [vortexU, vortexL, pairPoly_d0, pairPoly_d1, wallF_deriv0, wallF_deriv1, wallF_deriv2]
    ring

theorem vortexU_div (m r : ℝ) : ∑ k, pderiv k (vortexU m r k) = 0 := by
  rw [Fin.sum_univ_two]
  simp [vortexU, pairPoly_d0, pairPoly_d1, wallF_deriv0]

theorem vortexL_div (m r : ℝ) : ∑ k, pderiv k (vortexL m r k) = 0 := by
  rw [Fin.sum_univ_two]
  simp [vortexL, pairPoly_d0, pairPoly_d1, wallF_deriv0, wallF_deriv2]

theorem vortexU_degree (m r : ℝ) (k i : Fin 2) : (vortexU m r k).degreeOf i ≤ 4 := by
  fin_cases k
  · exact pairPoly_degree m (wallF_degree r 0) (wallF_degree r 1) i
  · refine (degreeOf_neg i _).le.trans ?_
    exact pairPoly_degree m (wallF_degree r 1) (wallF_degree r 0) i

theorem vortexL_degree (m r : ℝ) (k i : Fin 2) : (vortexL m r k).degreeOf i ≤ 4 := by
  fin_cases k
  · exact (degreeOf_add_le _ _ _).trans (max_le (pairPoly_degree m (wallF_degree r 2) (wallF_degree r 1) i)
      (pairPoly_degree m (wallF_degree r 0) (wallF_degree r 3) i))
  · refine (degreeOf_neg i _).le.trans ?_
    exact (degreeOf_add_le _ _ _).trans (max_le (pairPoly_degree m (wallF_degree r 3) (wallF_degree r 0) i)
      (pairPoly_degree m (wallF_degree r 1) (wallF_degree r 2) i))

theorem vortexQ_degree (m r : ℝ) (i : Fin 2) : (vortexQ m r).degreeOf i ≤ 5 :=
  (degreeOf_sub_le _ _ _).trans (max_le (pairPoly_degree m (wallG_degree r 1) (wallG_degree r 0) i)
    (pairPoly_degree m (wallG_degree r 0) (wallG_degree r 1) i))

/-- The Laplacian against the gradient of the potential at the walls. -/
theorem vortex_wall (m r : ℝ) (x : Fin 2 → ℝ) (κ : Fin 2) (h : (x κ - m) ^ 2 = r ^ 2) :
    ∑ k, eval x (vortexL m r k) * eval x (pderiv k (vortexQ m r)) =
      64 * r ^ 4 * (x (1 - κ) - m) ^ 2 * (r ^ 2 - (x (1 - κ) - m) ^ 2) ^ 3 := by
  have e0 : eval x (vortexL m r 0) = (12 * (x 0 - m) ^ 2 - 4 * r ^ 2) * (4 * (x 1 - m) * ((x 1 - m) ^ 2 - r ^ 2)) +
      ((x 0 - m) ^ 2 - r ^ 2) ^ 2 * (24 * (x 1 - m)) := by
    simp [vortexL, pairPoly_eval, wallF]
  have e1 : eval x (vortexL m r 1) = -(24 * (x 0 - m) * ((x 1 - m) ^ 2 - r ^ 2) ^ 2 +
      4 * (x 0 - m) * ((x 0 - m) ^ 2 - r ^ 2) * (12 * (x 1 - m) ^ 2 - 4 * r ^ 2)) := by
    simp [vortexL, pairPoly_eval, wallF]
  have e2 : eval x (pderiv 0 (vortexQ m r)) = (5 * (x 0 - m) ^ 4 - 3 * r ^ 2 * (x 0 - m) ^ 2) * ((x 1 - m) * ((x 1 - m) ^ 2 - r ^ 2)) -
      (3 * (x 0 - m) ^ 2 - r ^ 2) * ((x 1 - m) ^ 3 * ((x 1 - m) ^ 2 - r ^ 2)) := by
    simp [vortexQ, pairPoly_d0, pairPoly_eval, wallG, Polynomial.derivative_mul, Polynomial.derivative_pow]
    ring
  have e3 : eval x (pderiv 1 (vortexQ m r)) = (x 0 - m) ^ 3 * ((x 0 - m) ^ 2 - r ^ 2) * (3 * (x 1 - m) ^ 2 - r ^ 2) -
      (x 0 - m) * ((x 0 - m) ^ 2 - r ^ 2) * (5 * (x 1 - m) ^ 4 - 3 * r ^ 2 * (x 1 - m) ^ 2) := by
    simp [vortexQ, pairPoly_d1, pairPoly_eval, wallG, Polynomial.derivative_mul, Polynomial.derivative_pow]
    ring
  rw [Fin.sum_univ_two, e0, e1, e2, e3]
  fin_cases κ
  · simp only [Fin.zero_eta, sub_zero] at h ⊢
    rw [show (x 0 - m) ^ 4 = ((x 0 - m) ^ 2) ^ 2 by ring, h]
    ring
  · simp only [Fin.mk_one, sub_self] at h ⊢
    rw [show (x 1 - m) ^ 4 = ((x 1 - m) ^ 2) ^ 2 by ring, h]
    ring

/-- Vortex and potential vanish at the walls. -/
theorem vortex_zero (m r : ℝ) (x : Fin 2 → ℝ) (κ : Fin 2) (h : (x κ - m) ^ 2 = r ^ 2) :
    (∀ k, eval x (vortexU m r k) = 0) ∧ eval x (vortexQ m r) = 0 := by
  constructor
  · intro k
    fin_cases k <;> fin_cases κ <;> simp only [Fin.zero_eta, Fin.mk_one] at h <;> simp [vortexU, pairPoly_eval, wallF, h]
  · fin_cases κ <;> simp only [Fin.zero_eta, Fin.mk_one] at h <;> simp [vortexQ, pairPoly_eval, wallG, h]

namespace CubeSEM

/-- A wall node away from the corners and the middle of the wall. -/
theorem exists_wall_node (h : CubeSEM n 2 p a b [] [("boundary", .dirichlet)] cs vnode pnode l) (hn : 1 ≤ n) (hp : 3 ≤ p) :
    ∃ j < cs.vmesh.numNodes, cs.vmesh.coords j 0 = a ∧ a < cs.vmesh.coords j 1 ∧ cs.vmesh.coords j 1 < b ∧
      cs.vmesh.coords j 1 ≠ (a + b) / 2 := by
  have hC := h.vcube.cells
  have hc := hC.width
  have hn0 : (0 : ℝ) < n := by exact_mod_cast hn
  have he : 0 < n ^ 2 := by positivity
  have hd0 : ∀ k : Fin 2, digit n 2 k 0 = 0 := fun k => by simp [digit]
  have hinj : ∀ i < p + 1, ∀ j < p + 1, at0 cs.vmesh.grid.value i = at0 cs.vmesh.grid.value j → i = j := by
    intro i hi j hj hij
    have hi' : i < cs.vmesh.grid.numPoints := by rw [hC.points]; exact hi
    have hj' : j < cs.vmesh.grid.numPoints := by rw [hC.points]; exact hj
    unfold at0 at hij
    rw [dif_pos hi', dif_pos hj'] at hij
    exact congrArg Fin.val (hC.nodes hij)
  -- one of two interior points of the first element
  have hnode : ∀ i, 0 < i → i < p → ∃ j < cs.vmesh.numNodes, cs.vmesh.coords j 0 = a ∧
      cs.vmesh.coords j 1 = a + (b - a) / (2 * n) * (1 + at0 cs.vmesh.grid.value i) ∧
      a < cs.vmesh.coords j 1 ∧ cs.vmesh.coords j 1 < b := by
    intro i h0 h1
    obtain ⟨q, hq, hqd⟩ : ∃ q < cs.vmesh.nodesPerElem, digit (p + 1) 2 0 q = 0 ∧ digit (p + 1) 2 1 q = i := by
      obtain ⟨q, hq, hqd⟩ := digit_update (d := 2) (b := p + 1) (by omega) 1 0 (r := i) (by omega)
      refine ⟨q, by rw [hC.toAffCells.npe]; exact hq, ?_, ?_⟩
      · have := hqd 0
        simpa [digit] using this
      · have := hqd 1
        simpa using this
    obtain ⟨x, hx, _, _, hx0⟩ := h.axis hn he hq 0
    obtain ⟨y, hy, hy1, hy2, hy0⟩ := h.axis hn he hq 1
    have hqd0 : digit (p + 1) 2 (0 : Fin 2) q = 0 := hqd.1
    have hqd1 : digit (p + 1) 2 (1 : Fin 2) q = i := hqd.2
    rw [hqd0, hC.first] at hx
    rw [hqd1] at hy
    rw [hd0, hx] at hx0
    rw [hd0] at hy0
    have hlo : -1 < y := lt_of_le_of_ne hy1 fun hE => by
      rw [hy, ← hC.first] at hE
      have := hinj _ (by omega) _ (by omega) hE
      omega
    have hhi : y < 1 := lt_of_le_of_ne hy2 fun hE => by
      rw [hy, ← hC.last] at hE
      have := hinj _ (by omega) _ (by omega) hE
      omega
    refine ⟨_, hC.lt 0 he q hq, by rw [hx0]; push_cast; ring, by rw [hy0, ← hy]; push_cast; ring, ?_, ?_⟩
    · rw [hy0]
      push_cast
      have : 0 < (b - a) / (2 * n) * (2 * 0 + 1 + y) := mul_pos hc (by linarith)
      linarith
    · rw [hy0]
      push_cast
      have h3 : (b - a) / (2 * n) * (2 * 0 + 1 + y) < (b - a) / (2 * n) * 2 := mul_lt_mul_of_pos_left (by linarith) hc
      have h4 : (b - a) / (2 * n) * 2 * n = b - a := by field_simp
      have h5 : (1 : ℝ) ≤ n := by exact_mod_cast hn
      have h6 := mul_le_mul_of_nonneg_left h5 (by positivity : 0 ≤ (b - a) / (2 * n) * 2)
      linarith
  obtain ⟨j, hj, h1, h2, h3, h4⟩ := hnode 1 (by omega) (by omega)
  by_cases hm : cs.vmesh.coords j 1 = (a + b) / 2
  · obtain ⟨j', hj', g1, g2, g3, g4⟩ := hnode 2 (by omega) (by omega)
    refine ⟨j', hj', g1, g3, g4, fun hm' => ?_⟩
    rw [h2] at hm
    rw [g2, ← hm] at hm'
    have h5 := mul_left_cancel₀ hc.ne' (add_left_cancel hm')
    have := hinj 2 (by omega) 1 (by omega) (add_left_cancel h5)
    omega
  · exact ⟨j, hj, h1, h3, h4, hm⟩

/-- The vortex `z`, the free part `y` of its Laplacian and the potential `q`. -/
theorem exists_vortex (h : CubeSEM n 2 p a b [] [("boundary", .dirichlet)] cs vnode pnode l) (hn : 1 ≤ n) (hp : 7 ≤ p) (hab : a < b) :
    ∃ z ∈ TSpace cs.sem, ∃ y ∈ TSpace cs.sem, ∃ q : ℕ → ℝ, cs.sem.D z = 0 ∧
      (∀ x ∈ TSpace cs.sem, cs.sem.vDot x (cs.sem.A z) = -cs.sem.vDot x (cs.sem.B y)) ∧
      0 < cs.sem.vDot y (cs.sem.Dt q) ∧ ∀ j < cs.pmesh.numNodes, q j = eval (cs.pmesh.coords j) (vortexQ ((a + b) / 2) ((b - a) / 2)) := by
  classical
  have hb : CubeBCs 2 [] [("boundary", .dirichlet)] := Or.inl ⟨rfl, 0, by simp⟩
  have H := h.setup hn hb
  have hC := h.vcube.cells
  obtain ⟨_, _, hvm, _, hmask, _, _⟩ := H.fields
  have hnv : cs.sem.numV = cs.vmesh.numNodes := by unfold StokesSEM.numV; rw [hvm]
  obtain ⟨m, hm⟩ : ∃ m, m = (a + b) / 2 := ⟨_, rfl⟩
  obtain ⟨r, hr⟩ : ∃ r, r = (b - a) / 2 := ⟨_, rfl⟩
  have hr0 : 0 < r := by rw [hr]; linarith
  rw [← hm, ← hr]
  have hDir : ∀ j < cs.vmesh.numNodes, DirichletNode cs.masks [("boundary", .dirichlet)] j ↔
      ∃ κ : Fin 2, (cs.vmesh.coords j κ - m) ^ 2 = r ^ 2 := by
    intro j hj
    rw [h.dirichlet_iff hb hj]
    unfold OnBoundary
    have : ∀ t : ℝ, (t - m) ^ 2 = r ^ 2 ↔ t = a ∨ t = b := by
      intro t
      rw [sq_eq_sq_iff_eq_or_eq_neg, hm, hr]
      constructor
      · rintro (g | g)
        · right; linarith
        · left; linarith
      · rintro (g | g)
        · right; rw [g]; ring
        · left; rw [g]; ring
    simp [this]
  have hsame : ∀ i < cs.vmesh.numNodes, ∀ j < cs.vmesh.numNodes, SameNode cs.vmesh i j → cs.vmesh.coords i = cs.vmesh.coords j := by
    intro i hi j hj hs
    funext k
    rcases (h.same_iff hi hj).mp hs k with g | ⟨g, _⟩
    · exact g
    · simp at g
  have hin : ∀ j < cs.vmesh.numNodes, ∀ k, (cs.vmesh.coords j k - m) ^ 2 ≤ r ^ 2 := by
    intro j hj k
    obtain ⟨e, he, i, hi, rfl⟩ := hC.onto j hj
    obtain ⟨x, _, hx1, hx2, hx⟩ := h.axis hn he hi k
    have hlt : digit n 2 k e < n := Verif.Common.digit_lt _ _ _ _ hn
    have hlt' : (digit n 2 k e : ℝ) + 1 ≤ n := by exact_mod_cast hlt
    have hn0 : (0 : ℝ) < n := by exact_mod_cast hn
    have hdig : (0 : ℝ) ≤ digit n 2 k e := Nat.cast_nonneg _
    have hc := hC.width
    have e1 : (b - a) / (2 * n) * (2 * n) = b - a := by field_simp
    have e2 : 0 ≤ (b - a) / (2 * n) * (2 * digit n 2 k e + 1 + x) := mul_nonneg hc.le (by linarith)
    have e3 : (b - a) / (2 * n) * (2 * digit n 2 k e + 1 + x) ≤ (b - a) / (2 * n) * (2 * n) :=
      mul_le_mul_of_nonneg_left (by linarith) hc.le
    rw [e1] at e3
    rw [hx]
    apply sq_le_sq'
    · rw [hm, hr]; linarith
    · rw [hm, hr]; linarith
  -- the vortex
  have hz : nodal cs.vmesh (vortexU m r) ∈ TSpace cs.sem := by
    refine ⟨(H.mem_VSpace _).mpr ⟨fun j hj => ?_, fun j hj => ?_⟩, fun k i hi j hj hs => ?_⟩
    · funext k
      unfold nodal
      split
      · rename_i hlt
        obtain ⟨κ, hκ⟩ := (hDir j hlt).mp hj
        exact (vortex_zero m r _ κ hκ).1 k
      · rfl
    · funext k
      exact if_neg (by omega)
    · rw [hvm] at hi hj hs
      unfold nodal
      beta_reduce
      rw [if_pos hi, if_pos hj, hsame i hi j hj hs]
  have hUd : ∀ k i, (vortexU m r k).degreeOf i ≤ p - 1 := fun k i => (vortexU_degree m r k i).trans (by omega)
  have hLd : ∀ k i, (vortexL m r k).degreeOf i ≤ p - 1 := fun k i => (vortexL_degree m r k i).trans (by omega)
  have hQd : ∀ i, (vortexQ m r).degreeOf i ≤ p - 2 := fun i => (vortexQ_degree m r i).trans (by omega)
  -- the free part of its Laplacian
  obtain ⟨y, hy⟩ : ∃ y : Vel ℝ 2, y = fun j => if DirichletNode cs.masks [("boundary", .dirichlet)] j then 0 else nodal cs.vmesh (vortexL m r) j :=
    ⟨_, rfl⟩
  have hyT : y ∈ TSpace cs.sem := by
    refine ⟨(H.mem_VSpace _).mpr ⟨fun j hj => ?_, fun j hj => ?_⟩, fun k i hi j hj hs => ?_⟩
    · rw [hy]; exact if_pos hj
    · rw [hy]
      beta_reduce
      split
      · rfl
      · funext k
        exact if_neg (by omega)
    · rw [hvm] at hi hj hs
      have e := hsame i hi j hj hs
      have e2 : DirichletNode cs.masks [("boundary", .dirichlet)] i ↔ DirichletNode cs.masks [("boundary", .dirichlet)] j := by
        rw [hDir i hi, hDir j hj, e]
      rw [hy]
      beta_reduce
      unfold nodal
      by_cases g : DirichletNode cs.masks [("boundary", .dirichlet)] i
      · rw [if_pos g, if_pos (e2.mp g)]
      · rw [if_neg g, if_neg (fun g' => g (e2.mpr g'))]
        beta_reduce
        rw [if_pos hi, if_pos hj, e]
  have hBy : ∀ x ∈ TSpace cs.sem, cs.sem.vDot x (cs.sem.B (nodal cs.vmesh (vortexL m r))) = cs.sem.vDot x (cs.sem.B y) := by
    intro x hx
    rw [B_dot H.valid (VSpace_masked hx.1), B_dot H.valid (VSpace_masked hx.1)]
    refine Finset.sum_congr rfl fun j _ => Finset.sum_congr rfl fun k _ => ?_
    rw [hy]
    by_cases g : DirichletNode cs.masks [("boundary", .dirichlet)] j
    · rw [((H.mem_VSpace x).mp hx.1).1 j g]
      simp
    · beta_reduce
      rw [if_neg g]
  obtain ⟨q, hq⟩ : ∃ q : ℕ → ℝ, q = fun j => eval (cs.pmesh.coords j) (vortexQ m r) := ⟨_, rfl⟩
  refine ⟨_, hz, y, hyT, q, ?_, fun x hx => ?_, ?_, fun j _ => by rw [hq]⟩
  · exact h.div_zero hn (by omega) hb (fun k i => (hUd k i).trans (by omega)) (vortexU_div m r)
  · have hw := h.weak hn (by omega) hb hx (mu := 1) (U := vortexU m r) (Q := 0) (q := 0) hUd (fun i => by simp) (fun j _ => by simp)
      (fun i hi => by simp at hi) (fun hE => by simp at hE)
    have h0 : cs.sem.Dt 0 = 0 := (DtLin cs.sem H.valid.pwf).map_zero
    have h1 : (fun k => pderiv k (0 : MvPolynomial (Fin 2) ℝ) - C 1 * ∑ i, pderiv i (pderiv i (vortexU m r k))) = fun k => -vortexL m r k := by
      funext k
      rw [vortexU_lap, map_zero, map_one, one_mul, zero_sub]
    have h2 : nodal cs.vmesh (fun k => -vortexL m r k) = -nodal cs.vmesh (vortexL m r) := by
      funext j k
      unfold nodal
      simp only [Pi.neg_apply]
      split <;> simp
    rw [h1, h2, h0] at hw
    rw [← hBy x hx]
    have h3 : cs.sem.vDot x 0 = 0 := by simp [StokesSEM.vDot]
    have h4 : cs.sem.vDot x (cs.sem.B (-nodal cs.vmesh (vortexL m r))) = -cs.sem.vDot x (cs.sem.B (nodal cs.vmesh (vortexL m r))) := by
      unfold StokesSEM.vDot StokesSEM.B
      rw [← Finset.sum_neg_distrib]
      refine Finset.sum_congr rfl fun j _ => ?_
      rw [← Finset.sum_neg_distrib]
      refine Finset.sum_congr rfl fun k _ => ?_
      rw [Pi.neg_apply, Pi.neg_apply]
      ring
    rw [h3, h4] at hw
    linarith
  · have hw := h.weak hn (by omega) hb hyT (mu := 0) (U := 0) (Q := vortexQ m r) (q := q) (fun k i => by simp) hQd
      (fun j _ => by rw [hq]) (fun i hi => by simp at hi) (fun hE => by simp at hE)
    have h1 : (fun k => pderiv k (vortexQ m r) - C 0 * ∑ i, pderiv i (pderiv i ((0 : Fin 2 → MvPolynomial (Fin 2) ℝ) k))) =
        fun k => pderiv k (vortexQ m r) := by
      funext k
      simp
    rw [h1, zero_mul, zero_sub, B_dot H.valid (VSpace_masked hyT.1), hnv] at hw
    have hGd : ∀ k i, (pderiv k (vortexQ m r)).degreeOf i ≤ p - 1 := fun k i =>
      (degreeOf_pderiv_le k i _).trans ((hQd i).trans (by omega))
    -- the sum over all nodes is the flux through the walls
    have hall : ∑ j ∈ Finset.range cs.vmesh.numNodes, ∑ k, cs.sem.massDiag j k *
        (nodal cs.vmesh (fun k => pderiv k (vortexQ m r)) j k * nodal cs.vmesh (vortexL m r) j k) = 0 := by
      rw [← massForm_eq H, h.mass_prod hn hb (by omega) (h.nodal_field fun k i => (hLd k i).trans (by omega))
        (h.nodal_field fun k i => (hGd k i).trans (by omega)) (fun k _ i => hGd k i)]
      have hpoly : ∑ k, vortexL m r k * pderiv k (vortexQ m r) = ∑ k, pderiv k (vortexL m r k * vortexQ m r) := by
        have e : ∀ k, pderiv k (vortexL m r k * vortexQ m r) = vortexL m r k * pderiv k (vortexQ m r) + vortexQ m r * pderiv k (vortexL m r k) :=
          fun k => by rw [Derivation.leibniz, smul_eq_mul, smul_eq_mul]
        simp only [e]
        rw [Finset.sum_add_distrib, ← Finset.mul_sum, vortexL_div, mul_zero, add_zero]
      have hint : ∀ e (P : MvPolynomial (Fin 2) ℝ), IntegrableOn (fun x => eval x P)
        (CubeCells.cell n 2 a ((b - a) / (2 * n)) e) := fun e P => integrableOn_eval _ _ P
      rw [hpoly]
      simp only [map_sum]
      rw [Finset.sum_congr rfl fun e _ => integral_finsetSum _ (fun k _ => hint e _), Finset.sum_comm]
      refine Finset.sum_eq_zero fun k _ => ?_
      have hQf := h.nodal_field (U := fun _ => vortexQ m r) (fun _ i => (hQd i).trans (by omega)) k
      exact h.flux_zero hn hb hQf (fun i hi j hj hs => by
          beta_reduce
          unfold nodal
          rw [if_pos hi, if_pos hj, hsame i hi j hj hs])
        (fun j hj hD => by
          obtain ⟨κ, hκ⟩ := (hDir j hj).mp hD
          beta_reduce
          unfold nodal
          rw [if_pos hj]
          exact (vortex_zero m r _ κ hκ).2) k (fun hi => by simp at hi) (fun hE => by simp at hE)
    -- the walls
    have hcomp : ∀ j < cs.vmesh.numNodes, ∀ k : Fin 2, cs.sem.massDiag j k = cs.sem.massDiag j 0 := by
      intro j _ k
      obtain ⟨mask, _, hc⟩ := H.create
      obtain ⟨_, _, _, _, _, hmd⟩ := StokesSEM.create_fields hc
      obtain ⟨_, _, hvm', _, _, hid, hnq⟩ := H.fields
      rw [hmd]
      unfold vScatter
      rw [Mesh.scatter_apply, Mesh.scatter_apply]
      refine Finset.sum_congr rfl fun m' hm' => Finset.sum_congr rfl fun n' hn' => ?_
      rw [Finset.mem_range] at hm' hn'
      rw [massCovector cs.sem.vspace hid (by rw [hvm']; exact hnq) m' n' (by rw [hvm']; exact hm') (by rw [hvm']; exact hn'),
        massCovector cs.sem.vspace hid (by rw [hvm']; exact hnq) m' n' (by rw [hvm']; exact hm') (by rw [hvm']; exact hn')]
    have hsplit : cs.sem.vDot y (cs.sem.Dt q) = ∑ j ∈ Finset.range cs.vmesh.numNodes,
        if DirichletNode cs.masks [("boundary", .dirichlet)] j then cs.sem.massDiag j 0 *
          ∑ k, eval (cs.vmesh.coords j) (vortexL m r k) * eval (cs.vmesh.coords j) (pderiv k (vortexQ m r)) else 0 := by
      have e : cs.sem.vDot y (cs.sem.Dt q) = (∑ j ∈ Finset.range cs.vmesh.numNodes, ∑ k, cs.sem.massDiag j k *
          (nodal cs.vmesh (fun k => pderiv k (vortexQ m r)) j k * nodal cs.vmesh (vortexL m r) j k)) -
          ∑ j ∈ Finset.range cs.vmesh.numNodes, ∑ k, cs.sem.massDiag j k *
            (y j k * nodal cs.vmesh (fun k => pderiv k (vortexQ m r)) j k) := by
        rw [hall]
        linarith
      rw [e, ← Finset.sum_sub_distrib]
      refine Finset.sum_congr rfl fun j hj => ?_
      rw [Finset.mem_range] at hj
      rw [← Finset.sum_sub_distrib, hy]
      beta_reduce
      by_cases g : DirichletNode cs.masks [("boundary", .dirichlet)] j
      · rw [if_pos g, if_pos g, Finset.mul_sum]
        refine Finset.sum_congr rfl fun k _ => ?_
        unfold nodal
        rw [if_pos hj, if_pos hj, hcomp j hj k, Pi.zero_apply, zero_mul, mul_zero, sub_zero]
        ring
      · rw [if_neg g, if_neg g]
        refine Finset.sum_eq_zero fun k _ => ?_
        ring
    rw [hsplit]
    have hnn : ∀ j ∈ Finset.range cs.vmesh.numNodes, 0 ≤ if DirichletNode cs.masks [("boundary", .dirichlet)] j then cs.sem.massDiag j 0 *
          ∑ k, eval (cs.vmesh.coords j) (vortexL m r k) * eval (cs.vmesh.coords j) (pderiv k (vortexQ m r)) else 0 := by
      intro j hj
      rw [Finset.mem_range] at hj
      split
      · rename_i g
        obtain ⟨κ, hκ⟩ := (hDir j hj).mp g
        rw [vortex_wall m r _ κ hκ]
        have h2 := hin j hj (1 - κ)
        have h3 : 0 ≤ (r ^ 2 - (cs.vmesh.coords j (1 - κ) - m) ^ 2) ^ 3 := pow_nonneg (by linarith) 3
        exact mul_nonneg (H.massPos j hj 0).le (mul_nonneg (by positivity) h3)
      · exact le_rfl
    obtain ⟨j, hj, w1, w2, w3, w4⟩ := h.exists_wall_node hn (by omega)
    refine lt_of_lt_of_le ?_ (Finset.single_le_sum hnn (Finset.mem_range.mpr hj))
    have hκ : (cs.vmesh.coords j 0 - m) ^ 2 = r ^ 2 := by rw [w1, hm, hr]; ring
    rw [if_pos ((hDir j hj).mpr ⟨0, hκ⟩), vortex_wall m r _ 0 hκ, sub_zero]
    have h5 : cs.vmesh.coords j 1 - m ≠ 0 := sub_ne_zero.mpr (by rw [hm]; exact w4)
    have h6 : 0 < r ^ 2 - (cs.vmesh.coords j 1 - m) ^ 2 := by
      have e : r ^ 2 - (cs.vmesh.coords j 1 - m) ^ 2 = (cs.vmesh.coords j 1 - a) * (b - cs.vmesh.coords j 1) := by rw [hm, hr]; ring
      rw [e]
      exact mul_pos (by linarith) (by linarith)
    exact mul_pos (H.massPos j hj 0) (by positivity)

end CubeSEM

end Verif.NS
