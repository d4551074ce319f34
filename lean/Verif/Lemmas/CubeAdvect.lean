import Verif.Lemmas.CubeMomentum
import Mathlib.MeasureTheory.Integral.IntervalIntegral.Basic

/-!
# The total of the convection operator on the mesh of a cube
-/

namespace Verif.NS

open Verif.Core Verif.Spec Verif.Linalg MeasureTheory MvPolynomial

variable {n d p over : ℕ} {a b : ℝ} {per : List ℕ} {bcs : List (String × BCType)} {cs : CubeStokes d}

/-! ### Polynomials of one reference coordinate -/

/-- A polynomial of one variable in the reference coordinate along axis `j` of a cell with centre `m` and half width `c`. -/
noncomputable def refPoly (f : Polynomial ℝ) (c m : ℝ) (j : Fin d) : MvPolynomial (Fin d) ℝ :=
  Polynomial.aeval (C (1 / c) * (X j - C m)) f

theorem refPoly_eval (f : Polynomial ℝ) (c m : ℝ) (j : Fin d) (x : Fin d → ℝ) :
    eval x (refPoly f c m j) = f.eval ((x j - m) / c) := by
  unfold refPoly
  induction f using Polynomial.induction_on' with
  | add f g hf hg => rw [map_add, map_add, hf, hg, Polynomial.eval_add]
  | monomial i r =>
    rw [Polynomial.aeval_monomial, Polynomial.eval_monomial, map_mul, map_pow, map_mul, map_sub, eval_X, eval_C, eval_C,
      algebraMap_eq, eval_C]
    ring

theorem refPoly_degree (f : Polynomial ℝ) (c m : ℝ) (j k : Fin d) :
    (refPoly f c m j).degreeOf k ≤ if j = k then f.natDegree else 0 := by
  unfold refPoly
  rw [Polynomial.aeval_eq_sum_range]
  refine (degreeOf_sum_le _ _ _).trans (Finset.sup_le fun e he => ?_)
  rw [smul_eq_C_mul]
  refine (degreeOf_C_mul_le _ _ _).trans ((degreeOf_pow_le _ _ _).trans ?_)
  have h1 := (degreeOf_C_mul_le (X j - C m : MvPolynomial (Fin d) ℝ) k (1 / c)).trans (degreeOf_lin j k m)
  have h2 : e ≤ f.natDegree := by rw [Finset.mem_range] at he; omega
  split at h1
  · rw [if_pos (by assumption)]
    calc _ ≤ e * 1 := Nat.mul_le_mul_left e h1
      _ ≤ _ := by omega
  · rw [if_neg (by assumption)]
    calc _ ≤ e * 0 := Nat.mul_le_mul_left e h1
      _ ≤ _ := by omega

theorem refPoly_pderiv (f : Polynomial ℝ) (c m : ℝ) (j k : Fin d) :
    pderiv k (refPoly f c m j) = if j = k then C (1 / c) * refPoly (Polynomial.derivative f) c m j else 0 := by
  unfold refPoly
  have : pderiv k (C (1 / c) * (X j - C m) : MvPolynomial (Fin d) ℝ) = if j = k then C (1 / c) else 0 := by
    rw [pderiv_C_mul, map_sub, pderiv_C, sub_zero, pderiv_X]
    by_cases h : j = k
    · subst h; simp
    · rw [if_neg h, Pi.single_eq_of_ne h]
      simp
  rw [Derivation.map_aeval, this, smul_eq_mul]
  split
  · ring
  · ring

/-- The integral over a cell of a product. -/
theorem integral_refPoly {c : ℝ} (hc : 0 < c) (e : ℕ) (f : Fin d → Polynomial ℝ) :
    ∫ x in CubeCells.cell n d a c e, eval x (∏ j, refPoly (f j) c (centre n d a c e j) j) = c ^ d * ∏ j, integ (f j) := by
  unfold CubeCells.cell
  rw [← integral_affSub hc]
  congr 1
  have : ∀ x : Fin d → ℝ, eval x (affSub c (centre n d a c e) (∏ j, refPoly (f j) c (centre n d a c e j) j)) =
      ∏ j, (fun t => (f j).eval t) (x j) := by
    intro x
    rw [eval_affSub, map_prod]
    refine Finset.prod_congr rfl fun j _ => ?_
    rw [refPoly_eval, add_sub_cancel_right, mul_div_cancel_left₀ _ hc.ne']
  simp only [this]
  exact Verif.Core.integral_cube_prod fun j t => (f j).eval t

/-- A polynomial of one coordinate that is orthogonal to all polynomials of low degree. -/
theorem integral_refPoly_orth {c : ℝ} (hc : 0 < c) (e : ℕ) (f : Polynomial ℝ) (j : Fin d) {Q : MvPolynomial (Fin d) ℝ} {m : ℕ}
    (hQ : Q.degreeOf j < m) (hf : ∀ i < m, integ (f * Polynomial.X ^ i) = 0) :
    ∫ x in CubeCells.cell n d a c e, eval x (refPoly f c (centre n d a c e j) j * Q) = 0 := by
  unfold CubeCells.cell
  rw [← integral_affSub hc]
  obtain ⟨R, hR⟩ : ∃ R, R = affSub c (centre n d a c e) Q := ⟨_, rfl⟩
  have hRd : R.degreeOf j < m := by rw [hR]; exact lt_of_le_of_lt (degreeOf_affSub _ _ _ _) hQ
  have : ∀ x : Fin d → ℝ, eval x (affSub c (centre n d a c e) (refPoly f c (centre n d a c e j) j * Q)) =
      ∑ s ∈ R.support, R.coeff s * ∏ k, (fun t => (if k = j then f.eval t else 1) * t ^ s k) (x k) := by
    intro x
    rw [eval_affSub, map_mul, ← eval_affSub c (centre n d a c e) x Q, ← hR, refPoly_eval, add_sub_cancel_right,
      mul_div_cancel_left₀ _ hc.ne', eval_eq', Finset.mul_sum]
    refine Finset.sum_congr rfl fun s _ => ?_
    beta_reduce
    rw [Finset.prod_mul_distrib, Finset.prod_ite_eq' Finset.univ j, if_pos (Finset.mem_univ j)]
    ring
  simp only [this]
  rw [integral_finsetSum _ fun s _ => Continuous.integrableOn_Icc (by
    refine continuous_const.mul (continuous_finsetProd _ fun k _ => ?_)
    split
    · exact (f.continuous.comp (continuous_apply k)).mul ((continuous_apply k).pow _)
    · exact continuous_const.mul ((continuous_apply k).pow _))]
  rw [Finset.sum_eq_zero, mul_zero]
  intro s hs
  rw [integral_const_mul, Verif.Core.integral_cube_prod (fun k t => (if k = j then f.eval t else 1) * t ^ s k),
    Finset.prod_eq_zero (Finset.mem_univ j), mul_zero]
  have h1 := hf (s j) (lt_of_le_of_lt (monomial_le_degreeOf j hs) hRd)
  rw [integ_apply] at h1
  simp only [if_true]
  simpa using h1

namespace CubeSEM

variable {vnode pnode : ℕ → ℕ → ℕ} {l : List ℝ}

/-- The total of the convection operator. -/
theorem conv_total (h : CubeSEM n d p a b per [] cs vnode pnode l) (hcs : cubeStokes n d p over a b per [] = .ok cs)
    (hover1 : 1 ≤ over) (hn : 1 ≤ n) {u : Vel ℝ d} {U : Fin d → ℕ → MvPolynomial (Fin d) ℝ}
    (hU : ∀ k, CellField cs.vmesh p (fun j => u j k) (U k)) (k : Fin d) :
    ∑ j ∈ Finset.range cs.vmesh.numNodes, cs.sem.C u j k = ∑ e ∈ Finset.range (n ^ d),
      ∫ y in CubeCells.cell n d a ((b - a) / (2 * n)) e, eval y (∑ j, U j e * pderiv j (U k e)) := by
  have hb : CubeBCs d per [] := Or.inr rfl
  have H := h.setup hn hb
  have hC := h.vcube.cells
  obtain ⟨hover, hom⟩ := H.over
  obtain ⟨_, _, hvm, _, hmask, _, _⟩ := H.fields
  have hob := (FESpace.create_build hover).1
  have ho := (cubeStokes_grids hcs).2
  obtain ⟨oq, ol, o1, _, o3, o4, o5, o6, _⟩ := gllQuadrature_spec (m := p + over) (by omega)
  rw [show p + over + 1 = p + 1 + over by omega, ho, Option.some.injEq] at o1
  subst o1
  have hx := h.unitVel_mem hn k
  rw [← h.unitVel_dot hn hb]
  have h1 : cs.sem.vDot (unitVel cs k) (cs.sem.C u) =
      vConvForm cs.sem.overint (vGather cs.vmesh u) (vGather cs.vmesh (unitVel cs k)) := by
    rw [← C_dot H _ _ (fun j hD => hx.1 j (Or.inr ((hmask j).1 hD)))]
    unfold StokesSEM.vDot StokesSEM.numV
    rw [hvm]
  rw [h1]
  unfold vConvForm
  apply hC.toAffCells.integrate hob o6 (o3.trans o4.symm) (o5 d)
  · intro e he i
    refine le_trans (degreeOf_sum_le _ _ _) (Finset.sup_le fun j _ => le_trans (degreeOf_mul_le i _ _) ?_)
    have g1 := (hU j e (by rw [hC.num]; exact he)).1 i
    have g2 := (hU k e (by rw [hC.num]; exact he)).1 i
    have g3 := degreeOf_pderiv_le j i (U k e)
    omega
  · intro e he q hq
    rw [Finset.sum_comm, map_sum, Finset.sum_eq_single k]
    · refine Finset.sum_congr rfl fun j _ => ?_
      have e1 := h.over_value hob (hU j) he hq
      have e2 := hC.toAffCells.scalarGrad hob (hU k) he hq j
      have e3 := h.over_value hob (h.unitVel_field k k) he hq
      rw [if_pos rfl, map_one] at e3
      rw [map_mul, ← e1, ← e2]
      refine Eq.trans ?_ (mul_one _)
      rw [← e3]
      rfl
    · intro i _ hi
      refine Finset.sum_eq_zero fun j _ => ?_
      have e3 := h.over_value hob (h.unitVel_field k i) he hq
      rw [if_neg hi, map_zero] at e3
      exact mul_eq_zero_of_right _ e3
    · intro hk; exact absurd (Finset.mem_univ k) hk

/-- Velocity components agree on the faces between cells, across the ends of periodic axes too. -/
theorem face_cyclic (h : CubeSEM n d p a b per [] cs vnode pnode l) (hn : 1 ≤ n) {k : Fin d} (hk : (k : ℕ) ∈ per)
    {v : ℕ → ℝ} {V : ℕ → MvPolynomial (Fin d) ℝ} (hV : CellField cs.vmesh p v V) (hcont : Verif.NS.Continuous cs.vmesh v)
    {e e' : ℕ} (he : e < n ^ d) (he' : e' < n ^ d) (hd : digit n d k e' = (digit n d k e + 1) % n)
    (ho : ∀ j : Fin d, j ≠ k → digit n d j e' = digit n d j e) :
    faceSub k (centre n d a ((b - a) / (2 * n)) e k + (b - a) / (2 * n)) (V e) =
      faceSub k (centre n d a ((b - a) / (2 * n)) e' k - (b - a) / (2 * n)) (V e') := by
  have hC := h.vcube.cells
  have hu := upper (a := a) (b := b) hn
  have hlt : digit n d k e < n := Verif.Common.digit_lt _ _ _ _ hn
  by_cases hlast : digit n d k e + 1 = n
  · rw [hlast, Nat.mod_self] at hd
    have := h.face_wrap hn (Or.inr rfl) hV hcont (fun j hj hD => by obtain ⟨g, m, h1, _⟩ := hD; simp at h1) k (Or.inr hk) he he' hlast hd ho
    have hb1 : centre n d a ((b - a) / (2 * n)) e k + (b - a) / (2 * n) = b := by
      have : (n : ℝ) = (digit n d k e : ℝ) + 1 := by exact_mod_cast hlast.symm
      unfold centre
      conv_rhs => rw [hu]
      set c := (b - a) / (2 * (n : ℝ))
      rw [this]; ring
    have hb0 : centre n d a ((b - a) / (2 * n)) e' k - (b - a) / (2 * n) = a := by
      unfold centre
      rw [hd]; push_cast; ring
    rw [hb1, hb0]
    exact this
  · rw [Nat.mod_eq_of_lt (by omega)] at hd
    have := hC.face_match hV k he he' hd ho
    have ht : centre n d a ((b - a) / (2 * n)) e' k - (b - a) / (2 * n) =
        centre n d a ((b - a) / (2 * n)) e k + (b - a) / (2 * n) := by
      unfold centre; rw [hd]; push_cast; ring
    rw [ht]
    exact this

/-- Integration by parts of the convection term on a periodic cube. -/
theorem conv_parts (h : CubeSEM n d p a b per [] cs vnode pnode l) (hn : 1 ≤ n) (hper : ∀ k : Fin d, (k : ℕ) ∈ per) {u : Vel ℝ d}
    {U : Fin d → ℕ → MvPolynomial (Fin d) ℝ} (hU : ∀ k, CellField cs.vmesh p (fun j => u j k) (U k))
    (hcont : ∀ k, Verif.NS.Continuous cs.vmesh (fun j => u j k)) (k : Fin d) :
    ∑ e ∈ Finset.range (n ^ d), ∫ y in CubeCells.cell n d a ((b - a) / (2 * n)) e, eval y (∑ j, U j e * pderiv j (U k e)) =
      - ∑ e ∈ Finset.range (n ^ d), ∫ y in CubeCells.cell n d a ((b - a) / (2 * n)) e, eval y ((∑ j, pderiv j (U j e)) * U k e) := by
  have hC := h.vcube.cells
  have hint : ∀ e (P : MvPolynomial (Fin d) ℝ), IntegrableOn (fun x => eval x P)
    (CubeCells.cell n d a ((b - a) / (2 * n)) e) := fun e P => integrableOn_eval _ _ P
  have h0 : ∀ j, ∑ e ∈ Finset.range (n ^ d), ∫ y in CubeCells.cell n d a ((b - a) / (2 * n)) e,
      eval y (pderiv j (U j e * U k e)) = 0 := by
    intro j
    refine flux_cyclic hC.width hn j (fun e => U j e * U k e) fun e he e' he' hd ho => ?_
    beta_reduce
    rw [faceSub_mul, faceSub_mul, h.face_cyclic hn (hper j) (hU j) (hcont j) he he' hd ho,
      h.face_cyclic hn (hper j) (hU k) (hcont k) he he' hd ho]
  rw [eq_neg_iff_add_eq_zero, ← Finset.sum_add_distrib]
  refine Eq.trans ?_ (Finset.sum_eq_zero (fun (j : Fin d) (_ : j ∈ Finset.univ) => h0 j))
  rw [Finset.sum_comm]
  refine Finset.sum_congr rfl fun e _ => ?_
  rw [← integral_add (hint e _) (hint e _), ← integral_finsetSum _ (fun j _ => hint e _)]
  congr 1
  funext y
  rw [← map_add, ← map_sum]
  congr 1
  rw [Finset.sum_mul, ← Finset.sum_add_distrib]
  refine Finset.sum_congr rfl fun j _ => ?_
  rw [Derivation.leibniz, smul_eq_mul, smul_eq_mul]
  ring

/-! ### Velocities that repeat in every cell -/

/-- A function of one variable that is the polynomial `f` on every cell of a row. -/
noncomputable def rowFn (f : Polynomial ℝ) (a c y : ℝ) : ℝ := f.eval ((y - a) / c - 2 * ⌊(y - a) / (2 * c)⌋ - 1)

theorem rowFn_eq {f : Polynomial ℝ} (h0 : f.eval (-1) = 0) (h1 : f.eval 1 = 0) {a c : ℝ} (hc : 0 < c) (E : ℕ) {s : ℝ} (hs : -1 ≤ s)
    (hs' : s ≤ 1) : rowFn f a c (c * s + (a + c * (2 * E + 1))) = f.eval s := by
  have e1 : (c * s + (a + c * (2 * E + 1)) - a) / c = s + 2 * E + 1 := by field_simp; ring
  have e2 : (c * s + (a + c * (2 * E + 1)) - a) / (2 * c) = (s + 1) / 2 + E := by field_simp; ring
  unfold rowFn
  rw [e1, e2]
  rcases hs'.eq_or_lt with rfl | hlt
  · have : ⌊((1 : ℝ) + 1) / 2 + E⌋ = (E : ℤ) + 1 := by
      rw [Int.floor_eq_iff]; push_cast; constructor <;> linarith
    rw [this]
    push_cast
    rw [show (1 : ℝ) + 2 * E + 1 - 2 * (E + 1) - 1 = -1 by ring, h0, h1]
  · have : ⌊(s + 1) / 2 + E⌋ = (E : ℤ) := by
      rw [Int.floor_eq_iff]; push_cast; constructor <;> linarith
    rw [this]
    push_cast
    rw [show s + 2 * E + 1 - 2 * E - 1 = s by ring]

/-- Products of polynomials that vanish at the ends of every cell are velocities. -/
theorem exists_row_vel (h : CubeSEM n d p a b per [] cs vnode pnode l) (hn : 1 ≤ n) (f : Fin d → Fin d → Polynomial ℝ)
    (hf0 : ∀ k j, (f k j).eval (-1) = 0) (hf1 : ∀ k j, (f k j).eval 1 = 0) (hfd : ∀ k j, (f k j).natDegree ≤ p) :
    ∃ u ∈ TSpace cs.sem, ∀ k, CellField cs.vmesh p (fun j => u j k)
      (fun e => ∏ j, refPoly (f k j) ((b - a) / (2 * n)) (centre n d a ((b - a) / (2 * n)) e j) j) := by
  classical
  have hb : CubeBCs d per [] := Or.inr rfl
  have H := h.setup hn hb
  have hC := h.vcube.cells
  have hc := hC.width
  obtain ⟨_, _, hvm, _, hmask, _, _⟩ := H.fields
  obtain ⟨c, hcd⟩ : ∃ c, c = (b - a) / (2 * n) := ⟨_, rfl⟩
  rw [← hcd] at hC hc ⊢
  have hcn : b = a + c * (2 * n) := by
    rw [hcd]
    have : (0 : ℝ) < n := by exact_mod_cast hn
    field_simp
    ring
  have ha : ∀ k j, rowFn (f k j) a c a = 0 := by
    intro k j
    have := rowFn_eq (hf0 k j) (hf1 k j) (a := a) hc 0 (le_refl (-1 : ℝ)) (by norm_num)
    rw [hf0] at this
    rw [← this]
    congr 1
    push_cast
    ring
  have hbz : ∀ k j, rowFn (f k j) a c b = 0 := by
    intro k j
    have := rowFn_eq (hf0 k j) (hf1 k j) (a := a) hc (n - 1) (by norm_num : (-1 : ℝ) ≤ 1) le_rfl
    rw [hf1] at this
    rw [← this, hcn]
    congr 1
    push_cast [Nat.cast_sub hn]
    ring
  refine ⟨fun i k => if i < cs.vmesh.numNodes then ∏ j, rowFn (f k j) a c (cs.vmesh.coords i j) else 0,
    ⟨(H.mem_VSpace _).mpr ⟨fun j hj => ?_, fun j hj => ?_⟩, fun k x hx y hy hs => ?_⟩, fun k e he => ⟨fun i => ?_, fun i hi w hw => ?_⟩⟩
  · obtain ⟨g, m, hg, _⟩ := hj
    simp at hg
  · funext k
    exact if_neg (by omega)
  · rw [hvm] at hx hy hs
    beta_reduce
    rw [if_pos hx, if_pos hy]
    by_cases hall : ∀ j, cs.vmesh.coords x j = cs.vmesh.coords y j
    · rw [funext hall]
    · push Not at hall
      obtain ⟨j, hj⟩ := hall
      rcases (h.same_iff hx hy).mp hs j with g | ⟨_, ⟨g1, g2⟩ | ⟨g1, g2⟩⟩
      · exact absurd g hj
      · rw [Finset.prod_eq_zero (Finset.mem_univ j) (by rw [g1, ha]), Finset.prod_eq_zero (Finset.mem_univ j) (by rw [g2, hbz])]
      · rw [Finset.prod_eq_zero (Finset.mem_univ j) (by rw [g1, hbz]), Finset.prod_eq_zero (Finset.mem_univ j) (by rw [g2, ha])]
  · refine le_trans (degreeOf_prod_le _ _ _) ?_
    refine le_trans (Finset.sum_le_sum fun j _ => refPoly_degree (f k j) _ _ j i) ?_
    rw [Finset.sum_ite_eq' Finset.univ i, if_pos (Finset.mem_univ i)]
    exact hfd k i
  · rw [hC.num] at he
    obtain rfl := h.node_lt he hi hw
    beta_reduce
    rw [if_pos (hC.lt e he i hi), map_prod]
    refine Finset.prod_congr rfl fun j _ => ?_
    rw [refPoly_eval, hC.coords e he i hi j]
    have hbound : -1 ≤ gridPoint d cs.vmesh.grid.value i j ∧ gridPoint d cs.vmesh.grid.value i j ≤ 1 := by
      rw [hC.grid]
      exact hC.within _ (Verif.Common.digit_lt _ _ _ _ (by omega))
    rw [add_sub_cancel_right, mul_div_cancel_left₀ _ hc.ne']
    exact (rowFn_eq (hf0 k j) (hf1 k j) hc _ hbound.1 hbound.2).symm

/-- A velocity whose divergence is orthogonal to the pressures in every cell has no discrete divergence. -/
theorem div_orth_cells (h : CubeSEM n d p a b per bcs cs vnode pnode l) (hn : 1 ≤ n) (hp : 3 ≤ p) (hb : CubeBCs d per bcs)
    {u : Vel ℝ d} {U : Fin d → ℕ → MvPolynomial (Fin d) ℝ} (hU : ∀ k, CellField cs.vmesh p (fun j => u j k) (U k))
    (hdiv : ∀ e < n ^ d, ∀ Q : MvPolynomial (Fin d) ℝ, (∀ k, Q.degreeOf k ≤ p - 2) →
      ∫ x in CubeCells.cell n d a ((b - a) / (2 * n)) e, eval x ((∑ k, pderiv k (U k e)) * Q) = 0) : cs.sem.D u = 0 := by
  classical
  have hv := (h.setup hn hb).valid
  funext j
  by_cases hj : j < cs.sem.numP
  · obtain ⟨Q, hQ⟩ := h.pcube.exists_field (fun i => if i = j then 1 else 0)
    have h1 := D_dot hv.pwf hv.prange u (fun i => if i = j then (1 : ℝ) else 0)
    rw [h.div_integral hp hU hQ] at h1
    unfold nodeDot at h1
    rw [Finset.sum_eq_single j (fun i _ hij => by beta_reduce; rw [if_neg hij, zero_mul])
      (fun hn => absurd (Finset.mem_range.mpr hj) hn)] at h1
    beta_reduce at h1
    rw [if_pos rfl, one_mul] at h1
    rw [h1]
    refine Finset.sum_eq_zero fun e he => hdiv e (Finset.mem_range.mp he) _ fun k => ?_
    exact (hQ e (by rw [h.pcube.num]; exact Finset.mem_range.mp he)).1 k
  · exact D_outside cs.sem _ j (not_lt.mp hj)

end CubeSEM

/-- The polynomials of the witness: `q` vanishes at the ends and its derivative is orthogonal to all lower degrees, `r`
vanishes at the ends and is not orthogonal to that derivative. -/
theorem exists_ref_polys (hp : 3 ≤ p) : ∃ q r : Polynomial ℝ, q.eval (-1) = 0 ∧ q.eval 1 = 0 ∧ r.eval (-1) = 0 ∧ r.eval 1 = 0 ∧
    q.natDegree ≤ p ∧ r.natDegree ≤ p ∧ (∀ i < p - 1, integ (Polynomial.derivative q * Polynomial.X ^ i) = 0) ∧
    integ (q * Polynomial.derivative q) = 0 ∧ integ (q * q) ≠ 0 ∧ integ (q * Polynomial.derivative r) ≠ 0 := by
  obtain ⟨N, rfl⟩ : ∃ N, p = N + 3 := ⟨p - 3, by omega⟩
  have hder : Polynomial.derivative (lobatto (N + 2)) = Polynomial.C (((N : ℝ) + 2) * (N + 3)) * legendre (N + 2) := by
    apply Polynomial.funext
    intro x
    rw [lobatto_derivative, Polynomial.eval_mul, Polynomial.eval_C]
    push_cast
    ring
  have hq1 : (lobatto (N + 2)).eval 1 = 0 := by unfold lobatto; simp
  have hq0 : (lobatto (N + 2)).eval (-1) = 0 := by unfold lobatto; simp
  have hr1 : (legendre (N + 2) - legendre N).eval 1 = 0 := by
    rw [Polynomial.eval_sub, legendre_one, legendre_one, sub_self]
  have hr0 : (legendre (N + 2) - legendre N).eval (-1) = 0 := by
    rw [Polynomial.eval_sub, legendre_neg, legendre_neg, legendre_one, legendre_one, pow_add]
    norm_num
  have hdeg : (lobatto (N + 2)).natDegree ≤ N + 3 := by
    unfold lobatto
    refine Polynomial.natDegree_mul_le.trans ?_
    have h1 : (Polynomial.X ^ 2 - 1 : Polynomial ℝ).natDegree ≤ 2 := by compute_degree
    have h2 : (Polynomial.derivative (legendre (N + 2))).natDegree = N + 1 := derivative_degree (N + 1)
    omega
  refine ⟨lobatto (N + 2), legendre (N + 2) - legendre N, hq0, hq1, hr0, hr1, hdeg, ?_, ?_, ?_, ?_, ?_⟩
  · refine (Polynomial.natDegree_sub_le _ _).trans (max_le ?_ ?_)
    · rw [legendre_natDegree]; omega
    · rw [legendre_natDegree]; omega
  · intro i hi
    rw [hder, mul_assoc, integ_C_mul, legendre_orth, mul_zero]
    refine lt_of_le_of_lt (Polynomial.degree_X_pow_le i) ?_
    exact_mod_cast (by omega : i < N + 2)
  · have := integ_parts (lobatto (N + 2)) (lobatto (N + 2)) (by rw [hq1, zero_mul]) (by rw [hq0, zero_mul])
    rw [mul_comm] at this
    linarith
  · have hne : lobatto (N + 2) ≠ 0 := by
      intro h0
      rw [h0, Polynomial.derivative_zero] at hder
      rcases mul_eq_zero.mp hder.symm with h1 | h1
      · rw [Polynomial.C_eq_zero] at h1
        exact absurd h1 (by positivity)
      · exact legendre_ne_zero _ h1
    rw [integ_apply]
    refine ne_of_gt (intervalIntegral.integral_pos (by norm_num) (Polynomial.continuous _).continuousOn (fun x _ => ?_) ?_)
    · rw [Polynomial.eval_mul]
      exact mul_self_nonneg _
    · by_contra hcon
      push Not at hcon
      refine hne (Polynomial.eq_zero_of_infinite_isRoot _ ((Set.Icc_infinite (by norm_num : (-1 : ℝ) < 1)).mono fun x hx => ?_))
      have := hcon x hx
      rw [Polynomial.eval_mul] at this
      exact mul_self_eq_zero.mp (le_antisymm this (mul_self_nonneg _))
  · have := integ_parts (lobatto (N + 2)) (legendre (N + 2) - legendre N) (by rw [hq1, zero_mul]) (by rw [hq0, zero_mul])
    intro h0
    rw [h0, neg_zero, hder, mul_assoc, integ_C_mul, mul_sub, map_sub, legendre_orthogonal (by omega : N + 2 ≠ N), sub_zero] at this
    have hn := legendre_norm (N + 2)
    rcases mul_eq_zero.mp this with h1 | h1
    · exact absurd h1 (by positivity)
    · rw [h1, mul_zero] at hn
      norm_num at hn

theorem refPoly_mul (f g : Polynomial ℝ) (c m : ℝ) (j : Fin d) : refPoly (f * g) c m j = refPoly f c m j * refPoly g c m j :=
  map_mul _ _ _

/-- A velocity without discrete divergence whose convection term has a total along the first axis. -/
theorem CubeSEM.exists_source {cs : CubeStokes 2} {vnode pnode : ℕ → ℕ → ℕ} {l : List ℝ} (h : CubeSEM n 2 p a b per [] cs vnode pnode l)
    (hcs : cubeStokes n 2 p over a b per [] = .ok cs) (hover : 1 ≤ over) (hn : 1 ≤ n) (hp : 3 ≤ p) :
    ∃ u ∈ TSpace cs.sem, cs.sem.D u = 0 ∧ ∑ j ∈ Finset.range cs.vmesh.numNodes, cs.sem.C u j 0 ≠ 0 := by
  have hc := h.vcube.cells.width
  obtain ⟨q, r, hq0, hq1, hr0, hr1, hqd, hrd, horth, hqq', hqq, hqr⟩ := exists_ref_polys hp
  obtain ⟨u, hu, hU⟩ := h.exists_row_vel hn (fun k j => if k = 0 ∧ j = 1 then r else q)
    (fun k j => by beta_reduce; split <;> assumption) (fun k j => by beta_reduce; split <;> assumption)
    (fun k j => by beta_reduce; split <;> assumption)
  obtain ⟨c, hcd⟩ : ∃ c, c = (b - a) / (2 * n) := ⟨_, rfl⟩
  rw [← hcd] at hU hc
  have hint : ∀ e (P : MvPolynomial (Fin 2) ℝ), IntegrableOn (fun x => eval x P) (CubeCells.cell n 2 a c e) :=
    fun e P => integrableOn_eval _ _ P
  have hp0 : ∀ e (k : Fin 2), ∏ j : Fin 2, refPoly (if k = 0 ∧ j = 1 then r else q) c (centre n 2 a c e j) j =
      refPoly q c (centre n 2 a c e 0) 0 * refPoly (if k = 0 then r else q) c (centre n 2 a c e 1) 1 := by
    intro e k
    rw [Fin.prod_univ_two]
    simp
  simp only [hp0] at hU
  refine ⟨u, hu, ?_, ?_⟩
  · refine h.div_orth_cells hn hp (Or.inr rfl) hU fun e _ Q hQ => ?_
    rw [← hcd]
    have hsum : (∑ k : Fin 2, pderiv k (refPoly q c (centre n 2 a c e 0) 0 * refPoly (if k = 0 then r else q) c (centre n 2 a c e 1) 1)) * Q =
        refPoly (Polynomial.derivative q) c (centre n 2 a c e 0) 0 * (C (1 / c) * (refPoly r c (centre n 2 a c e 1) 1 * Q)) +
        refPoly (Polynomial.derivative q) c (centre n 2 a c e 1) 1 * (C (1 / c) * (refPoly q c (centre n 2 a c e 0) 0 * Q)) := by
      rw [Fin.sum_univ_two]
      simp only [Derivation.leibniz, refPoly_pderiv, smul_eq_mul]
      simp
      ring
    rw [hsum]
    simp only [map_add]
    rw [integral_add (hint e _) (hint e _),
      integral_refPoly_orth hc e (Polynomial.derivative q) 0 (m := p - 1) ?_ horth,
      integral_refPoly_orth hc e (Polynomial.derivative q) 1 (m := p - 1) ?_ horth, add_zero]
    · have h1 := refPoly_degree q c (centre n 2 a c e 0) 0 (1 : Fin 2)
      have h2 := degreeOf_C_mul_le (refPoly q c (centre n 2 a c e 0) 0 * Q) (1 : Fin 2) (1 / c)
      have h3 := degreeOf_mul_le (1 : Fin 2) (refPoly q c (centre n 2 a c e 0) 0) Q
      rw [if_neg (by decide)] at h1
      have h5 : 0 + (p - 2) < p - 1 := by omega
      exact lt_of_le_of_lt (h2.trans (h3.trans (add_le_add h1 (hQ 1)))) h5
    · have h1 := refPoly_degree r c (centre n 2 a c e 1) 1 (0 : Fin 2)
      have h2 := degreeOf_C_mul_le (refPoly r c (centre n 2 a c e 1) 1 * Q) (0 : Fin 2) (1 / c)
      have h3 := degreeOf_mul_le (0 : Fin 2) (refPoly r c (centre n 2 a c e 1) 1) Q
      rw [if_neg (by decide)] at h1
      have h5 : 0 + (p - 2) < p - 1 := by omega
      exact lt_of_le_of_lt (h2.trans (h3.trans (add_le_add h1 (hQ 0)))) h5
  · rw [h.conv_total hcs hover hn hU 0, ← hcd]
    have hcell : ∀ e, ∫ y in CubeCells.cell n 2 a c e, eval y (∑ j : Fin 2,
        refPoly q c (centre n 2 a c e 0) 0 * refPoly (if j = 0 then r else q) c (centre n 2 a c e 1) 1 *
          pderiv j (refPoly q c (centre n 2 a c e 0) 0 * refPoly (if (0 : Fin 2) = 0 then r else q) c (centre n 2 a c e 1) 1)) =
        c * (integ (q * q) * integ (q * Polynomial.derivative r)) := by
      intro e
      have hsum : (∑ j : Fin 2, refPoly q c (centre n 2 a c e 0) 0 * refPoly (if j = 0 then r else q) c (centre n 2 a c e 1) 1 *
          pderiv j (refPoly q c (centre n 2 a c e 0) 0 * refPoly (if (0 : Fin 2) = 0 then r else q) c (centre n 2 a c e 1) 1)) =
          C (1 / c) * (∏ j : Fin 2, refPoly (![q * Polynomial.derivative q, r * r] j) c (centre n 2 a c e j) j) +
          C (1 / c) * (∏ j : Fin 2, refPoly (![q * q, q * Polynomial.derivative r] j) c (centre n 2 a c e j) j) := by
        rw [Fin.sum_univ_two, Fin.prod_univ_two, Fin.prod_univ_two]
        simp only [Derivation.leibniz, refPoly_pderiv, smul_eq_mul, Matrix.cons_val_zero, Matrix.cons_val_one, refPoly_mul]
        simp
        ring
      rw [hsum]
      simp only [map_add]
      rw [integral_add (hint e _) (hint e _)]
      simp only [map_mul, eval_C]
      rw [integral_const_mul, integral_const_mul, integral_refPoly hc, integral_refPoly hc, Fin.prod_univ_two, Fin.prod_univ_two]
      simp only [Matrix.cons_val_zero, Matrix.cons_val_one]
      rw [hqq']
      field_simp
      ring
    rw [Finset.sum_congr rfl fun e _ => hcell e, Finset.sum_const, Finset.card_range, nsmul_eq_mul]
    refine mul_ne_zero ?_ (mul_ne_zero hc.ne' (mul_ne_zero hqq hqr))
    exact_mod_cast (Nat.pow_pos hn).ne'

end Verif.NS
