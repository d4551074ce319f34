import Verif.Lemmas.CubeClosed
import Mathlib.Algebra.MvPolynomial.Funext
import Mathlib.MeasureTheory.Measure.OpenPos

/-!
# Velocities supported in one cell or in two neighbouring cells
-/

namespace Verif.NS

open Verif.Core Verif.Spec MeasureTheory MvPolynomial

/-! ### Functions of one variable -/

/-- A parabola over the interval of half width `c` around `m`, zero elsewhere. -/
noncomputable def bump (c m t : ℝ) : ℝ := max 0 (c ^ 2 - (t - m) ^ 2)

/-- A hat of half width `w` at `f`. -/
noncomputable def hat (w f t : ℝ) : ℝ := max 0 (w - |t - f|)

/-- Middle of interval `E` of a grid of width `2 c` with lower end `a`. -/
noncomputable def mid (a c : ℝ) (E : ℕ) : ℝ := a + c * (2 * E + 1)

variable {a c t : ℝ} {E F : ℕ}

theorem bump_self (ht : mid a c E - c ≤ t ∧ t ≤ mid a c E + c) : bump c (mid a c E) t = c ^ 2 - (t - mid a c E) ^ 2 := by
  unfold bump
  rw [max_eq_right]
  nlinarith [ht.1, ht.2]

theorem bump_zero (hc : 0 ≤ c) {m t : ℝ} (h : c ≤ |t - m|) : bump c m t = 0 := by
  unfold bump
  rw [max_eq_left]
  have := pow_le_pow_left₀ hc h 2
  rw [sq_abs] at this
  linarith

theorem bump_other (hc : 0 < c) (hEF : E ≠ F) (ht : mid a c E - c ≤ t ∧ t ≤ mid a c E + c) : bump c (mid a c F) t = 0 := by
  apply bump_zero hc.le
  unfold mid at *
  rcases Nat.lt_or_gt_of_ne hEF with h | h
  · have h1 : (E : ℝ) + 1 ≤ F := by exact_mod_cast h
    have h2 := mul_le_mul_of_nonneg_left h1 hc.le
    rw [abs_of_nonpos] <;> linarith [ht.1, ht.2]
  · have h1 : (F : ℝ) + 1 ≤ E := by exact_mod_cast h
    have h2 := mul_le_mul_of_nonneg_left h1 hc.le
    rw [abs_of_nonneg] <;> linarith [ht.1, ht.2]

/-- The hat at grid line `G` has half width `2 c`. -/
noncomputable def gridHat (a c : ℝ) (G : ℕ) (t : ℝ) : ℝ := hat (2 * c) (a + 2 * c * G) t

theorem gridHat_left (hc : 0 < c) {G : ℕ} (hE : E + 1 = G) (ht : mid a c E - c ≤ t ∧ t ≤ mid a c E + c) :
    gridHat a c G t = t - (mid a c E - c) := by
  unfold gridHat hat
  have h1 : (G : ℝ) = E + 1 := by exact_mod_cast hE.symm
  unfold mid at *
  rw [h1, abs_of_nonpos (by linarith [ht.1, ht.2]), max_eq_right (by linarith [ht.1, ht.2])]
  ring

theorem gridHat_right (hc : 0 < c) (ht : mid a c E - c ≤ t ∧ t ≤ mid a c E + c) :
    gridHat a c E t = mid a c E + c - t := by
  unfold gridHat hat
  unfold mid at *
  rw [abs_of_nonneg (by linarith [ht.1, ht.2]), max_eq_right (by linarith [ht.1, ht.2])]
  ring

theorem gridHat_zero {G : ℕ} (h : 2 * c ≤ |t - (a + 2 * c * G)|) : gridHat a c G t = 0 := by
  unfold gridHat hat
  rw [max_eq_left]
  linarith

theorem gridHat_other (hc : 0 < c) {G : ℕ} (hE : E + 1 ≠ G) (hE' : E ≠ G) (ht : mid a c E - c ≤ t ∧ t ≤ mid a c E + c) :
    gridHat a c G t = 0 := by
  apply gridHat_zero
  unfold mid at *
  rcases Nat.lt_or_gt_of_ne hE' with h | h
  · have h1 : (E : ℝ) + 2 ≤ G := by exact_mod_cast (by omega : E + 2 ≤ G)
    have h2 := mul_le_mul_of_nonneg_left h1 hc.le
    rw [abs_of_nonpos] <;> linarith [ht.1, ht.2]
  · have h1 : (G : ℝ) + 1 ≤ E := by exact_mod_cast h
    have h2 := mul_le_mul_of_nonneg_left h1 hc.le
    rw [abs_of_nonneg] <;> linarith [ht.1, ht.2]

/-! ### The same as polynomials -/

variable {d : ℕ}

/-- `bump` around interval `F`, on interval `E`. -/
noncomputable def bumpPoly (a c : ℝ) (F : ℕ) (j : Fin d) (E : ℕ) : MvPolynomial (Fin d) ℝ :=
  if E = F then C (c ^ 2) - (X j - C (mid a c F)) ^ 2 else 0

/-- `gridHat` on interval `E`. -/
noncomputable def hatPoly (a c : ℝ) (G : ℕ) (j : Fin d) (E : ℕ) : MvPolynomial (Fin d) ℝ :=
  if E + 1 = G then X j - C (mid a c E - c) else if E = G then C (mid a c E + c) - X j else 0

theorem bumpPoly_eval (hc : 0 < c) (j : Fin d) (x : Fin d → ℝ) (ht : mid a c E - c ≤ x j ∧ x j ≤ mid a c E + c) :
    eval x (bumpPoly a c F j E) = bump c (mid a c F) (x j) := by
  unfold bumpPoly
  split
  · next h => subst h; rw [bump_self ht]; simp
  · next h => rw [bump_other hc h ht]; simp

theorem hatPoly_eval (hc : 0 < c) (G : ℕ) (j : Fin d) (x : Fin d → ℝ) (ht : mid a c E - c ≤ x j ∧ x j ≤ mid a c E + c) :
    eval x (hatPoly a c G j E) = gridHat a c G (x j) := by
  unfold hatPoly
  split
  · next h => rw [gridHat_left hc h ht]; simp
  · split
    · next h => subst h; rw [gridHat_right hc ht]; simp
    · next h1 h2 => rw [gridHat_other hc h1 h2 ht]; simp

theorem degreeOf_lin (j k : Fin d) (s : ℝ) : (X j - C s : MvPolynomial (Fin d) ℝ).degreeOf k ≤ if j = k then 1 else 0 := by
  refine le_trans (degreeOf_sub_le _ _ _) ?_
  rw [degreeOf_X, degreeOf_C]
  simp only [eq_comm (a := k)]
  exact max_le le_rfl (Nat.zero_le _)

theorem bumpPoly_degree (j k : Fin d) : (bumpPoly a c F j E).degreeOf k ≤ if j = k then 2 else 0 := by
  unfold bumpPoly
  split
  · refine le_trans (degreeOf_sub_le _ _ _) (max_le (by rw [degreeOf_C]; exact Nat.zero_le _) ?_)
    refine le_trans (degreeOf_pow_le _ _ _) ?_
    have := degreeOf_lin j k (mid a c F)
    split at this <;> simp_all <;> omega
  · rw [degreeOf_zero]; exact Nat.zero_le _

theorem hatPoly_degree (G : ℕ) (j k : Fin d) : (hatPoly a c G j E).degreeOf k ≤ if j = k then 2 else 0 := by
  have h1 : ∀ s, (X j - C s : MvPolynomial (Fin d) ℝ).degreeOf k ≤ if j = k then 2 else 0 := fun s => by
    have := degreeOf_lin j k s
    split at this <;> simp_all <;> omega
  unfold hatPoly
  split
  · exact h1 _
  · split
    · have : (C (mid a c E + c) - X j : MvPolynomial (Fin d) ℝ) = -(X j - C (mid a c E + c)) := by ring
      rw [this, degreeOf_neg]
      exact h1 _
    · rw [degreeOf_zero]; exact Nat.zero_le _

/-! ### Polynomials on boxes -/

/-- A polynomial with zero derivatives is constant. -/
theorem eq_C_of_pderiv {Q : MvPolynomial (Fin d) ℝ} (h : ∀ k, pderiv k Q = 0) : Q = C (coeff 0 Q) := by
  ext m
  rw [coeff_C]
  split
  · next h0 => rw [h0]
  · next h0 =>
    obtain ⟨k, hk⟩ : ∃ k, m k ≠ 0 := by
      by_contra hall
      push Not at hall
      exact h0 (Finsupp.ext fun k => (hall k).symm)
    have h1 : coeff (m - Finsupp.single k 1) (pderiv k Q) = 0 := by rw [h k, coeff_zero]
    rw [coeff_pderiv] at h1
    have h2 : m - Finsupp.single k 1 + Finsupp.single k 1 = m := by
      apply tsub_add_cancel_of_le
      intro i
      rw [Finsupp.single_apply]
      split
      · next hik => subst hik; omega
      · exact Nat.zero_le _
    rw [h2] at h1
    rcases mul_eq_zero.mp h1 with h3 | h3
    · exact h3
    · exfalso
      have : (0 : ℝ) ≤ ((m - Finsupp.single k 1 : Fin d →₀ ℕ) k : ℝ) := Nat.cast_nonneg _
      linarith

/-- A polynomial that is nonnegative on a cell with integral zero is zero inside. -/
theorem eval_zero_of_integral {n e : ℕ} {a c : ℝ} {P : MvPolynomial (Fin d) ℝ}
    (h0 : ∀ x ∈ CubeCells.cell n d a c e, 0 ≤ eval x P) (hint : ∫ x in CubeCells.cell n d a c e, eval x P = 0) :
    ∀ x ∈ openCell n d a c e, eval x P = 0 := by
  have hI : IntegrableOn (fun x => eval x P) (CubeCells.cell n d a c e) := integrableOn_eval _ _ P
  have hmeas : MeasurableSet (CubeCells.cell n d a c e) := measurableSet_Icc
  have h1 := (setIntegral_eq_zero_iff_of_nonneg_ae ((ae_restrict_iff' hmeas).mpr (Filter.Eventually.of_forall h0)) hI).mp hint
  have h2 : (fun x => eval x P) =ᵐ[volume.restrict (openCell n d a c e)] 0 := ae_restrict_of_ae_restrict_of_subset openCell_sub h1
  exact Measure.eqOn_open_of_ae_eq h2 openCell_open (MvPolynomial.continuous_eval P).continuousOn continuousOn_const

theorem eq_zero_of_openCell {n e : ℕ} {a c : ℝ} (hc : 0 < c) {P : MvPolynomial (Fin d) ℝ}
    (h0 : ∀ x ∈ openCell n d a c e, eval x P = 0) : P = 0 := by
  apply MvPolynomial.funext_set (fun k => Set.Ioo (centre n d a c e k - c) (centre n d a c e k + c))
    (fun k => Set.Ioo_infinite (by linarith))
  intro x hx
  rw [h0 x hx, map_zero]

/-! ### Velocities -/

theorem mem_cell {n e : ℕ} {a c : ℝ} {x : Fin d → ℝ} : x ∈ CubeCells.cell n d a c e ↔
    ∀ k : Fin d, mid a c (digit n d k e) - c ≤ x k ∧ x k ≤ mid a c (digit n d k e) + c := by
  unfold CubeCells.cell centre mid
  exact ⟨fun h k => ⟨h.1 k, h.2 k⟩, fun h => ⟨fun k => (h k).1, fun k => (h k).2⟩⟩

namespace CubeSEM

variable {n p : ℕ} {a b : ℝ} {per : List ℕ} {bcs : List (String × BCType)} {cs : CubeStokes d} {vnode pnode : ℕ → ℕ → ℕ}
  {l : List ℝ}

/-- The nodal values of a product of functions of one variable and a polynomial. -/
theorem tensor_vel (h : CubeSEM n d p a b per bcs cs vnode pnode l) (hn : 1 ≤ n) (hp : 3 ≤ p) (hb : CubeBCs d per bcs)
    (g : Fin d → ℝ → ℝ) (P : Fin d → ℕ → MvPolynomial (Fin d) ℝ) (R : Fin d → MvPolynomial (Fin d) ℝ)
    (hg : ∀ j, ∀ E < n, ∀ x : Fin d → ℝ, mid a ((b - a) / (2 * n)) E - (b - a) / (2 * n) ≤ x j ∧
      x j ≤ mid a ((b - a) / (2 * n)) E + (b - a) / (2 * n) → eval x (P j E) = g j (x j))
    (hP : ∀ j E k, (P j E).degreeOf k ≤ if j = k then 2 else 0) (hR : ∀ k j, (R k).degreeOf j ≤ p - 2)
    (hends : ∀ j : Fin d, (bcs ≠ [] ∨ (j : ℕ) ∈ per) → g j a = 0 ∧ g j b = 0) :
    ∃ u ∈ TSpace cs.sem, ∀ k, CellField cs.vmesh p (fun j => u j k) (fun e => (∏ i : Fin d, P i (digit n d i e)) * R k) := by
  classical
  have hC := h.vcube.cells
  have H := h.setup hn hb
  obtain ⟨_, _, hvm, _, hmask, _, _⟩ := H.fields
  have hnv : cs.sem.numV = cs.vmesh.numNodes := by unfold StokesSEM.numV; rw [hvm]
  let G : (Fin d → ℝ) → Fin d → ℝ := fun x k => (∏ i, g i (x i)) * eval x (R k)
  have hzero : ∀ x (i : Fin d), g i (x i) = 0 → G x = 0 := by
    intro x i hi
    funext k
    change (∏ i, g i (x i)) * eval x (R k) = 0
    rw [Finset.prod_eq_zero (Finset.mem_univ i) hi, zero_mul]
  refine ⟨fun j k => if j < cs.vmesh.numNodes then G (cs.vmesh.coords j) k else 0, ⟨fun j hj => ?_, fun k i hi j hj hs => ?_⟩,
    fun k e he => ⟨fun j => ?_, fun i hi v hv => ?_⟩⟩
  · funext k
    change (if _ then _ else _) = _
    split
    · next hjn =>
      rcases hj with hj | hj
      · omega
      · have hD : DirichletNode cs.masks bcs j := by
          by_contra hD
          rw [(hmask j).2 hD] at hj
          exact one_ne_zero hj
        obtain ⟨h1, κ, _, h2⟩ := (h.dirichlet_iff hb hjn).mp hD
        have h3 := hends κ (Or.inl h1)
        rw [hzero _ κ (by rcases h2 with h2 | h2 <;> rw [h2]; exacts [h3.1, h3.2])]
    · rfl
  · change (if _ then _ else _) = (if _ then _ else _)
    rw [hvm] at hi hj hs
    rw [if_pos hi, if_pos hj]
    rw [h.same_iff hi hj] at hs
    by_cases hall : ∀ k, cs.vmesh.coords i k = cs.vmesh.coords j k
    · rw [funext hall]
    · push Not at hall
      obtain ⟨κ, hκ⟩ := hall
      rcases hs κ with h1 | ⟨h1, h2⟩
      · exact absurd h1 hκ
      · have h3 := hends κ (Or.inr h1)
        rcases h2 with ⟨h4, h5⟩ | ⟨h4, h5⟩
        · rw [hzero _ κ (by rw [h4]; exact h3.1), hzero _ κ (by rw [h5]; exact h3.2)]
        · rw [hzero _ κ (by rw [h4]; exact h3.2), hzero _ κ (by rw [h5]; exact h3.1)]
  · refine le_trans (degreeOf_mul_le _ _ _) ?_
    have h1 : (∏ i : Fin d, P i (digit n d i e)).degreeOf j ≤ 2 := by
      refine le_trans (degreeOf_prod_le _ _ _) ?_
      refine le_trans (Finset.sum_le_sum fun i _ => hP i _ j) ?_
      rw [Finset.sum_ite_eq' Finset.univ j]
      simp
    have := hR k j
    omega
  · rw [hC.num] at he
    obtain rfl := h.node_lt he hi hv
    change _ = if _ then _ else _
    rw [if_pos (hC.lt e he i hi)]
    change _ = (∏ i, g i _) * _
    rw [map_mul, map_prod]
    congr 1
    refine Finset.prod_congr rfl fun κ _ => ?_
    apply hg κ _ (Verif.Common.digit_lt _ _ _ _ hn)
    obtain ⟨x, _, h1, h2, h3⟩ := h.axis hn he hi κ
    rw [h3]
    unfold mid
    have hc := hC.width
    constructor <;> nlinarith

end CubeSEM

end Verif.NS
