import Verif.Lemmas.CubeBubble

/-!
# The pressures that no velocity sees
-/

namespace Verif.NS

open Verif.Core Verif.Spec MeasureTheory MvPolynomial

variable {d n p : ℕ} {a b c : ℝ} {per : List ℕ} {bcs : List (String × BCType)} {cs : CubeStokes d} {vnode pnode : ℕ → ℕ → ℕ}
  {l : List ℝ}

/-- The bubble of cell `e0`, on cell `e`. -/
noncomputable def bubble (n d : ℕ) (a c : ℝ) (e0 e : ℕ) : MvPolynomial (Fin d) ℝ :=
  ∏ i : Fin d, bumpPoly a c (digit n d i e0) i (digit n d i e)

theorem bubble_other {e0 e : ℕ} (he0 : e0 < n ^ d) (he : e < n ^ d) (hne : e ≠ e0) : bubble n d a c e0 e = 0 := by
  obtain ⟨i, hi⟩ : ∃ i : Fin d, digit n d i e ≠ digit n d i e0 := by
    by_contra hall
    push Not at hall
    exact hne (digit_ext he he0 fun k hk => hall ⟨k, hk⟩)
  unfold bubble
  apply Finset.prod_eq_zero (Finset.mem_univ i)
  unfold bumpPoly
  rw [if_neg hi]

theorem bubble_eval (hc : 0 < c) (e : ℕ) (x : Fin d → ℝ) : eval x (bubble n d a c e e) =
    ∏ i : Fin d, (c ^ 2 - (x i - mid a c (digit n d i e)) ^ 2) := by
  unfold bubble
  rw [map_prod]
  refine Finset.prod_congr rfl fun i _ => ?_
  unfold bumpPoly
  rw [if_pos rfl]
  simp

theorem bubble_nonneg (hc : 0 < c) (e : ℕ) {x : Fin d → ℝ} (hx : x ∈ CubeCells.cell n d a c e) :
    0 ≤ eval x (bubble n d a c e e) := by
  rw [bubble_eval hc]
  refine Finset.prod_nonneg fun i _ => ?_
  have := mem_cell.mp hx i
  nlinarith [this.1, this.2]

theorem bubble_pos (hc : 0 < c) (e : ℕ) {x : Fin d → ℝ} (hx : x ∈ openCell n d a c e) :
    0 < eval x (bubble n d a c e e) := by
  rw [bubble_eval hc]
  refine Finset.prod_pos fun i _ => ?_
  have := hx i (Set.mem_univ i)
  unfold centre at this
  unfold mid
  nlinarith [this.1, this.2]

/-- No flux of a multiple of the bubble through the faces of the cell. -/
theorem bubble_flux (hc : 0 < c) (e : ℕ) (k : Fin d) (W : MvPolynomial (Fin d) ℝ) :
    ∫ x in CubeCells.cell n d a c e, eval x (pderiv k (bubble n d a c e e * W)) = 0 := by
  have hle : ∀ j : Fin d, centre n d a c e j - c ≤ centre n d a c e j + c := fun j => by linarith
  have h1 := integral_pderiv_box hle k (bubble n d a c e e * W)
  have hz : ∀ s, (s = centre n d a c e k + c ∨ s = centre n d a c e k - c) → ∀ x,
      eval x (faceSub k s (bubble n d a c e e * W)) = 0 := by
    intro s hs x
    rw [eval_faceSub, map_mul, bubble_eval hc, Finset.prod_eq_zero (Finset.mem_univ k), zero_mul]
    rw [Function.update_self]
    unfold centre at hs
    unfold mid
    rcases hs with rfl | rfl <;> ring
  simp only [hz _ (Or.inl rfl), hz _ (Or.inr rfl), integral_zero, sub_zero] at h1
  rcases mul_eq_zero.mp h1 with h2 | h2
  · linarith
  · exact h2

/-- The profile of the face of cell `e1` across axis `κ`. -/
noncomputable def profile (n d : ℕ) (a c : ℝ) (κ : Fin d) (e1 : ℕ) : MvPolynomial (Fin d) ℝ :=
  C (2 * c) * ∏ i ∈ Finset.univ.erase κ, (C (c ^ 2) - (X i - C (mid a c (digit n d i e1))) ^ 2)

theorem profile_face (κ : Fin d) (e1 : ℕ) (t : ℝ) : faceSub κ t (profile n d a c κ e1) = profile n d a c κ e1 := by
  apply MvPolynomial.funext
  intro x
  rw [eval_faceSub]
  unfold profile
  rw [(eval (Function.update x κ t)).map_mul, (eval x).map_mul, map_prod, map_prod]
  congr 1
  · simp
  · refine Finset.prod_congr rfl fun i hi => ?_
    simp [Function.update_of_ne (Finset.ne_of_mem_erase hi)]

theorem profile_pos (hc : 0 < c) (κ : Fin d) (e1 : ℕ) : 0 < ∫ x in CubeCells.cell n d a c e1, eval x (profile n d a c κ e1) := by
  have heval : ∀ x, eval x (profile n d a c κ e1) =
      2 * c * ∏ i ∈ Finset.univ.erase κ, (c ^ 2 - (x i - mid a c (digit n d i e1)) ^ 2) := by
    intro x
    unfold profile
    rw [map_mul, map_prod]
    simp
  have hnn : ∀ x ∈ CubeCells.cell n d a c e1, 0 ≤ eval x (profile n d a c κ e1) := by
    intro x hx
    rw [heval]
    refine mul_nonneg (by linarith) (Finset.prod_nonneg fun i _ => ?_)
    have := mem_cell.mp hx i
    nlinarith [this.1, this.2]
  refine lt_of_le_of_ne (setIntegral_nonneg measurableSet_Icc hnn) fun h0 => ?_
  have h1 := eval_zero_of_integral hnn h0.symm (centre n d a c e1) (fun k _ => ⟨by linarith, by linarith⟩)
  rw [heval] at h1
  have h2 : ∏ i ∈ Finset.univ.erase κ, (c ^ 2 - (centre n d a c e1 i - mid a c (digit n d i e1)) ^ 2) =
      ∏ i ∈ (Finset.univ.erase κ : Finset (Fin d)), c ^ 2 := by
    refine Finset.prod_congr rfl fun i _ => ?_
    unfold centre mid
    ring
  rw [h2] at h1
  have : 0 < 2 * c * ∏ i ∈ (Finset.univ.erase κ : Finset (Fin d)), c ^ 2 :=
    mul_pos (by linarith) (Finset.prod_pos fun i _ => by positivity)
  linarith

/-- The velocity through face `G` of axis `κ`, on cell `e`. -/
noncomputable def facePoly (n d : ℕ) (a c : ℝ) (κ : Fin d) (e1 e : ℕ) : MvPolynomial (Fin d) ℝ :=
  ∏ i : Fin d, if i = κ then hatPoly a c (digit n d κ e1) i (digit n d i e) else
    bumpPoly a c (digit n d i e1) i (digit n d i e)

theorem facePoly_other {κ : Fin d} {e1 e : ℕ}
    (hne : (∃ i, i ≠ κ ∧ digit n d i e ≠ digit n d i e1) ∨ (digit n d κ e + 1 ≠ digit n d κ e1 ∧ digit n d κ e ≠ digit n d κ e1)) :
    facePoly n d a c κ e1 e = 0 := by
  unfold facePoly
  rcases hne with ⟨i, h1, h2⟩ | ⟨h1, h2⟩
  · apply Finset.prod_eq_zero (Finset.mem_univ i)
    rw [if_neg h1]
    unfold bumpPoly
    rw [if_neg h2]
  · apply Finset.prod_eq_zero (Finset.mem_univ κ)
    rw [if_pos rfl]
    unfold hatPoly
    rw [if_neg h1, if_neg h2]

theorem facePoly_split {κ : Fin d} {e1 e : ℕ} (ho : ∀ i, i ≠ κ → digit n d i e = digit n d i e1) : C (2 * c) * facePoly n d a c κ e1 e =
    hatPoly a c (digit n d κ e1) κ (digit n d κ e) * profile n d a c κ e1 := by
  unfold facePoly profile
  rw [← Finset.mul_prod_erase Finset.univ _ (Finset.mem_univ κ), if_pos rfl]
  have : ∏ i ∈ Finset.univ.erase κ, (if i = κ then hatPoly a c (digit n d κ e1) i (digit n d i e) else
      bumpPoly a c (digit n d i e1) i (digit n d i e)) =
      ∏ i ∈ Finset.univ.erase κ, (C (c ^ 2) - (X i - C (mid a c (digit n d i e1))) ^ 2) := by
    refine Finset.prod_congr rfl fun i hi => ?_
    have hi' := Finset.ne_of_mem_erase hi
    rw [if_neg hi']
    unfold bumpPoly
    rw [if_pos (ho i hi')]
  rw [this]
  ring

/-- Its flux out of the cell on the upper side of the face. -/
theorem facePoly_flux (hc : 0 < c) {κ : Fin d} {e1 e : ℕ} (ho : ∀ i, i ≠ κ → digit n d i e = digit n d i e1) {s : ℝ}
    (hs : (digit n d κ e + 1 = digit n d κ e1 ∧ s = 1) ∨ (digit n d κ e = digit n d κ e1 ∧ s = -1)) :
    2 * c * ∫ x in CubeCells.cell n d a c e, eval x (pderiv κ (facePoly n d a c κ e1 e)) =
      s * ∫ x in CubeCells.cell n d a c e1, eval x (profile n d a c κ e1) := by
  have hle : ∀ e, ∀ j : Fin d, centre n d a c e j - c ≤ centre n d a c e j + c := fun e j => by linarith
  have hcen : ∀ i, i ≠ κ → centre n d a c e i = centre n d a c e1 i := fun i hi => by unfold centre; rw [ho i hi]
  have hsame : ∫ x in CubeCells.cell n d a c e, eval x (profile n d a c κ e1) =
      ∫ x in CubeCells.cell n d a c e1, eval x (profile n d a c κ e1) := by
    rw [← profile_face κ e1 0]
    unfold CubeCells.cell
    exact integral_faceSub_congr (hle e) (hle e1) κ (fun j hj => by rw [hcen j hj]) (fun j hj => by rw [hcen j hj]) (by ring) _ _
  have h1 := integral_pderiv_box (hle e) κ (C (2 * c) * facePoly n d a c κ e1 e)
  have hderiv : ∀ x, eval x (pderiv κ (C (2 * c) * facePoly n d a c κ e1 e)) =
      2 * c * eval x (pderiv κ (facePoly n d a c κ e1 e)) := by
    intro x
    rw [pderiv_C_mul]
    simp
  have hface : ∀ t x, eval x (faceSub κ t (C (2 * c) * facePoly n d a c κ e1 e)) =
      eval (Function.update x κ t) (hatPoly a c (digit n d κ e1) κ (digit n d κ e)) * eval x (profile n d a c κ e1) := by
    intro t x
    rw [facePoly_split ho, faceSub_mul, map_mul, profile_face, eval_faceSub]
  have hhat : ∀ x : Fin d → ℝ, eval (Function.update x κ (centre n d a c e κ + c)) (hatPoly a c (digit n d κ e1) κ (digit n d κ e)) -
      eval (Function.update x κ (centre n d a c e κ - c)) (hatPoly a c (digit n d κ e1) κ (digit n d κ e)) = s * (2 * c) := by
    intro x
    unfold hatPoly centre mid
    rcases hs with ⟨h2, rfl⟩ | ⟨h2, rfl⟩
    · rw [if_pos h2]
      simp
      ring
    · rw [if_neg (by omega), if_pos h2]
      simp
      ring
  have hhat' : ∀ t (x : Fin d → ℝ), eval (Function.update x κ t) (hatPoly a c (digit n d κ e1) κ (digit n d κ e)) =
      eval (Function.update 0 κ t) (hatPoly a c (digit n d κ e1) κ (digit n d κ e)) := by
    intro t x
    unfold hatPoly
    split
    · simp
    · split <;> simp
  simp only [hderiv, hface, hhat' _ (_ : Fin d → ℝ)] at h1
  simp only [integral_const_mul] at h1
  rw [← sub_mul, hhat 0] at h1
  change _ * (2 * c * ∫ x in CubeCells.cell n d a c e, _) = _ * ∫ x in CubeCells.cell n d a c e, _ at h1
  rw [hsame] at h1
  have h2 : 2 * c ≠ 0 := by positivity
  apply mul_left_cancel₀ h2
  linear_combination h1

namespace CubeSEM

/-- A pressure that is orthogonal to the divergence of every velocity. -/
def Unseen (n d : ℕ) (a b : ℝ) (cs : CubeStokes d) (p : ℕ) (Q : ℕ → MvPolynomial (Fin d) ℝ) : Prop :=
  ∀ u ∈ TSpace cs.sem, ∀ U : Fin d → ℕ → MvPolynomial (Fin d) ℝ, (∀ k, CellField cs.vmesh p (fun j => u j k) (U k)) →
    ∑ e ∈ Finset.range (n ^ d), ∫ x in CubeCells.cell n d a ((b - a) / (2 * n)) e, eval x ((∑ k, pderiv k (U k e)) * Q e) = 0

/-- It is constant in every cell. -/
theorem unseen_const (h : CubeSEM n d p a b per bcs cs vnode pnode l) (hn : 1 ≤ n) (hp : 3 ≤ p) (hb : CubeBCs d per bcs)
    {Q : ℕ → MvPolynomial (Fin d) ℝ} (hQ : ∀ e < n ^ d, ∀ k, (Q e).degreeOf k ≤ p - 2) (hU : Unseen n d a b cs p Q) {e0 : ℕ}
    (he0 : e0 < n ^ d) : Q e0 = C (coeff 0 (Q e0)) := by
  have hC := h.vcube.cells
  have hu := upper (a := a) (b := b) hn
  have hc := hC.width
  have hn0 : (1 : ℝ) ≤ n := by exact_mod_cast hn
  obtain ⟨u, huT, hcf⟩ := h.tensor_vel hn hp hb (fun j t => bump ((b - a) / (2 * n)) (mid a ((b - a) / (2 * n)) (digit n d j e0)) t)
    (fun j E => bumpPoly a ((b - a) / (2 * n)) (digit n d j e0) j E) (fun k => pderiv k (Q e0))
    (fun j E hE x hx => bumpPoly_eval hc j x hx) (fun j E k => bumpPoly_degree j k)
    (fun k j => le_trans (degreeOf_pderiv_le _ _ _) (hQ e0 he0 j)) (fun j _ => by
      have hE : digit n d j e0 < n := Verif.Common.digit_lt _ _ _ _ hn
      have hE' : (digit n d j e0 : ℝ) + 1 ≤ n := by exact_mod_cast hE
      have hE0 : (0 : ℝ) ≤ digit n d j e0 := Nat.cast_nonneg _
      set c := (b - a) / (2 * (n : ℝ)) with hcdef
      constructor
      · apply bump_zero hc.le
        unfold mid
        rw [abs_of_nonpos] <;> nlinarith
      · apply bump_zero hc.le
        unfold mid
        rw [hu, abs_of_nonneg] <;> nlinarith)
  have h0 := hU u huT _ hcf
  set c := (b - a) / (2 * (n : ℝ)) with hcdef
  change ∑ e ∈ Finset.range (n ^ d), ∫ x in CubeCells.cell n d a c e, eval x ((∑ k, pderiv k (bubble n d a c e0 e *
    pderiv k (Q e0))) * Q e) = 0 at h0
  rw [Finset.sum_eq_single e0] at h0
  · have hint : ∀ (P : MvPolynomial (Fin d) ℝ), IntegrableOn (fun x => eval x P) (CubeCells.cell n d a c e0) :=
      fun P => integrableOn_eval _ _ P
    set B := bubble n d a c e0 e0 with hB
    have hflux : ∀ k, ∫ x in CubeCells.cell n d a c e0, eval x (pderiv k (B * (pderiv k (Q e0) * Q e0))) = 0 :=
      fun k => bubble_flux hc e0 k _
    have hsplit : (∑ k, pderiv k (B * pderiv k (Q e0))) * Q e0 =
        (∑ k, pderiv k (B * (pderiv k (Q e0) * Q e0))) - ∑ k, B * (pderiv k (Q e0)) ^ 2 := by
      rw [Finset.sum_mul, ← Finset.sum_sub_distrib]
      refine Finset.sum_congr rfl fun k _ => ?_
      simp only [pderiv_mul]
      ring
    rw [hsplit] at h0
    simp only [map_sub] at h0
    rw [integral_sub (hint _) (hint _)] at h0
    have h1 : ∫ x in CubeCells.cell n d a c e0, eval x (∑ k, pderiv k (B * (pderiv k (Q e0) * Q e0))) = 0 := by
      simp only [map_sum]
      rw [integral_finsetSum _ (fun k _ => hint _)]
      exact Finset.sum_eq_zero fun k _ => hflux k
    rw [h1, zero_sub, neg_eq_zero] at h0
    have hnn : ∀ k, ∀ x ∈ CubeCells.cell n d a c e0, 0 ≤ eval x (B * (pderiv k (Q e0)) ^ 2) := by
      intro k x hx
      rw [map_mul, map_pow]
      exact mul_nonneg (bubble_nonneg hc e0 hx) (sq_nonneg _)
    have h2 := eval_zero_of_integral (fun x hx => by
      rw [map_sum]
      exact Finset.sum_nonneg fun k _ => hnn k x hx) h0
    apply eq_C_of_pderiv
    intro k
    apply eq_zero_of_openCell (n := n) (a := a) (e := e0) hc
    intro x hx
    have h3 := h2 x hx
    rw [map_sum] at h3
    have h4 := (Finset.sum_eq_zero_iff_of_nonneg (fun k _ => hnn k x (openCell_sub hx))).mp h3 k (Finset.mem_univ k)
    rw [map_mul, map_pow] at h4
    rcases mul_eq_zero.mp h4 with h5 | h5
    · exact absurd h5 (bubble_pos hc e0 hx).ne'
    · exact pow_eq_zero_iff (two_ne_zero) |>.mp h5
  · intro e he hne
    rw [bubble_other he0 (Finset.mem_range.mp he) hne]
    simp
  · intro hne
    exact absurd (Finset.mem_range.mpr he0) hne

/-- Velocities through the face between two neighbours, or through the face of an open boundary, see jumps. -/
theorem unseen_face (h : CubeSEM n d p a b per bcs cs vnode pnode l) (hn : 1 ≤ n) (hp : 3 ≤ p) (hb : CubeBCs d per bcs)
    {q : ℕ → ℝ} (hU : Unseen n d a b cs p (fun e => C (q e))) (κ : Fin d) {e1 : ℕ} (he1 : e1 < n ^ d)
    (hopen : digit n d κ e1 = 0 → bcs = [] ∧ (κ : ℕ) ∉ per) :
    (∀ e0 < n ^ d, digit n d κ e0 + 1 = digit n d κ e1 → (∀ i, i ≠ κ → digit n d i e0 = digit n d i e1) → q e0 = q e1) ∧
      (digit n d κ e1 = 0 → q e1 = 0) := by
  have hC := h.vcube.cells
  have hu := upper (a := a) (b := b) hn
  have hc := hC.width
  have hn0 : (1 : ℝ) ≤ n := by exact_mod_cast hn
  have hEn : ∀ j : Fin d, (digit n d j e1 : ℝ) + 1 ≤ n := fun j => by
    exact_mod_cast (Verif.Common.digit_lt _ _ _ _ hn : digit n d j e1 < n)
  have hE0 : ∀ j : Fin d, (0 : ℝ) ≤ digit n d j e1 := fun j => Nat.cast_nonneg _
  obtain ⟨u, huT, hcf⟩ := h.tensor_vel hn hp hb
    (fun j t => if j = κ then gridHat a ((b - a) / (2 * n)) (digit n d κ e1) t else
      bump ((b - a) / (2 * n)) (mid a ((b - a) / (2 * n)) (digit n d j e1)) t)
    (fun j E => if j = κ then hatPoly a ((b - a) / (2 * n)) (digit n d κ e1) j E else
      bumpPoly a ((b - a) / (2 * n)) (digit n d j e1) j E) (fun k => if k = κ then 1 else 0)
    (fun j E hE x hx => by
      split
      · exact hatPoly_eval hc _ j x hx
      · exact bumpPoly_eval hc j x hx) (fun j E k => by
      split
      · exact hatPoly_degree _ j k
      · exact bumpPoly_degree j k)
    (fun k j => by split <;> simp) (fun j hj => by
      set c := (b - a) / (2 * (n : ℝ)) with hcdef
      have h1 := hEn j
      have h2 := hE0 j
      split
      · next hjκ =>
        subst hjκ
        have h3 : digit n d j e1 ≠ 0 := by
          intro h3
          obtain ⟨h4, h5⟩ := hopen h3
          rcases hj with hj | hj
          · exact hj h4
          · exact h5 hj
        have h4 : (1 : ℝ) ≤ digit n d j e1 := by exact_mod_cast Nat.one_le_iff_ne_zero.mpr h3
        constructor
        · apply gridHat_zero
          rw [abs_of_nonpos] <;> nlinarith
        · apply gridHat_zero
          rw [hu, abs_of_nonneg] <;> nlinarith
      · constructor
        · apply bump_zero hc.le
          unfold mid
          rw [abs_of_nonpos] <;> nlinarith
        · apply bump_zero hc.le
          unfold mid
          rw [hu, abs_of_nonneg] <;> nlinarith)
  have h0 := hU u huT _ hcf
  set c := (b - a) / (2 * (n : ℝ)) with hcdef
  have hterm : ∀ e, 2 * c * ∫ x in CubeCells.cell n d a c e, eval x ((∑ k, pderiv k (facePoly n d a c κ e1 e *
      if k = κ then 1 else 0)) * C (q e)) =
      q e * (2 * c * ∫ x in CubeCells.cell n d a c e, eval x (pderiv κ (facePoly n d a c κ e1 e))) := by
    intro e
    have : (∑ k, pderiv k (facePoly n d a c κ e1 e * if k = κ then 1 else 0)) = pderiv κ (facePoly n d a c κ e1 e) := by
      rw [Finset.sum_eq_single κ]
      · simp
      · intro k _ hk; simp [hk]
      · intro hk; exact absurd (Finset.mem_univ κ) hk
    rw [this]
    simp only [map_mul, eval_C]
    rw [integral_mul_const]
    ring
  change ∑ e ∈ Finset.range (n ^ d), ∫ x in CubeCells.cell n d a c e, eval x ((∑ k, pderiv k (facePoly n d a c κ e1 e *
    if k = κ then 1 else 0)) * C (q e)) = 0 at h0
  have h1 : ∑ e ∈ Finset.range (n ^ d), q e * (2 * c * ∫ x in CubeCells.cell n d a c e,
      eval x (pderiv κ (facePoly n d a c κ e1 e))) = 0 := by
    rw [← Finset.sum_congr rfl fun e _ => hterm e, ← Finset.mul_sum, h0, mul_zero]
  have hJ := profile_pos (n := n) (a := a) hc κ e1
  set J := ∫ x in CubeCells.cell n d a c e1, eval x (profile n d a c κ e1) with hJdef
  have f1 := facePoly_flux (n := n) (a := a) hc (κ := κ) (e1 := e1) (e := e1) (fun _ _ => rfl) (Or.inr ⟨rfl, rfl⟩)
  constructor
  · intro e0 he0 hk ho
    have f0 := facePoly_flux (n := n) (a := a) hc (κ := κ) (e1 := e1) (e := e0) ho (Or.inl ⟨hk, rfl⟩)
    have hne : e0 ≠ e1 := fun heq => by rw [heq] at hk; omega
    rw [Finset.sum_eq_add e0 e1 hne] at h1
    · rw [f0, f1] at h1
      have h2 : (q e0 - q e1) * J = 0 := by linear_combination h1
      rcases mul_eq_zero.mp h2 with h3 | h3
      · linarith
      · exact absurd h3 hJ.ne'
    · intro e he hnee
      rw [Finset.mem_range] at he
      rw [facePoly_other]
      · simp
      · by_contra hcon
        push Not at hcon
        obtain ⟨g1, g2⟩ := hcon
        by_cases g3 : digit n d κ e + 1 = digit n d κ e1
        · apply hnee.1
          apply digit_ext he he0
          intro k hkd
          by_cases hkκ : (⟨k, hkd⟩ : Fin d) = κ
          · have : digit n d κ e = digit n d κ e0 := by omega
            rw [← hkκ] at this
            exact this
          · exact (g1 ⟨k, hkd⟩ hkκ).trans (ho ⟨k, hkd⟩ hkκ).symm
        · apply hnee.2
          apply digit_ext he he1
          intro k hkd
          by_cases hkκ : (⟨k, hkd⟩ : Fin d) = κ
          · have := g2 g3
            rw [← hkκ] at this
            exact this
          · exact g1 ⟨k, hkd⟩ hkκ
    · intro hh; exact absurd (Finset.mem_range.mpr he0) hh
    · intro hh; exact absurd (Finset.mem_range.mpr he1) hh
  · intro hk
    rw [Finset.sum_eq_single e1] at h1
    · rw [f1] at h1
      have h2 : q e1 * J = 0 := by linear_combination -h1
      rcases mul_eq_zero.mp h2 with h3 | h3
      · exact h3
      · exact absurd h3 hJ.ne'
    · intro e he hnee
      rw [Finset.mem_range] at he
      rw [facePoly_other]
      · simp
      · by_contra hcon
        push Not at hcon
        obtain ⟨g1, g2⟩ := hcon
        apply hnee
        apply digit_ext he he1
        intro k hkd
        by_cases hkκ : (⟨k, hkd⟩ : Fin d) = κ
        · have := g2 (by omega)
          rw [← hkκ] at this
          exact this
        · exact g1 ⟨k, hkd⟩ hkκ
    · intro hh; exact absurd (Finset.mem_range.mpr he1) hh

/-- All cells have the same constant; with an open boundary it is zero. -/
theorem unseen_spec (h : CubeSEM n d p a b per bcs cs vnode pnode l) (hn : 1 ≤ n) (hp : 3 ≤ p) (hb : CubeBCs d per bcs)
    {Q : ℕ → MvPolynomial (Fin d) ℝ} (hQ : ∀ e < n ^ d, ∀ k, (Q e).degreeOf k ≤ p - 2) (hU : Unseen n d a b cs p Q) :
    ∃ r : ℝ, (∀ e < n ^ d, Q e = C r) ∧ (bcs = [] → (∃ k : Fin d, (k : ℕ) ∉ per) → r = 0) := by
  have hconst := fun {e} (he : e < n ^ d) => h.unseen_const hn hp hb hQ hU he
  have hU' : Unseen n d a b cs p (fun e => C (coeff 0 (Q e))) := by
    intro u hu U hcf
    refine Eq.trans (Finset.sum_congr rfl fun e he => ?_) (hU u hu U hcf)
    have := hconst (Finset.mem_range.mp he)
    beta_reduce
    rw [← this]
  have hpos : 0 < n ^ d := pow_pos (by omega) d
  have hall : ∀ s, ∀ e < n ^ d, ∑ k : Fin d, digit n d k e = s → coeff 0 (Q e) = coeff 0 (Q 0) := by
    intro s
    induction s using Nat.strong_induction_on with
    | _ s ih =>
      intro e he hs
      by_cases hz : ∀ k : Fin d, digit n d k e = 0
      · have : e = 0 := by
          apply digit_ext he hpos
          intro k hk
          rw [hz ⟨k, hk⟩]
          unfold digit
          simp
        rw [this]
      · push Not at hz
        obtain ⟨κ, hκ⟩ := hz
        have hlt : digit n d κ e < n := Verif.Common.digit_lt _ _ _ _ hn
        obtain ⟨e', he', hd'⟩ := digit_update hn κ e (show digit n d κ e - 1 < n by omega)
        have hk' := hd' κ
        rw [if_pos rfl] at hk'
        have ho : ∀ i, i ≠ κ → digit n d i e' = digit n d i e := fun i hi => by rw [hd' i, if_neg hi]
        have h1 := (h.unseen_face hn hp hb hU' κ he (fun h0 => absurd h0 hκ)).1 e' he' (by omega) ho
        rw [← h1]
        have hsum : ∑ k : Fin d, digit n d k e' < s := by
          rw [← hs]
          apply Finset.sum_lt_sum
          · intro i _
            by_cases hi : i = κ
            · subst hi; omega
            · rw [ho i hi]
          · exact ⟨κ, Finset.mem_univ κ, by omega⟩
        exact ih _ hsum e' he' rfl
  refine ⟨coeff 0 (Q 0), fun e he => ?_, fun hbc hk => ?_⟩
  · rw [← hall _ e he rfl]
    exact hconst he
  · obtain ⟨κ, hκ⟩ := hk
    have h0 : digit n d κ 0 = 0 := by unfold digit; simp
    exact (h.unseen_face hn hp hb hU' κ hpos (fun _ => ⟨hbc, hκ⟩)).2 h0

end CubeSEM

end Verif.NS
