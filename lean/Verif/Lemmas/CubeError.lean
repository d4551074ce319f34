import Verif.Lemmas.Approximation
import Verif.Lemmas.CubeFlux
import Verif.Lemmas.CubePatch

/-!
# Green's formula and Poincaré's inequality for finite element functions on a cube
-/

namespace Verif.Core

open MvPolynomial Verif.Common Verif.Spec MeasureTheory

variable {d n p : ℕ} {a c : ℝ}

theorem young_axis {u w g ε : ℝ} (h : |g - w| ≤ ε) :
    (u - w) ^ 2 ≤ u * (u - w) - (u - w) * g + (1 / 4 * (u - w) ^ 2 + ε ^ 2) := by
  have h1 : (g - w) ^ 2 ≤ ε ^ 2 := by
    rw [← sq_abs (g - w)]
    exact pow_le_pow_left₀ (abs_nonneg _) h 2
  nlinarith [sq_nonneg ((u - w) / 2 - (g - w))]

theorem young_load {L S f E ε : ℝ} (hL : 0 < L) (h : |- S - f| ≤ ε) :
    0 ≤ - f * E - E * S + 1 / (16 * L ^ 2) * E ^ 2 + 4 * L ^ 2 * ε ^ 2 := by
  have h1 : (- S - f) ^ 2 ≤ ε ^ 2 := by
    rw [← sq_abs (- S - f)]
    exact pow_le_pow_left₀ (abs_nonneg _) h 2
  have h2 : 4 * L ^ 2 * (- S - f) ^ 2 ≤ 4 * L ^ 2 * ε ^ 2 := mul_le_mul_of_nonneg_left h1 (by positivity)
  have h3 : 0 ≤ (E / (4 * L) + 2 * L * (- S - f)) ^ 2 := sq_nonneg _
  have h4 : (E / (4 * L) + 2 * L * (- S - f)) ^ 2 = 1 / (16 * L ^ 2) * E ^ 2 + (- f * E - E * S) + 4 * L ^ 2 * (- S - f) ^ 2 := by
    field_simp
    ring
  linarith

namespace CubeCells

/-- Almost every point of the cube is inside a cell. -/
theorem ae_openCell (hn : 1 ≤ n) (hc : 0 < c) :
    ∀ᵐ x ∂(volume.restrict (Set.Icc (fun _ : Fin d => a) (fun _ => a + 2 * c * n))),
      ∃ e < n ^ d, x ∈ openCell n d a c e := by
  rw [← cover hn hc, ae_restrict_iUnion_iff]
  intro e
  rw [← Measure.restrict_congr_set openCell_ae, ae_restrict_iff' openCell_open.measurableSet]
  exact Filter.Eventually.of_forall fun x hx => ⟨e, e.2, hx⟩

/-- Functions that are continuous on every cell are integrable. -/
theorem integrableOn_cells (hn : 1 ≤ n) (hc : 0 < c) (f : (Fin d → ℝ) → ℝ) (g : ℕ → (Fin d → ℝ) → ℝ)
    (hg : ∀ e, Continuous (g e)) (hf : ∀ e < n ^ d, ∀ x ∈ openCell n d a c e, f x = g e x) :
    IntegrableOn f (Set.Icc (fun _ : Fin d => a) (fun _ => a + 2 * c * n)) := by
  rw [← cover hn hc, integrableOn_finite_iUnion]
  intro e
  rw [← integrableOn_congr_set_ae openCell_ae]
  have h1 : IntegrableOn (g e) (openCell n d a c e) :=
    ((hg e).continuousOn.integrableOn_compact isCompact_Icc).mono_set openCell_sub
  exact h1.congr_fun (fun x hx => (hf e e.2 x hx).symm) openCell_open.measurableSet

/-- Position of a cell along an axis. -/
theorem cell_of_lower (hc : 0 < c) {e : ℕ} {x : Fin d → ℝ} (hx : x ∈ cell n d a c e) {k : Fin d} (hk : x k = a) :
    centre n d a c e k - c = a := by
  have h1 : centre n d a c e k - c ≤ x k := hx.1 k
  rw [hk] at h1
  unfold centre at h1 ⊢
  have h2 : (0 : ℝ) ≤ digit n d k e := by positivity
  nlinarith

theorem cell_of_upper (hn : 1 ≤ n) (hc : 0 < c) {e : ℕ} {x : Fin d → ℝ} (hx : x ∈ cell n d a c e) {k : Fin d}
    (hk : x k = a + 2 * c * n) : centre n d a c e k + c = a + 2 * c * n := by
  have h1 : x k ≤ centre n d a c e k + c := hx.2 k
  rw [hk] at h1
  unfold centre at h1 ⊢
  have h2 : ((digit n d k e : ℕ) : ℝ) + 1 ≤ n := by
    have := Verif.Common.digit_lt n d k e (by omega)
    exact_mod_cast this
  nlinarith

variable {mesh : Mesh ℝ d} {node : ℕ → ℕ → ℕ}

/-- A function of the space that is zero at the nodes of an outer face is zero on the face. -/
theorem zero_on_face (h : CubeCells n p a c mesh node) (hn : 1 ≤ n) {v : ℕ → ℝ} {V : ℕ → MvPolynomial (Fin d) ℝ}
    (hV : CellField mesh p v V) {vh : (Fin d → ℝ) → ℝ} (hVe : ∀ e < n ^ d, ∀ x ∈ cell n d a c e, vh x = eval x (V e))
    {k : Fin d} {t : ℝ} (ht : t = a ∨ t = a + 2 * c * n) (hz : ∀ j < mesh.numNodes, mesh.coords j k = t → v j = 0)
    {x : Fin d → ℝ} (hx : x ∈ Set.Icc (fun _ : Fin d => a) (fun _ => a + 2 * c * n)) (hxk : x k = t) : vh x = 0 := by
  rw [← cover hn h.width, Set.mem_iUnion] at hx
  obtain ⟨e, he⟩ := hx
  rw [hVe e e.2 x he]
  have h1 := h.face_zero hV k e.2 (t := t) (by
    rcases ht with rfl | rfl
    · left; exact (cell_of_lower h.width he hxk).symm
    · right; exact (cell_of_upper hn h.width he hxk).symm) hz
  have h2 := congrArg (eval x) h1
  rw [eval_faceSub, map_zero] at h2
  rwa [← hxk, Function.update_eq_self] at h2

/-- Coordinates of the faces between the cells. -/
def gridCoords (n : ℕ) (a c : ℝ) : Set ℝ := Set.range fun i : Fin (n + 1) => a + 2 * c * (i : ℕ)

theorem gridCoords_countable : (gridCoords n a c).Countable := Set.countable_range _

theorem hasDerivAt_of_line {f : (Fin d → ℝ) → ℝ} {v : ℝ} {x : Fin d → ℝ} {k : Fin d}
    (h : HasLineDerivAt ℝ f v x (Pi.single k 1)) : HasDerivAt (fun y => f (Function.update x k y)) v (x k) := by
  unfold HasLineDerivAt at h
  have h1 : HasDerivAt (fun y : ℝ => y - x k) 1 (x k) := (hasDerivAt_id (x k)).sub_const (x k)
  have h2 : HasDerivAt (fun t : ℝ => f (x + t • (Pi.single k 1 : Fin d → ℝ))) v (x k - x k) := by rw [sub_self]; exact h
  have h3 := HasDerivAt.comp (h := fun y => y - x k) (x k) h2 h1
  rw [mul_one] at h3
  refine h3.congr_of_eventuallyEq (Filter.Eventually.of_forall fun y => ?_)
  simp only [Function.comp_apply]
  congr 1
  funext j
  by_cases hj : j = k
  · subst hj; simp
  · simp [hj]

/-- Off the grid coordinates, functions of the space have a derivative along the axis. -/
theorem hasLineDerivAt_cells (hn : 1 ≤ n) (hc : 0 < c) {V : ℕ → MvPolynomial (Fin d) ℝ} {vh : (Fin d → ℝ) → ℝ}
    (hVe : ∀ e < n ^ d, ∀ x ∈ cell n d a c e, vh x = eval x (V e)) {x : Fin d → ℝ} {k : Fin d}
    (hx : x ∈ Set.Icc (fun _ : Fin d => a) (fun _ => a + 2 * c * n)) (hS : x k ∉ gridCoords n a c) :
    HasDerivAt (fun y => vh (Function.update x k y)) (partialDeriv k vh x) (x k) := by
  rw [← cover hn hc, Set.mem_iUnion] at hx
  obtain ⟨e, he⟩ := hx
  have hlt : (digit n d k e : ℕ) < n := Verif.Common.digit_lt n d k e (by omega)
  have h1 : centre n d a c e k - c < x k := by
    refine lt_of_le_of_ne (he.1 k) fun hne => hS ⟨⟨digit n d k e, by omega⟩, ?_⟩
    rw [← hne]
    unfold centre
    push_cast
    ring
  have h2 : x k < centre n d a c e k + c := by
    refine lt_of_le_of_ne (he.2 k) fun hne => hS ⟨⟨digit n d k e + 1, by omega⟩, ?_⟩
    rw [hne]
    unfold centre
    push_cast
    ring
  have hline : HasLineDerivAt ℝ vh (eval x (pderiv k (V e))) x (Pi.single k 1) := by
    have h3 := hasLineDerivAt_eval (V e) k x
    unfold HasLineDerivAt at h3 ⊢
    refine h3.congr_of_eventuallyEq ?_
    have h4 : ∀ᶠ t : ℝ in nhds 0, x k + t ∈ Set.Ioo (centre n d a c e k - c) (centre n d a c e k + c) := by
      have h5 : ContinuousAt (fun t : ℝ => x k + t) 0 := by fun_prop
      exact h5.eventually_mem (isOpen_Ioo.mem_nhds (by rw [add_zero]; exact ⟨h1, h2⟩))
    filter_upwards [h4] with t ht
    apply hVe e e.2
    constructor
    · intro j
      by_cases hj : j = k
      · subst hj; simpa using ht.1.le
      · have := he.1 j; simpa [hj] using this
    · intro j
      by_cases hj : j = k
      · subst hj; simpa using ht.2.le
      · have := he.2 j; simpa [hj] using this
  have h6 : partialDeriv k vh x = eval x (pderiv k (V e)) := hline.lineDeriv
  rw [h6]
  exact hasDerivAt_of_line hline

theorem continuousOn_cells (hn : 1 ≤ n) (hc : 0 < c) {V : ℕ → MvPolynomial (Fin d) ℝ} {vh : (Fin d → ℝ) → ℝ}
    (hVe : ∀ e < n ^ d, ∀ x ∈ cell n d a c e, vh x = eval x (V e)) :
    ContinuousOn vh (Set.Icc (fun _ : Fin d => a) (fun _ => a + 2 * c * n)) := by
  have hloc : LocallyFinite (fun e : Fin (n ^ d) => cell n d a c (e : ℕ)) := locallyFinite_of_finite _
  rw [← cover hn hc]
  refine hloc.continuousOn_iUnion (fun e => isClosed_Icc) (fun e => ?_)
  exact (MvPolynomial.continuous_eval (V e)).continuousOn.congr (fun x hx => hVe e e.2 x hx)

/-- Green's formula along one axis. -/
theorem green_axis (hn : 1 ≤ n) (hc : 0 < c) {V : ℕ → MvPolynomial (Fin d) ℝ} {vh : (Fin d → ℝ) → ℝ}
    (hVe : ∀ e < n ^ d, ∀ x ∈ cell n d a c e, vh x = eval x (V e)) {w : (Fin d → ℝ) → ℝ} (hw : ContDiff ℝ 1 w) (k : Fin d)
    (h0 : ∀ x ∈ Set.Icc (fun _ : Fin d => a) (fun _ => a + 2 * c * n), x k = a ∨ x k = a + 2 * c * n →
      vh x = 0 ∨ w x = 0) :
    IntegrableOn (fun x => partialDeriv k vh x * w x + vh x * partialDeriv k w x)
      (Set.Icc (fun _ : Fin d => a) (fun _ => a + 2 * c * n)) ∧
    ∫ x in Set.Icc (fun _ : Fin d => a) (fun _ => a + 2 * c * n),
      (partialDeriv k vh x * w x + vh x * partialDeriv k w x) = 0 := by
  have hwd : Differentiable ℝ w := hw.differentiable (by norm_num)
  have hwc : Continuous (partialDeriv k w) := by
    have := contDiff_partialDeriv (m := 0) (g := w) (by simpa using hw) k
    exact this.continuous
  have hint : IntegrableOn (fun x => partialDeriv k vh x * w x + vh x * partialDeriv k w x)
      (Set.Icc (fun _ : Fin d => a) (fun _ => a + 2 * c * n)) := by
    refine integrableOn_cells hn hc _ (fun e x => eval x (pderiv k (V e)) * w x + eval x (V e) * partialDeriv k w x)
      (fun e => ?_) (fun e he x hx => ?_)
    · exact ((MvPolynomial.continuous_eval _).mul hw.continuous).add ((MvPolynomial.continuous_eval _).mul hwc)
    · rw [partial_eq hVe he hx, hVe e he x (openCell_sub hx)]
  refine ⟨hint, ?_⟩
  have hab : a ≤ a + 2 * c * n := by
    have : 0 ≤ 2 * c * n := by positivity
    linarith
  refine flux_cube k hab (fun x => vh x * w x) _ (gridCoords_countable (n := n) (a := a) (c := c))
    ((continuousOn_cells hn hc hVe).mul hw.continuous.continuousOn) (fun x hx _ hS => ?_) hint (fun x hx hk => ?_)
  · have h1 := hasLineDerivAt_cells hn hc hVe hx hS
    have h2 := hasDerivAt_update hwd x k (x k)
    have h3 := h1.mul h2
    rw [Function.update_eq_self] at h3
    exact h3
  · rcases h0 x hx hk with h1 | h1 <;> simp [h1]

/-- Poincaré's inequality for functions of the space that vanish on the two faces across an axis. -/
theorem poincare (hn : 1 ≤ n) (hc : 0 < c) {V : ℕ → MvPolynomial (Fin d) ℝ} {vh : (Fin d → ℝ) → ℝ}
    (hVe : ∀ e < n ^ d, ∀ x ∈ cell n d a c e, vh x = eval x (V e)) (k : Fin d)
    (h0 : ∀ x ∈ Set.Icc (fun _ : Fin d => a) (fun _ => a + 2 * c * n), x k = a ∨ x k = a + 2 * c * n → vh x = 0) :
    ∫ x in Set.Icc (fun _ : Fin d => a) (fun _ => a + 2 * c * n), vh x ^ 2 ≤
      4 * (2 * c * n) ^ 2 * ∫ x in Set.Icc (fun _ : Fin d => a) (fun _ => a + 2 * c * n), partialDeriv k vh x ^ 2 := by
  set Q := Set.Icc (fun _ : Fin d => a) (fun _ => a + 2 * c * n) with hQ
  set L := 2 * c * n with hL
  have hsq : ∀ e < n ^ d, ∀ x ∈ cell n d a c e, (fun x => vh x ^ 2) x = eval x ((fun e => V e ^ 2) e) := fun e he x hx => by
    simp only [map_pow, hVe e he x hx]
  have hw : ContDiff ℝ 1 (fun x : Fin d → ℝ => x k - a) := (contDiff_apply ℝ ℝ k).sub contDiff_const
  obtain ⟨i1, g1⟩ := green_axis hn hc hsq hw k (fun x hx hk => Or.inl (by
    rw [h0 x hx hk]; ring))
  have hpd : ∀ x, partialDeriv k (fun x : Fin d → ℝ => x k - a) x = 1 := by
    intro x
    have h1 := hasLineDerivAt_eval (X k - C a : MvPolynomial (Fin d) ℝ) k x
    have h2 : (fun y => eval y (X k - C a : MvPolynomial (Fin d) ℝ)) = fun y : Fin d → ℝ => y k - a := by
      funext y; simp
    rw [h2] at h1
    unfold partialDeriv
    rw [h1.lineDeriv]
    simp
  have i2 : IntegrableOn (fun x => vh x ^ 2) Q := integrableOn_cells hn hc _ (fun e x => eval x (V e) ^ 2)
    (fun e => (MvPolynomial.continuous_eval _).pow 2) (fun e he x hx => by rw [hVe e he x (openCell_sub hx)])
  have i3 : IntegrableOn (fun x => partialDeriv k vh x ^ 2) Q := integrableOn_cells hn hc _
    (fun e x => eval x (pderiv k (V e)) ^ 2) (fun e => (MvPolynomial.continuous_eval _).pow 2)
    (fun e he x hx => by rw [partial_eq hVe he hx])
  have hae : ∀ᵐ x ∂(volume.restrict Q), vh x ^ 2 ≤
      2 * (partialDeriv k (fun x => vh x ^ 2) x * (x k - a) + vh x ^ 2 * partialDeriv k (fun x => x k - a) x) +
        4 * L ^ 2 * partialDeriv k vh x ^ 2 := by
    have hQm : ∀ᵐ x ∂(volume.restrict Q), x ∈ Q := ae_restrict_mem measurableSet_Icc
    filter_upwards [ae_openCell (d := d) (a := a) hn hc, hQm] with x hx hxQ
    obtain ⟨e, he, hx⟩ := hx
    rw [partial_eq hsq he hx, partial_eq hVe he hx, hpd x, hVe e he x (openCell_sub hx)]
    simp only [Derivation.leibniz_pow, nsmul_eq_mul, smul_eq_mul, map_mul, map_pow, Nat.cast_ofNat]
    set u := eval x (V e)
    set D := eval x (pderiv k (V e))
    have hx1 : 0 ≤ x k - a := by have := hxQ.1 k; simp only at this; linarith
    have hx2 : x k - a ≤ L := by have := hxQ.2 k; simp only at this; linarith
    have h3 : (x k - a) ^ 2 * D ^ 2 ≤ L ^ 2 * D ^ 2 := mul_le_mul_of_nonneg_right (by nlinarith) (sq_nonneg D)
    norm_num
    nlinarith [sq_nonneg (u + 2 * (x k - a) * D)]
  have hmono := integral_mono_ae i2 ((i1.const_mul 2).add (i3.const_mul (4 * L ^ 2))) hae
  rw [integral_add' (i1.const_mul 2) (i3.const_mul (4 * L ^ 2)), integral_const_mul, integral_const_mul, g1, mul_zero,
    zero_add] at hmono
  exact hmono

/-- Error of a Galerkin solution `uh` against an interpolant `wh` of the solution `us`. -/
theorem galerkin_error (hn : 1 ≤ n) (hc : 0 < c) {U W F : ℕ → MvPolynomial (Fin d) ℝ} {uh wh fh us : (Fin d → ℝ) → ℝ}
    (hUe : ∀ e < n ^ d, ∀ x ∈ cell n d a c e, uh x = eval x (U e))
    (hWe : ∀ e < n ^ d, ∀ x ∈ cell n d a c e, wh x = eval x (W e))
    (hFe : ∀ e < n ^ d, ∀ x ∈ cell n d a c e, fh x = eval x (F e)) (hus : ContDiff ℝ 2 us) {ε : ℝ}
    (hf : ∀ e < n ^ d, ∀ x ∈ cell n d a c e, |- (∑ k, partialDeriv k (partialDeriv k us) x) - eval x (F e)| ≤ ε)
    (hw : ∀ e < n ^ d, ∀ x ∈ cell n d a c e, ∀ k, |partialDeriv k us x - eval x (pderiv k (W e))| ≤ ε)
    (hweak : ∫ x in Set.Icc (fun _ : Fin d => a) (fun _ => a + 2 * c * n),
        ∑ k, partialDeriv k uh x * partialDeriv k (fun x => uh x - wh x) x =
      ∫ x in Set.Icc (fun _ : Fin d => a) (fun _ => a + 2 * c * n), fh x * (uh x - wh x))
    (h0 : ∀ k : Fin d, ∀ x ∈ Set.Icc (fun _ : Fin d => a) (fun _ => a + 2 * c * n), x k = a ∨ x k = a + 2 * c * n →
      uh x - wh x = 0 ∨ partialDeriv k us x = 0)
    (k0 : Fin d) (h1 : ∀ x ∈ Set.Icc (fun _ : Fin d => a) (fun _ => a + 2 * c * n), x k0 = a ∨ x k0 = a + 2 * c * n →
      uh x - wh x = 0) :
    IntegrableOn (fun x => ∑ k, partialDeriv k (fun x => uh x - wh x) x ^ 2)
      (Set.Icc (fun _ : Fin d => a) (fun _ => a + 2 * c * n)) ∧
    IntegrableOn (fun x => (uh x - wh x) ^ 2) (Set.Icc (fun _ : Fin d => a) (fun _ => a + 2 * c * n)) ∧
    ∫ x in Set.Icc (fun _ : Fin d => a) (fun _ => a + 2 * c * n), ∑ k, partialDeriv k (fun x => uh x - wh x) x ^ 2 ≤
      2 * (4 * (2 * c * n) ^ 2 + d) * ε ^ 2 *
        volume.real (Set.Icc (fun _ : Fin d => a) (fun _ => a + 2 * c * n)) ∧
    ∫ x in Set.Icc (fun _ : Fin d => a) (fun _ => a + 2 * c * n), (uh x - wh x) ^ 2 ≤
      4 * (2 * c * n) ^ 2 * ∫ x in Set.Icc (fun _ : Fin d => a) (fun _ => a + 2 * c * n),
        ∑ k, partialDeriv k (fun x => uh x - wh x) x ^ 2 := by
  set Q := Set.Icc (fun _ : Fin d => a) (fun _ => a + 2 * c * n) with hQ
  set L := 2 * c * n with hL
  have hLpos : 0 < L := by
    have : (0 : ℝ) < n := by exact_mod_cast hn
    positivity
  have hEe : ∀ e < n ^ d, ∀ x ∈ cell n d a c e, (fun x => uh x - wh x) x = eval x ((fun e => U e - W e) e) :=
    fun e he x hx => by simp only [map_sub, hUe e he x hx, hWe e he x hx]
  have hgreen := fun k : Fin d => green_axis hn hc hEe
    (w := partialDeriv k us) (contDiff_partialDeriv (m := 1) (g := us) (by norm_num; exact hus) k) k (h0 k)
  have hpc : ∀ k : Fin d, Continuous (partialDeriv k us) := fun k =>
    (contDiff_partialDeriv (m := 1) (g := us) (by norm_num; exact hus) k).continuous
  have iN : IntegrableOn (fun x => ∑ k, partialDeriv k (fun x => uh x - wh x) x ^ 2) Q := integrableOn_cells hn hc _
    (fun e x => ∑ k, eval x (pderiv k (U e - W e)) ^ 2)
    (fun e => continuous_finset_sum _ fun k _ => (MvPolynomial.continuous_eval _).pow 2)
    (fun e he x hx => Finset.sum_congr rfl fun k _ => by rw [partial_eq hEe he hx])
  have iE : IntegrableOn (fun x => (uh x - wh x) ^ 2) Q := integrableOn_cells hn hc _ (fun e x => eval x (U e - W e) ^ 2)
    (fun e => (MvPolynomial.continuous_eval _).pow 2) (fun e he x hx => by
      have := hEe e he x (openCell_sub hx)
      simp only at this
      rw [this])
  have iA : IntegrableOn (fun x => ∑ k, partialDeriv k uh x * partialDeriv k (fun x => uh x - wh x) x) Q :=
    integrableOn_cells hn hc _ (fun e x => ∑ k, eval x (pderiv k (U e)) * eval x (pderiv k (U e - W e)))
    (fun e => continuous_finset_sum _ fun k _ => (MvPolynomial.continuous_eval _).mul (MvPolynomial.continuous_eval _))
    (fun e he x hx => Finset.sum_congr rfl fun k _ => by rw [partial_eq hEe he hx, partial_eq hUe he hx])
  have iB : IntegrableOn (fun x => fh x * (uh x - wh x)) Q :=
    integrableOn_cells hn hc _ (fun e x => eval x (F e) * eval x (U e - W e))
    (fun e => (MvPolynomial.continuous_eval _).mul (MvPolynomial.continuous_eval _))
    (fun e he x hx => by
      have := hEe e he x (openCell_sub hx)
      simp only at this
      rw [this, hFe e he x (openCell_sub hx)])
  have iP : ∀ k, IntegrableOn (fun x => partialDeriv k (fun x => uh x - wh x) x ^ 2) Q := fun k => integrableOn_cells hn hc _
    (fun e x => eval x (pderiv k (U e - W e)) ^ 2)
    (fun e => (MvPolynomial.continuous_eval _).pow 2)
    (fun e he x hx => by rw [partial_eq hEe he hx])
  have hpo := poincare hn hc hEe k0 h1
  rw [← hQ, ← hL] at hpo
  have hk0 : ∫ x in Q, partialDeriv k0 (fun x => uh x - wh x) x ^ 2 ≤
      ∫ x in Q, ∑ k, partialDeriv k (fun x => uh x - wh x) x ^ 2 :=
    integral_mono (iP k0) iN fun x => Finset.single_le_sum
      (f := fun k => partialDeriv k (fun x => uh x - wh x) x ^ 2) (fun k _ => sq_nonneg _) (Finset.mem_univ k0)
  have hpo2 : ∫ x in Q, (uh x - wh x) ^ 2 ≤ 4 * L ^ 2 * ∫ x in Q, ∑ k, partialDeriv k (fun x => uh x - wh x) x ^ 2 :=
    le_trans hpo (mul_le_mul_of_nonneg_left hk0 (by positivity))
  refine ⟨iN, iE, ?_, hpo2⟩
  set G : (Fin d → ℝ) → ℝ := fun x => ∑ k, (partialDeriv k (fun x => uh x - wh x) x * partialDeriv k us x +
    (uh x - wh x) * partialDeriv k (partialDeriv k us) x) with hG
  have iG : IntegrableOn G Q := integrable_finset_sum _ fun k _ => (hgreen k).1
  have hG0 : ∫ x in Q, G x = 0 := by
    rw [hG, integral_finset_sum _ fun k _ => (hgreen k).1]
    exact Finset.sum_eq_zero fun k _ => (hgreen k).2
  have iC : IntegrableOn (fun _ : Fin d → ℝ => (4 * L ^ 2 + d) * ε ^ 2) Q := integrableOn_const (by
    rw [hQ]; exact isCompact_Icc.measure_lt_top.ne)
  have hae : ∀ᵐ x ∂(volume.restrict Q), ∑ k, partialDeriv k (fun x => uh x - wh x) x ^ 2 ≤
      ((∑ k, partialDeriv k uh x * partialDeriv k (fun x => uh x - wh x) x) - fh x * (uh x - wh x)) - G x +
      (1 / (16 * L ^ 2) * (uh x - wh x) ^ 2 + 1 / 4 * (∑ k, partialDeriv k (fun x => uh x - wh x) x ^ 2) +
        (4 * L ^ 2 + d) * ε ^ 2) := by
    filter_upwards [ae_openCell (d := d) (a := a) hn hc] with x hx
    obtain ⟨e, he, hx⟩ := hx
    have hxc := openCell_sub hx
    have hf' := hf e he x hxc
    have hw' := hw e he x hxc
    have hE : ∀ k, partialDeriv k (fun x => uh x - wh x) x = eval x (pderiv k (U e)) - eval x (pderiv k (W e)) := fun k => by
      rw [partial_eq hEe he hx]; simp
    simp only [hG, hE, partial_eq hUe he hx]
    rw [hFe e he x hxc]
    set E := uh x - wh x
    set fx := eval x (F e)
    set S := ∑ k, partialDeriv k (partialDeriv k us) x with hS
    have e1 : ∑ k, (((eval x) ((pderiv k) (U e)) - (eval x) ((pderiv k) (W e))) * partialDeriv k us x +
        E * partialDeriv k (partialDeriv k us) x) =
        (∑ k, ((eval x) ((pderiv k) (U e)) - (eval x) ((pderiv k) (W e))) * partialDeriv k us x) + E * S := by
      rw [Finset.sum_add_distrib, hS, Finset.mul_sum]
    rw [e1]
    have e2 : ∑ k, ((eval x) ((pderiv k) (U e)) - (eval x) ((pderiv k) (W e))) ^ 2 ≤
        (∑ k, (eval x) ((pderiv k) (U e)) * ((eval x) ((pderiv k) (U e)) - (eval x) ((pderiv k) (W e)))) -
        (∑ k, ((eval x) ((pderiv k) (U e)) - (eval x) ((pderiv k) (W e))) * partialDeriv k us x) +
        (1 / 4 * ∑ k, ((eval x) ((pderiv k) (U e)) - (eval x) ((pderiv k) (W e))) ^ 2 + d * ε ^ 2) := by
      have hd' : (d : ℝ) * ε ^ 2 = ∑ _k : Fin d, ε ^ 2 := by simp
      rw [hd', Finset.mul_sum, ← Finset.sum_add_distrib, ← Finset.sum_sub_distrib, ← Finset.sum_add_distrib]
      refine Finset.sum_le_sum fun k _ => ?_
      exact young_axis (hw' k)
    have e3 := young_load hLpos (E := E) hf'
    nlinarith
  have hi := integral_mono_ae iN (((iA.sub iB).sub iG).add (((iE.const_mul (1 / (16 * L ^ 2))).add
    (iN.const_mul (1 / 4))).add iC)) hae
  rw [integral_add' ((iA.sub iB).sub iG) (((iE.const_mul (1 / (16 * L ^ 2))).add (iN.const_mul (1 / 4))).add iC),
    integral_sub' (iA.sub iB) iG, integral_sub' iA iB,
    integral_add' ((iE.const_mul (1 / (16 * L ^ 2))).add (iN.const_mul (1 / 4))) iC,
    integral_add' (iE.const_mul (1 / (16 * L ^ 2))) (iN.const_mul (1 / 4)), integral_const_mul, integral_const_mul,
    setIntegral_const, hG0, hweak, smul_eq_mul] at hi
  have h5 : 1 / (16 * L ^ 2) * ∫ x in Q, (uh x - wh x) ^ 2 ≤
      1 / 4 * ∫ x in Q, ∑ k, partialDeriv k (fun x => uh x - wh x) x ^ 2 := by
    refine le_trans (mul_le_mul_of_nonneg_left hpo2 (by positivity)) (le_of_eq ?_)
    field_simp
    norm_num
  linarith

end CubeCells

end Verif.Core
