import Verif.Props.C47
import Verif.Lemmas.Stratonovich
import Verif.Spec.Stratonovich
import Mathlib.Analysis.Normed.Group.Constructions
import Mathlib.MeasureTheory.Integral.IntervalIntegral.FundThmCalculus
import Mathlib.Analysis.SpecialFunctions.Trigonometric.Bounds

/-!
# C99: `sdeint` converges to the Stratonovich solution along every path
-/

namespace Verif.SDE

open Verif.Spec

/-- Drift and diagonal diffusion as one function for `sdeint`; the form of `Dynamics` and of
`VariationalDriftDiffusion` (transformer.py 686-699, 757-774). -/
def diagonal {ι : Type*} (f : (ι → ℝ) → ℝ → ι → ℝ) (g : ι → ℝ → ℝ) (y : ι → ℝ) (t : ℝ) (dw : ι → ℝ) :
    (ι → ℝ) × (ι → ℝ) := (f y t, fun i => dw i * g i (y i))

theorem length_increments {ι : Type*} (W : ℝ → ι → ℝ) (n : ℕ) : (increments W n).length = n := by
  simp [increments]

theorem getElem_increments {ι : Type*} (W : ℝ → ι → ℝ) (n k : ℕ) (h : k < (increments W n).length) :
    (increments W n)[k] = fun i => W ((k + 1 : ℕ) / n) i - W (k / n) i := by
  rw [length_increments] at h
  apply Option.some_injective
  rw [← List.getElem?_eq_getElem]
  unfold increments
  rw [List.getElem?_map, List.getElem?_range h, Option.map_some]

/-- Bounds and Lipschitz constants of the coefficients. -/
structure CoefficientBounds {ι : Type*} [Fintype ι] (K : ℝ) (f : (ι → ℝ) → ℝ → ι → ℝ) (g g' : ι → ℝ → ℝ) : Prop where
  diffusion : ∀ i, DiffusionBounds K (g i) (g' i)
  drift : ∀ y t i, |f y t i| ≤ K
  lipschitz : ∀ y z s t i, |f y s i - f z t i| ≤ K * (‖y - z‖ + |s - t|)

set_option maxHeartbeats 1000000 in
/-- For every path, however rough, the states that `sdeint` returns for the increments of the path at `m n` points differ
from the Stratonovich solution by at most a constant times `1 / (m n) + ω + m n ω ^ 3`, where `ω` bounds the oscillation
of the path between two points. The constant depends on the bounds of the coefficients only. -/
theorem C99_path (K : ℝ) (hK : 1 ≤ K) :
    ∃ C : ℝ, 0 ≤ C ∧ ∀ (ι : Type) [Fintype ι] (f : (ι → ℝ) → ℝ → ι → ℝ) (g g' : ι → ℝ → ℝ), CoefficientBounds K f g g' →
      ∀ (W Y : ℝ → ι → ℝ), IsStratonovich f g W Y →
      ∀ (m n : ℕ) (ω : ℝ), 0 < m → 0 < n → 0 ≤ ω → ω ≤ 1 →
        (∀ s ∈ Set.Icc (0 : ℝ) 1, ∀ t ∈ Set.Icc (0 : ℝ) 1, |s - t| ≤ 1 / (m * n : ℕ) → ∀ i, |W s i - W t i| ≤ ω) →
        ∃ ys : List (ι → ℝ),
          sdeint (diagonal f g) (Y 0) ((List.range (m + 1)).map fun i : ℕ => (i : ℝ) / m) (increments W (m * n)) =
            .ok ys ∧ ∃ h : ys.length = m, ∀ (j : ℕ) (hj : j < m) (i : ι),
              |ys[j] i - Y ((j + 1 : ℕ) / m) i| ≤ C * (1 / (m * n : ℕ) + ω + (m * n : ℕ) * ω ^ 3) := by
  refine ⟨K * (Real.exp (2 * K ^ 5) * (504 * K ^ 16)), by positivity, ?_⟩
  intro ι _ f g g' B W Y hY m n ω hm hn hω0 hω1 hosc
  obtain ⟨φ, hφ, hZ⟩ := hY
  have hN : 0 < m * n := Nat.mul_pos hm hn
  have hNR : (0 : ℝ) < (m * n : ℕ) := by exact_mod_cast hN
  have hmR : (0 : ℝ) < m := by exact_mod_cast hm
  have hnR : (0 : ℝ) < n := by exact_mod_cast hn
  obtain ⟨X, hX0, hX, hres⟩ := C47_uniform (diagonal f g) (Y 0) (0 : ℝ) (1 / m) (by positivity) m n hn hm
    (increments W (m * n)) (length_increments W (m * n))
  have hts : (List.range (m + 1)).map (fun i : ℕ => (0 : ℝ) + i * (1 / m)) =
      (List.range (m + 1)).map fun i : ℕ => (i : ℝ) / m := by
    apply List.map_congr_left
    intro i _
    ring
  rw [hts] at hres
  refine ⟨_, hres, by simp, ?_⟩
  set h : ℝ := 1 / (m * n : ℕ) with hh
  have hhpos : 0 < h := by rw [hh]; positivity
  have hh1 : h ≤ 1 := by
    rw [hh, div_le_one hNR]
    exact_mod_cast hN
  have hstep : (1 / (m : ℝ)) / n = h := by rw [hh]; push_cast; rw [div_div]
  have htk : ∀ k : ℕ, k ≤ m * n → (k : ℝ) * h ∈ Set.Icc (0 : ℝ) 1 := by
    intro k hk
    refine ⟨by positivity, ?_⟩
    rw [hh, mul_one_div, div_le_one hNR]
    exact_mod_cast hk
  -- the increments of the solution
  have hK0 : 0 ≤ K := by linarith
  have hb : ∀ y t i, |f y t i / g i (y i)| ≤ K * K := by
    intro y t i
    have hg := (B.diffusion i).pos hK (y i)
    rw [abs_div, abs_of_pos hg, div_eq_mul_one_div]
    exact mul_le_mul (B.drift y t i) ((B.diffusion i).inv_le hK _) (by positivity) hK0
  have hcell : ∀ k : ℕ, k < m * n → ∀ s ∈ Set.Icc ((k : ℝ) * h) ((k + 1 : ℕ) * h),
      s ∈ Set.Icc (0 : ℝ) 1 ∧ |s - k * h| ≤ h := by
    intro k hk s hs
    have h1 := htk k hk.le
    have h2 := htk (k + 1) hk
    refine ⟨⟨h1.1.trans hs.1, hs.2.trans h2.2⟩, ?_⟩
    rw [abs_of_nonneg (by linarith [hs.1])]
    have := hs.2
    push_cast at this
    linarith
  have hmove : ∀ k : ℕ, k < m * n → ∀ s ∈ Set.Icc ((k : ℝ) * h) ((k + 1 : ℕ) * h),
      ‖Y s - Y (k * h)‖ ≤ K * (ω + K ^ 2 * h) := by
    intro k hk s hs
    rw [pi_norm_le_iff_of_nonneg (by positivity)]
    intro i
    rw [Pi.sub_apply, Real.norm_eq_abs]
    refine ((B.diffusion i).expand hK (hφ i) _ _).trans (mul_le_mul_of_nonneg_left ?_ hK0)
    have hsub : Set.Icc ((k : ℝ) * h) ((k + 1 : ℕ) * h) ⊆ Set.Icc 0 1 := fun v hv => (hcell k hk v hv).1
    have hmv := (convex_Icc ((k : ℝ) * h) ((k + 1 : ℕ) * h)).norm_image_sub_le_of_norm_hasDerivWithin_le
      (f := fun t => φ i (Y t i) - W t i) (C := K * K)
      (fun v hv => (hZ i v (hsub hv)).mono hsub) (fun v _ => hb _ _ _)
      (Set.left_mem_Icc.mpr (hs.1.trans hs.2)) hs
    simp only [Real.norm_eq_abs] at hmv
    have hw := hosc s (hcell k hk s hs).1 (k * h) (htk k hk.le) (hcell k hk s hs).2 i
    have e : φ i (Y s i) - φ i (Y (k * h) i) =
        (W s i - W (k * h) i) + (φ i (Y s i) - W s i - (φ i (Y (k * h) i) - W (k * h) i)) := by ring
    rw [e]
    refine (abs_add_le _ _).trans (add_le_add hw (hmv.trans ?_))
    rw [sq]
    exact mul_le_mul_of_nonneg_left (hcell k hk s hs).2 (by positivity)
  have hexact : ∀ k : ℕ, k < m * n → ∀ i,
      |φ i (Y ((k + 1 : ℕ) * h) i) - φ i (Y (k * h) i) - (W ((k + 1 : ℕ) * h) i - W (k * h) i) -
        h * (f (Y (k * h)) (k * h) i / g i (Y (k * h) i))| ≤ 4 * K ^ 7 * (h * ω + h ^ 2) := by
    intro k hk i
    have hsub : Set.Icc ((k : ℝ) * h) ((k + 1 : ℕ) * h) ⊆ Set.Icc 0 1 := fun v hv => (hcell k hk v hv).1
    have hle : (k : ℝ) * h ≤ (k + 1 : ℕ) * h := by push_cast; nlinarith
    set b0 := f (Y (k * h)) (k * h) i / g i (Y (k * h) i) with hb0
    have hmv := (convex_Icc ((k : ℝ) * h) ((k + 1 : ℕ) * h)).norm_image_sub_le_of_norm_hasDerivWithin_le
      (f := fun t => φ i (Y t i) - W t i - t * b0)
      (f' := fun t => f (Y t) t i / g i (Y t i) - b0) (C := 4 * K ^ 7 * (ω + h))
      (fun v hv => by
        have h1 := (hZ i v (hsub hv)).mono hsub
        have h2 : HasDerivWithinAt (fun t : ℝ => t * b0) (1 * b0) (Set.Icc ((k : ℝ) * h) ((k + 1 : ℕ) * h)) v :=
          ((hasDerivAt_id v).mul_const b0).hasDerivWithinAt
        rw [one_mul] at h2
        exact h1.sub h2)
      (fun v hv => by
        rw [Real.norm_eq_abs]
        have hv1 := hmove k hk v hv
        have hv2 := (hcell k hk v hv).2
        have hlip := B.lipschitz (Y v) (Y (k * h)) v (k * h) i
        have hcoord : |Y v i - Y (k * h) i| ≤ ‖Y v - Y (k * h)‖ + |v - k * h| := by
          have := norm_le_pi_norm (Y v - Y (k * h)) i
          rw [Pi.sub_apply, Real.norm_eq_abs] at this
          have := abs_nonneg (v - k * h)
          linarith
        have hq := (B.diffusion i).quot_lipschitz hK (B.drift (Y (k * h)) (k * h) i) hlip hcoord
        refine hq.trans ?_
        have hk1 : K ≤ K ^ 3 := by
          calc K = K ^ 1 := (pow_one K).symm
            _ ≤ K ^ 3 := pow_le_pow_right₀ hK (by norm_num)
        have hk3 : 1 ≤ K ^ 3 := one_le_pow₀ hK
        have hA : ‖Y v - Y (k * h)‖ + |v - k * h| ≤ 2 * K ^ 3 * (ω + h) := by
          have a1 : K * ω ≤ K ^ 3 * ω := mul_le_mul_of_nonneg_right hk1 hω0
          have a2 : 1 * h ≤ K ^ 3 * h := mul_le_mul_of_nonneg_right hk3 hhpos.le
          have a3 : 0 ≤ K ^ 3 * ω := by positivity
          have e : K * (ω + K ^ 2 * h) = K * ω + K ^ 3 * h := by ring
          rw [e] at hv1
          linarith
        calc 2 * K ^ 4 * (‖Y v - Y (k * h)‖ + |v - k * h|) ≤ 2 * K ^ 4 * (2 * K ^ 3 * (ω + h)) := by gcongr
          _ = _ := by ring)
      (Set.left_mem_Icc.mpr hle) (Set.right_mem_Icc.mpr hle)
    simp only [Real.norm_eq_abs] at hmv
    have e1 : ((k + 1 : ℕ) : ℝ) * h - k * h = h := by push_cast; ring
    rw [e1, abs_of_pos hhpos] at hmv
    calc _ = |φ i (Y ((k + 1 : ℕ) * h) i) - W ((k + 1 : ℕ) * h) i - (k + 1 : ℕ) * h * b0 -
          (φ i (Y (k * h) i) - W (k * h) i - k * h * b0)| := by
          congr 1
          push_cast
          ring
      _ ≤ 4 * K ^ 7 * (ω + h) * h := hmv
      _ = _ := by ring
  -- the error in the coordinates `φ`
  have hnum : ∀ k : ℕ, k < m * n → ∀ i,
      |φ i (X (k + 1) i) - φ i (X k i) - (W ((k + 1 : ℕ) * h) i - W (k * h) i) -
        h * (f (X k) (k * h) i / g i (X k i))| ≤ 500 * K ^ 16 * (h ^ 2 + h * ω + ω ^ 3) := by
    intro k hk i
    have hXk := congrFun (hX k hk) i
    have hd : ∀ hk' : k < (increments W (m * n)).length, ((increments W (m * n))[k]'(hk')) i = W ((k + 1 : ℕ) * h) i - W (k * h) i := by
      intro hk'
      rw [getElem_increments, hh, mul_one_div, mul_one_div]
    simp only [diagonal, hstep, zero_add, Pi.add_apply, Pi.smul_apply, smul_eq_mul, hd] at hXk
    set d := W ((k + 1 : ℕ) * h) i - W (k * h) i with hddef
    have hdω : |d| ≤ ω := by
      refine hosc _ (htk (k + 1) hk) _ (htk k hk.le) ?_ i
      have e1 : ((k + 1 : ℕ) : ℝ) * h - k * h = h := by push_cast; ring
      rw [e1, abs_of_pos hhpos]
    have hst := (B.diffusion i).step hK (hφ i) (X k i) (h * f (X k) (k * h) i) d h hhpos.le hh1 (by
      rw [abs_mul, abs_of_pos hhpos, mul_comm]
      exact mul_le_mul_of_nonneg_right (B.drift _ _ _) hhpos.le) (hdω.trans hω1)
    have e : X (k + 1) i = X k i + h * f (X k) (k * h) i +
        1 / 2 * (g i (X k i) * d + g i (X k i + g i (X k i) * d) * d) := by
      rw [hXk, mul_comm d (g i (X k i)), mul_comm d (g i (X k i + g i (X k i) * d))]
    rw [e, ← mul_div_assoc h]
    refine hst.trans ?_
    have hd0 := abs_nonneg d
    gcongr
  have hlocal : ∀ k : ℕ, k < m * n → ∀ (e : ℝ), (∀ i, |φ i (X k i) - φ i (Y (k * h) i)| ≤ e) → 0 ≤ e →
      ∀ i, |φ i (X (k + 1) i) - φ i (Y ((k + 1 : ℕ) * h) i)| ≤
        (1 + 2 * K ^ 5 * h) * e + 504 * K ^ 16 * (h ^ 2 + h * ω + ω ^ 3) := by
    intro k hk e he he0 i
    have h1 := hnum k hk i
    have h2 := hexact k hk i
    have hdist : ‖X k - Y (k * h)‖ ≤ K * e := by
      rw [pi_norm_le_iff_of_nonneg (by positivity)]
      intro i
      rw [Pi.sub_apply, Real.norm_eq_abs]
      exact ((B.diffusion i).expand hK (hφ i) _ _).trans (mul_le_mul_of_nonneg_left (he i) hK0)
    have h3 : |f (X k) (k * h) i / g i (X k i) - f (Y (k * h)) (k * h) i / g i (Y (k * h) i)| ≤ 2 * K ^ 5 * e := by
      have hlip := B.lipschitz (X k) (Y (k * h)) (k * h) (k * h) i
      rw [sub_self, abs_zero, add_zero] at hlip
      have hcoord : |X k i - Y (k * h) i| ≤ K * e := by
        have := norm_le_pi_norm (X k - Y (k * h)) i
        rw [Pi.sub_apply, Real.norm_eq_abs] at this
        exact this.trans hdist
      have := (B.diffusion i).quot_lipschitz hK (B.drift (Y (k * h)) (k * h) i)
        (hlip.trans (mul_le_mul_of_nonneg_left hdist hK0)) hcoord
      calc _ ≤ 2 * K ^ 4 * (K * e) := this
        _ = _ := by ring
    have h4 := he i
    have hsplit : φ i (X (k + 1) i) - φ i (Y ((k + 1 : ℕ) * h) i) =
        (φ i (X k i) - φ i (Y (k * h) i)) +
        h * (f (X k) (k * h) i / g i (X k i) - f (Y (k * h)) (k * h) i / g i (Y (k * h) i)) +
        (φ i (X (k + 1) i) - φ i (X k i) - (W ((k + 1 : ℕ) * h) i - W (k * h) i) -
          h * (f (X k) (k * h) i / g i (X k i))) -
        (φ i (Y ((k + 1 : ℕ) * h) i) - φ i (Y (k * h) i) - (W ((k + 1 : ℕ) * h) i - W (k * h) i) -
          h * (f (Y (k * h)) (k * h) i / g i (Y (k * h) i))) := by ring
    rw [hsplit]
    have h5 : |h * (f (X k) (k * h) i / g i (X k i) - f (Y (k * h)) (k * h) i / g i (Y (k * h) i))| ≤
        h * (2 * K ^ 5 * e) := by
      rw [abs_mul, abs_of_pos hhpos]
      exact mul_le_mul_of_nonneg_left h3 hhpos.le
    have hk7 : K ^ 7 ≤ K ^ 16 := pow_le_pow_right₀ hK (by norm_num)
    have h6 : 4 * K ^ 7 * (h * ω + h ^ 2) ≤ 4 * K ^ 16 * (h ^ 2 + h * ω + ω ^ 3) := by
      have : 0 ≤ ω ^ 3 := by positivity
      calc 4 * K ^ 7 * (h * ω + h ^ 2) ≤ 4 * K ^ 16 * (h * ω + h ^ 2) := by gcongr
        _ ≤ _ := mul_le_mul_of_nonneg_left (by linarith) (by positivity)
    refine (abs_sub _ _).trans ?_
    refine (add_le_add_left (abs_add_le _ _) _).trans ?_
    have := abs_add_le (φ i (X k i) - φ i (Y (k * h) i))
      (h * (f (X k) (k * h) i / g i (X k i) - f (Y (k * h)) (k * h) i / g i (Y (k * h) i)))
    linarith
  -- summation
  set l := 504 * K ^ 16 * (h ^ 2 + h * ω + ω ^ 3) with hl
  have hl0 : 0 ≤ l := by rw [hl]; positivity
  set E : ℕ → ℝ := fun k => Nat.rec 0 (fun _ e => (1 + 2 * K ^ 5 * h) * e + l) k with hE
  have hEs : ∀ k, E (k + 1) = (1 + 2 * K ^ 5 * h) * E k + l := fun k => rfl
  have hE0 : ∀ k, 0 ≤ E k := by
    intro k
    induction k with
    | zero => exact le_rfl
    | succ k ih => rw [hEs]; positivity
  have hbound : ∀ k ≤ m * n, ∀ i, |φ i (X k i) - φ i (Y (k * h) i)| ≤ E k := by
    intro k
    induction k with
    | zero => intro _ i; rw [hX0]; simp [hE]
    | succ k ih => intro hk i; rw [hEs]; exact hlocal k hk _ (ih (by omega)) (hE0 k) i
  have hgr := gronwall_steps (c := 2 * K ^ 5) (by positivity) hhpos.le hl0 E (m * n) le_rfl (fun k _ => (hEs k).le)
  intro j hj i
  rw [List.getElem_map, List.getElem_range]
  have hjn : (j + 1) * n ≤ m * n := Nat.mul_le_mul_right n hj
  have htime : (((j + 1) * n : ℕ) : ℝ) * h = (j + 1 : ℕ) / m := by
    rw [hh]
    push_cast
    field_simp
  have h1 := hbound _ hjn i
  have h2 := hgr _ hjn
  rw [htime] at h1
  refine ((B.diffusion i).expand hK (hφ i) _ _).trans ?_
  rw [mul_assoc]
  refine mul_le_mul_of_nonneg_left (h1.trans (h2.trans ?_)) hK0
  have hkn : (((j + 1) * n : ℕ) : ℝ) ≤ (m * n : ℕ) := by exact_mod_cast hjn
  have h3 : Real.exp (2 * K ^ 5 * (((j + 1) * n : ℕ) * h)) ≤ Real.exp (2 * K ^ 5) := by
    apply Real.exp_le_exp.mpr
    have := (htk _ hjn).2
    have : 2 * K ^ 5 * ((((j + 1) * n : ℕ) : ℝ) * h) ≤ 2 * K ^ 5 * 1 := by gcongr
    linarith
  calc _ ≤ Real.exp (2 * K ^ 5) * ((m * n : ℕ) * l) := by gcongr
    _ = Real.exp (2 * K ^ 5) * (504 * K ^ 16) * (h + ω + (m * n : ℕ) * ω ^ 3) := by
      have e : ((m * n : ℕ) : ℝ) * h = 1 := by rw [hh]; field_simp
      rw [hl]
      calc Real.exp (2 * K ^ 5) * (((m * n : ℕ) : ℝ) * (504 * K ^ 16 * (h ^ 2 + h * ω + ω ^ 3)))
          = Real.exp (2 * K ^ 5) * (504 * K ^ 16) *
            ((((m * n : ℕ) : ℝ) * h) * h + (((m * n : ℕ) : ℝ) * h) * ω + ((m * n : ℕ) : ℝ) * ω ^ 3) := by ring
        _ = _ := by rw [e, one_mul, one_mul]

/-- Along a path that is Hölder continuous with exponent `α` the error after `n` steps is of order
`n ^ (-α) + n ^ (1 - 3 α)`. -/
theorem C99_hoelder (K H α : ℝ) (hK : 1 ≤ K) (hH : 0 ≤ H) (hα0 : 0 < α) (hα1 : α ≤ 1) :
    ∃ C : ℝ, 0 ≤ C ∧ ∀ (ι : Type) [Fintype ι] (f : (ι → ℝ) → ℝ → ι → ℝ) (g g' : ι → ℝ → ℝ), CoefficientBounds K f g g' →
      ∀ (W Y : ℝ → ι → ℝ), IsStratonovich f g W Y →
        (∀ s ∈ Set.Icc (0 : ℝ) 1, ∀ t ∈ Set.Icc (0 : ℝ) 1, ∀ i, |W s i - W t i| ≤ H * |s - t| ^ α) →
        ∀ n : ℕ, 0 < n → H * (n : ℝ) ^ (-α) ≤ 1 →
        ∃ y1 : ι → ℝ, sdeint (diagonal f g) (Y 0) [0, 1] (increments W n) = .ok [y1] ∧
          ∀ i, |y1 i - Y 1 i| ≤ C * ((n : ℝ) ^ (-α) + (n : ℝ) ^ (1 - 3 * α)) := by
  obtain ⟨C, hC0, hC⟩ := C99_path K hK
  refine ⟨C * (1 + H + H ^ 3), by positivity, ?_⟩
  intro ι _ f g g' B W Y hY hW n hn hsmall
  have hnR : (0 : ℝ) < n := by exact_mod_cast hn
  have hn1 : (1 : ℝ) ≤ n := by exact_mod_cast hn
  have hp : 0 < (n : ℝ) ^ (-α) := Real.rpow_pos_of_pos hnR _
  obtain ⟨ys, h1, h2, h3⟩ := hC ι f g g' B W Y hY 1 n (H * (n : ℝ) ^ (-α)) one_pos hn (by positivity) hsmall (by
    intro s hs t ht hst i
    refine (hW s hs t ht i).trans (mul_le_mul_of_nonneg_left ?_ hH)
    rw [Nat.one_mul] at hst
    calc |s - t| ^ α ≤ (1 / (n : ℝ)) ^ α := Real.rpow_le_rpow (abs_nonneg _) hst hα0.le
      _ = (n : ℝ) ^ (-α) := by rw [one_div, Real.inv_rpow hnR.le, Real.rpow_neg hnR.le])
  obtain ⟨y1, rfl⟩ := List.length_eq_one_iff.mp h2
  refine ⟨y1, ?_, ?_⟩
  · have e : (List.range (1 + 1)).map (fun i : ℕ => (i : ℝ) / (1 : ℕ)) = [0, 1] := by
      simp [List.range_succ]
    rw [e, Nat.one_mul] at h1
    exact h1
  · intro i
    have h4 := h3 0 one_pos i
    simp only [List.getElem_cons_zero, Nat.one_mul, zero_add, Nat.cast_one, div_one] at h4
    refine h4.trans ?_
    rw [mul_assoc]
    refine mul_le_mul_of_nonneg_left ?_ hC0
    have e1 : 1 / (n : ℝ) ≤ (n : ℝ) ^ (-α) := by
      rw [one_div, ← Real.rpow_neg_one]
      exact Real.rpow_le_rpow_of_exponent_le hn1 (by linarith)
    have e2 : (n : ℝ) * (H * (n : ℝ) ^ (-α)) ^ 3 = H ^ 3 * (n : ℝ) ^ (1 - 3 * α) := by
      rw [mul_pow, ← Real.rpow_natCast ((n : ℝ) ^ (-α)) 3, ← Real.rpow_mul hnR.le]
      have : (n : ℝ) ^ (1 - 3 * α) = (n : ℝ) * (n : ℝ) ^ (-α * (3 : ℕ)) := by
        have e3 := Real.rpow_add hnR 1 (-α * (3 : ℕ))
        rw [Real.rpow_one] at e3
        rw [← e3]
        congr 1
        push_cast
        ring
      rw [this]
      ring
    have hq : 0 ≤ (n : ℝ) ^ (1 - 3 * α) := Real.rpow_nonneg hnR.le _
    rw [e2]
    have hH3 : 0 ≤ H ^ 3 := by positivity
    nlinarith [mul_nonneg hH hq, mul_nonneg hH3 hp.le]

/-- Brownian paths are Hölder continuous with every exponent below one half; for exponents above one third the result
of `sdeint` converges to the Stratonovich solution. -/
theorem C99_converges {ι : Type} [Fintype ι] (K H α : ℝ) (hK : 1 ≤ K) (hH : 0 ≤ H) (hα0 : 1 / 3 < α) (hα1 : α ≤ 1)
    (f : (ι → ℝ) → ℝ → ι → ℝ) (g g' : ι → ℝ → ℝ) (B : CoefficientBounds K f g g')
    (W Y : ℝ → ι → ℝ) (hY : IsStratonovich f g W Y)
    (hW : ∀ s ∈ Set.Icc (0 : ℝ) 1, ∀ t ∈ Set.Icc (0 : ℝ) 1, ∀ i, |W s i - W t i| ≤ H * |s - t| ^ α) (ε : ℝ)
    (hε : 0 < ε) :
    ∃ n0 : ℕ, ∀ n ≥ n0, ∃ y1 : ι → ℝ,
      sdeint (diagonal f g) (Y 0) [0, 1] (increments W n) = .ok [y1] ∧ ∀ i, |y1 i - Y 1 i| ≤ ε := by
  obtain ⟨C, hC0, hC⟩ := C99_hoelder K H α hK hH (by linarith) hα1
  have ht1 : Filter.Tendsto (fun n : ℕ => (n : ℝ) ^ (-α)) Filter.atTop (nhds 0) :=
    (tendsto_rpow_neg_atTop (by linarith : 0 < α)).comp tendsto_natCast_atTop_atTop
  have ht2 : Filter.Tendsto (fun n : ℕ => (n : ℝ) ^ (1 - 3 * α)) Filter.atTop (nhds 0) := by
    have := (tendsto_rpow_neg_atTop (by linarith : 0 < 3 * α - 1)).comp tendsto_natCast_atTop_atTop
    refine this.congr ?_
    intro n
    simp only [Function.comp_apply]
    congr 1
    ring
  have hs1 : Filter.Tendsto (fun n : ℕ => H * (n : ℝ) ^ (-α)) Filter.atTop (nhds (H * 0)) := ht1.const_mul H
  have hs2 : Filter.Tendsto (fun n : ℕ => C * ((n : ℝ) ^ (-α) + (n : ℝ) ^ (1 - 3 * α))) Filter.atTop
      (nhds (C * (0 + 0))) := (ht1.add ht2).const_mul C
  rw [mul_zero] at hs1
  rw [add_zero, mul_zero] at hs2
  have hev := ((hs1.eventually_le_const one_pos).and (hs2.eventually_le_const hε)).and (Filter.eventually_gt_atTop 0)
  obtain ⟨n0, hn0⟩ := Filter.eventually_atTop.mp hev
  refine ⟨n0, fun n hn => ?_⟩
  obtain ⟨⟨h1, h2⟩, h3⟩ := hn0 n hn
  obtain ⟨y1, h4, h5⟩ := hC ι f g g' B W Y hY hW n h3 h1
  exact ⟨y1, h4, fun i => (h5 i).trans h2⟩

/-- Along a differentiable path the Stratonovich solutions are the solutions of the ordinary differential equation
`Y' = f + g W'`. -/
theorem C99_smooth {ι : Type*} [Fintype ι] {K : ℝ} (hK : 1 ≤ K) (f : (ι → ℝ) → ℝ → ι → ℝ) (g g' : ι → ℝ → ℝ)
    (B : CoefficientBounds K f g g') (W W' Y : ℝ → ι → ℝ)
    (hW : ∀ i, ∀ t ∈ Set.Icc (0 : ℝ) 1, HasDerivWithinAt (fun t => W t i) (W' t i) (Set.Icc 0 1) t)
    (hY : ∀ i, ∀ t ∈ Set.Icc (0 : ℝ) 1,
      HasDerivWithinAt (fun t => Y t i) (f (Y t) t i + g i (Y t i) * W' t i) (Set.Icc 0 1) t) :
    IsStratonovich f g W Y := by
  have hcont : ∀ i, Continuous fun x => 1 / g i x := by
    intro i
    have h1 : Continuous (g i) := continuous_iff_continuousAt.mpr fun x => ((B.diffusion i).deriv x).continuousAt
    exact continuous_const.div h1 fun x => ((B.diffusion i).pos hK x).ne'
  refine ⟨fun i x => ∫ v in (0 : ℝ)..x, 1 / g i v, ?_, ?_⟩
  · intro i x
    exact intervalIntegral.integral_hasDerivAt_right ((hcont i).intervalIntegrable _ _)
      ((hcont i).stronglyMeasurableAtFilter _ _) (hcont i).continuousAt
  · intro i t ht
    have h1 : HasDerivAt (fun x => ∫ v in (0 : ℝ)..x, 1 / g i v) (1 / g i (Y t i)) (Y t i) :=
      intervalIntegral.integral_hasDerivAt_right ((hcont i).intervalIntegrable _ _)
        ((hcont i).stronglyMeasurableAtFilter _ _) (hcont i).continuousAt
    have h2 := (h1.comp_hasDerivWithinAt t (hY i t ht)).sub (hW i t ht)
    have hg := ((B.diffusion i).pos hK (Y t i)).ne'
    have e : 1 / g i (Y t i) * (f (Y t) t i + g i (Y t i) * W' t i) - W' t i = f (Y t) t i / g i (Y t i) := by
      field_simp
      ring
    rw [e] at h2
    exact h2

/-! ### Geometric Brownian motion -/

/-- The logarithm of one step for `dY = μ Y dt + σ Y ∘ dW`. -/
theorem log_step {a x : ℝ} (ha : |a| ≤ 1 / 4) (hx : |x| ≤ 1 / 4) :
    0 < 1 + a + x + x ^ 2 / 2 ∧
      |Real.log (1 + a + x + x ^ 2 / 2) - a - x| ≤ 14 * (a ^ 2 + |a| * |x| + |x| ^ 3) := by
  have ha0 := abs_nonneg a
  have hx0 := abs_nonneg x
  set u := a + x + x ^ 2 / 2 with hu
  have hx2 : x ^ 2 = |x| * |x| := by rw [abs_mul_abs_self]; ring
  have hu1 : |u| ≤ |a| + 9 / 8 * |x| := by
    have h1 := abs_add_three a x (x ^ 2 / 2)
    have h2 : |x ^ 2 / 2| = |x| * |x| / 2 := by rw [abs_of_nonneg (by positivity), hx2]
    rw [h2] at h1
    have : |x| * |x| ≤ 1 / 4 * |x| := mul_le_mul_of_nonneg_right hx hx0
    linarith
  have hu2 : |u| ≤ 17 / 32 := by linarith
  have hpos : 0 < 1 + u := by
    have := (abs_le.mp hu2).1
    linarith
  have e : 1 + a + x + x ^ 2 / 2 = 1 + u := by rw [hu]; ring
  rw [e]
  refine ⟨hpos, ?_⟩
  have hlog := Real.abs_log_sub_add_sum_range_le (x := -u) (by rw [abs_neg]; linarith) 2
  rw [abs_neg, sub_neg_eq_add] at hlog
  have hsum : (∑ i ∈ Finset.range 2, (-u) ^ (i + 1) / ((i : ℝ) + 1)) = -u + u ^ 2 / 2 := by
    simp [Finset.sum_range_succ]
    ring
  rw [hsum] at hlog
  have hdiv : |u| ^ (2 + 1) / (1 - |u|) ≤ 32 / 15 * |u| ^ 3 := by
    rw [div_le_iff₀ (by linarith)]
    have : 0 ≤ |u| ^ 3 := by positivity
    have h1 : (15 : ℝ) / 32 ≤ 1 - |u| := by linarith
    calc |u| ^ (2 + 1) = 32 / 15 * |u| ^ 3 * (15 / 32) := by ring
      _ ≤ 32 / 15 * |u| ^ 3 * (1 - |u|) := mul_le_mul_of_nonneg_left h1 (by positivity)
  have hu3 : |u| ^ 3 ≤ a ^ 2 + 6 * |x| ^ 3 := by
    have h1 : |u| ^ 3 ≤ (|a| + 9 / 8 * |x|) ^ 3 := pow_le_pow_left₀ (abs_nonneg _) hu1 3
    have h2 : (|a| + 9 / 8 * |x|) ^ 3 ≤ 4 * (|a| ^ 3 + (9 / 8 * |x|) ^ 3) := by
      have := add_pow_le ha0 (by positivity : 0 ≤ 9 / 8 * |x|) 3
      norm_num at this ⊢
      exact this
    have h3 : 4 * |a| ^ 3 ≤ a ^ 2 := by
      rw [← sq_abs a]
      have : 0 ≤ |a| ^ 2 := by positivity
      nlinarith
    have h4 : 0 ≤ |x| ^ 3 := by positivity
    have h5 : 4 * (9 / 8 * |x|) ^ 3 = 729 / 128 * |x| ^ 3 := by ring
    linarith
  have hrest : |u - u ^ 2 / 2 - a - x| ≤ a ^ 2 / 2 + 9 / 8 * (|a| * |x|) + 17 / 32 * |x| ^ 3 := by
    have e : u - u ^ 2 / 2 - a - x = -(a ^ 2 / 2 + a * x + a * x ^ 2 / 2 + x ^ 3 / 2 + x ^ 4 / 8) := by rw [hu]; ring
    rw [e, abs_neg]
    have t1 : |a ^ 2 / 2| = a ^ 2 / 2 := abs_of_nonneg (by positivity)
    have t2 : |a * x| = |a| * |x| := abs_mul a x
    have t3 : |a * x ^ 2 / 2| ≤ 1 / 8 * (|a| * |x|) := by
      rw [abs_div, abs_mul, abs_pow, abs_of_pos (by norm_num : (0 : ℝ) < 2)]
      have : |a| * |x| * |x| ≤ |a| * |x| * (1 / 4) := mul_le_mul_of_nonneg_left hx (by positivity)
      nlinarith
    have t4 : |x ^ 3 / 2| = |x| ^ 3 / 2 := by
      rw [abs_div, abs_pow, abs_of_pos (by norm_num : (0 : ℝ) < 2)]
    have t5 : |x ^ 4 / 8| ≤ 1 / 32 * |x| ^ 3 := by
      rw [abs_div, abs_pow, abs_of_pos (by norm_num : (0 : ℝ) < 8)]
      have : |x| ^ 3 * |x| ≤ |x| ^ 3 * (1 / 4) := mul_le_mul_of_nonneg_left hx (by positivity)
      nlinarith
    have s1 := abs_add_le (a ^ 2 / 2 + a * x + a * x ^ 2 / 2 + x ^ 3 / 2) (x ^ 4 / 8)
    have s2 := abs_add_le (a ^ 2 / 2 + a * x + a * x ^ 2 / 2) (x ^ 3 / 2)
    have s3 := abs_add_le (a ^ 2 / 2 + a * x) (a * x ^ 2 / 2)
    have s4 := abs_add_le (a ^ 2 / 2) (a * x)
    linarith
  have hsplit : Real.log (1 + u) - a - x = (-u + u ^ 2 / 2 + Real.log (1 + u)) + (u - u ^ 2 / 2 - a - x) := by ring
  rw [hsplit]
  have := abs_add_le (-u + u ^ 2 / 2 + Real.log (1 + u)) (u - u ^ 2 / 2 - a - x)
  have p1 : 0 ≤ a ^ 2 := sq_nonneg a
  have p2 : 0 ≤ |a| * |x| := by positivity
  have p3 : 0 ≤ |x| ^ 3 := by positivity
  linarith

/-- For geometric Brownian motion the result is the closed form `y0 exp(μ + σ W(1))`, up to a factor `exp e` with `e`
bounded by sums that vanish for Brownian increments of size `n ^ (-1/2)`. There is no term with the sum of the squares of
the increments, which does not vanish: the solution is that of Stratonovich, not of Itô. -/
theorem C99_linear (μ σ y0 : ℝ) (dw : List ℝ) (hn : 0 < dw.length) (hμ : |μ / dw.length| ≤ 1 / 4)
    (hσ : ∀ d ∈ dw, |σ * d| ≤ 1 / 4) :
    ∃ e : ℝ, sdeint (fun (y _ w : ℝ) => (μ * y, σ * y * w)) y0 [0, 1] dw =
        .ok [y0 * Real.exp (μ + σ * dw.sum + e)] ∧
      |e| ≤ 14 * (dw.map fun d => (μ / dw.length) ^ 2 + |μ / dw.length| * |σ * d| + |σ * d| ^ 3).sum := by
  set n := dw.length with hndef
  have hnR : (0 : ℝ) < n := by exact_mod_cast hn
  obtain ⟨X, hX0, hX, hres⟩ := C47_uniform (fun (y _ w : ℝ) => (μ * y, σ * y * w)) y0 (0 : ℝ) 1 one_pos 1 n hn one_pos dw
    (by rw [Nat.one_mul])
  have key : ∀ k ≤ n, ∃ e, X k = y0 * Real.exp (k * (μ / n) + σ * (dw.take k).sum + e) ∧
      |e| ≤ 14 * ((dw.take k).map fun d => (μ / n) ^ 2 + |μ / n| * |σ * d| + |σ * d| ^ 3).sum := by
    intro k
    induction k with
    | zero => intro _; exact ⟨0, by simp [hX0], by simp⟩
    | succ k ih =>
      intro hk
      obtain ⟨e, h1, h2⟩ := ih (by omega)
      have hk' : k < dw.length := by omega
      have hXk := hX k (by omega)
      simp only [smul_eq_mul] at hXk
      have hfac : X (k + 1) = X k * (1 + μ / n + σ * dw[k] + (σ * dw[k]) ^ 2 / 2) := by
        rw [hXk]; ring
      obtain ⟨h3, h4⟩ := log_step hμ (hσ _ (List.getElem_mem hk'))
      set s := Real.log (1 + μ / n + σ * dw[k] + (σ * dw[k]) ^ 2 / 2) - μ / n - σ * dw[k] with hs
      refine ⟨e + s, ?_, ?_⟩
      · rw [hfac, h1, List.sum_take_succ _ _ hk', mul_assoc]
        congr 1
        rw [← Real.exp_log h3, ← Real.exp_add]
        congr 1
        rw [hs]
        push_cast
        ring
      · rw [List.take_add_one, List.getElem?_eq_getElem hk', Option.toList_some, List.map_append, List.sum_append,
          List.map_singleton, List.sum_singleton, mul_add]
        exact (abs_add_le _ _).trans (add_le_add h2 h4)
  obtain ⟨e, h1, h2⟩ := key n le_rfl
  rw [hndef, List.take_length, ← hndef] at h1 h2
  refine ⟨e, ?_, h2⟩
  have e1 : (List.range (1 + 1)).map (fun i : ℕ => (0 : ℝ) + i * 1) = [0, 1] := by simp [List.range_succ]
  rw [e1] at hres
  rw [hres]
  simp only [List.range_one, List.map_cons, List.map_nil, zero_add, Nat.one_mul]
  rw [h1, mul_div_cancel₀ _ hnR.ne']

/-! ### instances -/

/-- A state dependent diffusion, `dY = -(1 + sin Y) dt + (2 + sin Y) ∘ dW` along the path `W t = t`, with the solution
`Y t = t`. -/
theorem wave_bounds : CoefficientBounds (ι := Unit) 3 (fun y _ _ => -(1 + Real.sin (y ()))) (fun _ x => 2 + Real.sin x)
    fun _ x => Real.cos x where
  diffusion := fun _ =>
    { lower := fun x => by have := Real.neg_one_le_sin x; norm_num; linarith
      upper := fun x => by have := Real.sin_le_one x; linarith
      deriv := fun x => by simpa using (Real.hasDerivAt_sin x).const_add 2
      deriv_le := fun x => (Real.abs_cos_le_one x).trans (by norm_num)
      lipschitz := fun x y => by
        have h : |Real.cos x - Real.cos y| ≤ |x - y| := by
          have := Real.lipschitzWith_cos.dist_le_mul x y
          simpa [Real.dist_eq] using this
        linarith [abs_nonneg (x - y)] }
  drift := fun y t i => by
    have h1 := Real.neg_one_le_sin (y ())
    have h2 := Real.sin_le_one (y ())
    rw [abs_le]
    constructor <;> linarith
  lipschitz := fun y z s t i => by
    have h : |Real.sin (y ()) - Real.sin (z ())| ≤ |y () - z ()| := by
      have := Real.lipschitzWith_sin.dist_le_mul (y ()) (z ())
      simpa [Real.dist_eq] using this
    have h2 : |y () - z ()| ≤ ‖y - z‖ := by simpa using norm_le_pi_norm (y - z) ()
    have e : -(1 + Real.sin (y ())) - -(1 + Real.sin (z ())) = -(Real.sin (y ()) - Real.sin (z ())) := by ring
    rw [e, abs_neg]
    nlinarith [abs_nonneg (s - t), norm_nonneg (y - z)]

example : ∃ n0 : ℕ, ∀ n ≥ n0, ∃ y1 : Unit → ℝ,
    sdeint (diagonal (fun (y : Unit → ℝ) _ _ => -(1 + Real.sin (y ()))) fun _ x => 2 + Real.sin x) (fun _ => 0) [0, 1]
      (increments (fun t (_ : Unit) => t) n) = .ok [y1] ∧ ∀ i, |y1 i - 1| ≤ 1 / 1000 := by
  have hY : IsStratonovich (ι := Unit) (fun y _ _ => -(1 + Real.sin (y ()))) (fun _ x => 2 + Real.sin x)
      (fun t _ => t) fun t _ => t := by
    refine C99_smooth (by norm_num) _ _ _ wave_bounds (fun t _ => t) (fun _ _ => 1) (fun t _ => t)
      (fun _ t _ => (hasDerivAt_id t).hasDerivWithinAt) ?_
    intro i t _
    have e : -(1 + Real.sin t) + (2 + Real.sin t) * 1 = 1 := by ring
    simp only [e]
    exact (hasDerivAt_id t).hasDerivWithinAt
  have := C99_converges 3 1 1 (by norm_num) zero_le_one (by norm_num) le_rfl _ _ _ wave_bounds (fun t _ => t)
    (fun t _ => t) hY (fun s _ t _ _ => by simp) (1 / 1000) (by norm_num)
  simpa using this

/-- A path that is not differentiable at `0`: `dY = cos t dt + dW` along `W t = √t`. -/
example : ∃ n0 : ℕ, ∀ n ≥ n0, ∃ y1 : Unit → ℝ,
    sdeint (diagonal (fun (_ : Unit → ℝ) t _ => Real.cos t) fun _ _ => 1) (fun _ => 0) [0, 1]
      (increments (fun t (_ : Unit) => Real.sqrt t) n) = .ok [y1] ∧ ∀ i, |y1 i - (Real.sin 1 + 1)| ≤ 1 / 1000 := by
  have B : CoefficientBounds (ι := Unit) 1 (fun (_ : Unit → ℝ) t _ => Real.cos t) (fun _ _ => 1) fun _ _ => 0 := by
    refine ⟨fun _ => ⟨by simp, by simp, fun x => hasDerivAt_const x 1, by simp, fun x y => by simp⟩,
      fun _ t _ => Real.abs_cos_le_one t, fun y z s t i => ?_⟩
    have := Real.lipschitzWith_cos.dist_le_mul s t
    simp only [Real.dist_eq, NNReal.coe_one, one_mul] at this ⊢
    linarith [norm_nonneg (y - z)]
  have hY : IsStratonovich (ι := Unit) (fun (_ : Unit → ℝ) t _ => Real.cos t) (fun _ _ => 1)
      (fun t _ => Real.sqrt t) fun t _ => Real.sin t + Real.sqrt t := by
    refine ⟨fun _ x => x, fun i x => ?_, fun i t _ => ?_⟩
    · rw [one_div_one]
      exact hasDerivAt_id x
    simp only [add_sub_cancel_right, div_one]
    exact (Real.hasDerivAt_sin t).hasDerivWithinAt
  have hs : ∀ s t : ℝ, 0 ≤ s → s ≤ t → Real.sqrt t - Real.sqrt s ≤ Real.sqrt (t - s) := by
    intro s t h0 h1
    rw [sub_le_iff_le_add, Real.sqrt_le_left (by positivity)]
    have e1 := Real.sq_sqrt h0
    have e2 := Real.sq_sqrt (sub_nonneg.mpr h1)
    nlinarith [mul_nonneg (Real.sqrt_nonneg s) (Real.sqrt_nonneg (t - s))]
  have := C99_converges 1 1 (1 / 2) le_rfl zero_le_one (by norm_num) (by norm_num) _ _ _ B (fun t _ => Real.sqrt t)
    (fun t _ => Real.sin t + Real.sqrt t) hY (fun s hs' t ht _ => by
      rw [one_mul, ← Real.sqrt_eq_rpow]
      rcases le_total s t with h | h
      · rw [abs_sub_comm, abs_sub_comm s, abs_of_nonneg (sub_nonneg.mpr (Real.sqrt_le_sqrt h)),
          abs_of_nonneg (sub_nonneg.mpr h)]
        exact hs s t hs'.1 h
      · rw [abs_of_nonneg (sub_nonneg.mpr (Real.sqrt_le_sqrt h)), abs_of_nonneg (sub_nonneg.mpr h)]
        exact hs t s ht.1 h) (1 / 1000) (by norm_num)
  simpa using this

example : ∃ e : ℝ, sdeint (fun (y _ w : ℝ) => (1 * y, 1 / 2 * y * w)) 3 [0, 1] (List.replicate 100 (1 / 10)) =
    .ok [3 * Real.exp (1 + 1 / 2 * (List.replicate 100 (1 / 10 : ℝ)).sum + e)] ∧ |e| ≤ 11 / 10 := by
  obtain ⟨e, h1, h2⟩ := C99_linear 1 (1 / 2) 3 (List.replicate 100 (1 / 10)) (by simp)
    (by rw [List.length_replicate, abs_of_pos] <;> norm_num) (by
      intro d hd
      rw [List.eq_of_mem_replicate hd, abs_of_pos] <;> norm_num)
  refine ⟨e, h1, h2.trans ?_⟩
  rw [List.map_replicate, List.sum_replicate, List.length_replicate, abs_of_pos (by norm_num), abs_of_pos (by norm_num)]
  norm_num

end Verif.SDE
