import Verif.Props.C99
import Mathlib.Analysis.ODE.ExistUnique

/-!
# C99: the Stratonovich solution that `sdeint` converges to exists and is unique

`C99_exists`: for coefficients with bounds and every continuous path there is a solution with the given initial value.
`C99_unique`: there is only one. `C99_limit`: along every Hölder continuous path of exponent above `1/3` the results of
`sdeint` converge to it.
-/

namespace Verif.SDE

open Verif.Spec Filter

/-- The coordinate in which the diffusion is constant. -/
noncomputable def coord (g : ℝ → ℝ) (x : ℝ) : ℝ := ∫ v in (0 : ℝ)..x, 1 / g v

theorem coord_deriv {K : ℝ} (hK : 1 ≤ K) {g g' : ℝ → ℝ} (B : DiffusionBounds K g g') (x : ℝ) : HasDerivAt (coord g) (1 / g x) x := by
  have h1 : Continuous g := continuous_iff_continuousAt.mpr fun x => (B.deriv x).continuousAt
  have hc : Continuous fun x => 1 / g x := continuous_const.div h1 fun x => (B.pos hK x).ne'
  exact intervalIntegral.integral_hasDerivAt_right (hc.intervalIntegrable _ _) hc.stronglyMeasurable.stronglyMeasurableAtFilter
    hc.continuousAt

theorem coord_mono {K : ℝ} (hK : 1 ≤ K) {g g' : ℝ → ℝ} (B : DiffusionBounds K g g') : StrictMono (coord g) :=
  strictMono_of_deriv_pos fun x => by
    rw [(coord_deriv hK B x).deriv]
    exact one_div_pos.2 (B.pos hK x)

theorem coord_surjective {K : ℝ} (hK : 1 ≤ K) {g g' : ℝ → ℝ} (B : DiffusionBounds K g g') : Function.Surjective (coord g) := by
  have hK0 : 0 < K := by linarith
  have hc : Continuous (coord g) := continuous_iff_continuousAt.mpr fun x => (coord_deriv hK B x).continuousAt
  have h0 : coord g 0 = 0 := by simp [coord]
  have hx : ∀ x, |x| ≤ K * |coord g x| := fun x => by
    have := B.expand hK (coord_deriv hK B) x 0
    simpa [h0] using this
  have hm := (coord_mono hK B).monotone
  refine hc.surjective ?_ ?_
  · refine tendsto_atTop.2 fun b => ?_
    filter_upwards [eventually_ge_atTop (K * |b|), eventually_ge_atTop 0] with x h1 h2
    have h3 : 0 ≤ coord g x := h0 ▸ hm h2
    have h4 := hx x
    rw [abs_of_nonneg h2, abs_of_nonneg h3] at h4
    exact (le_abs_self b).trans (le_of_mul_le_mul_left (h1.trans h4) hK0)
  · refine tendsto_atBot.2 fun b => ?_
    filter_upwards [eventually_le_atBot (-(K * |b|)), eventually_le_atBot 0] with x h1 h2
    have h3 : coord g x ≤ 0 := h0 ▸ hm h2
    have h4 := hx x
    rw [abs_of_nonpos h2, abs_of_nonpos h3] at h4
    have h5 : |b| ≤ -coord g x := le_of_mul_le_mul_left (by linarith) hK0
    linarith [neg_abs_le b]

/-- The inverse of the coordinate. -/
noncomputable def coordInv (g : ℝ → ℝ) : ℝ → ℝ := Function.invFun (coord g)

theorem coord_coordInv {K : ℝ} (hK : 1 ≤ K) {g g' : ℝ → ℝ} (B : DiffusionBounds K g g') (x : ℝ) : coord g (coordInv g x) = x :=
  Function.rightInverse_invFun (coord_surjective hK B) x

theorem coordInv_coord {K : ℝ} (hK : 1 ≤ K) {g g' : ℝ → ℝ} (B : DiffusionBounds K g g') (x : ℝ) : coordInv g (coord g x) = x :=
  Function.leftInverse_invFun (coord_mono hK B).injective x

theorem coordInv_lip {K : ℝ} (hK : 1 ≤ K) {g g' : ℝ → ℝ} (B : DiffusionBounds K g g') (x y : ℝ) :
    |coordInv g x - coordInv g y| ≤ K * |x - y| := by
  have := B.expand hK (coord_deriv hK B) (coordInv g x) (coordInv g y)
  rwa [coord_coordInv hK B, coord_coordInv hK B] at this

section

variable {ι : Type} [Fintype ι] {K : ℝ} {f : (ι → ℝ) → ℝ → ι → ℝ} {g g' : ι → ℝ → ℝ}

/-- The state for given coordinates. -/
noncomputable def stateOf (g : ι → ℝ → ℝ) (u : ι → ℝ) (i : ι) : ℝ := coordInv (g i) (u i)

/-- The ordinary differential equation of the difference of the coordinates and the path. -/
noncomputable def dossField (f : (ι → ℝ) → ℝ → ι → ℝ) (g : ι → ℝ → ℝ) (W : ℝ → ι → ℝ) (t : ℝ) (u : ι → ℝ) (i : ι) : ℝ :=
  f (stateOf g (u + W t)) t i / g i (stateOf g (u + W t) i)

theorem stateOf_lip (hK : 1 ≤ K) (B : CoefficientBounds K f g g') (u v : ι → ℝ) : ‖stateOf g u - stateOf g v‖ ≤ K * ‖u - v‖ := by
  rw [pi_norm_le_iff_of_nonneg (by positivity)]
  intro i
  refine (coordInv_lip hK (B.diffusion i) (u i) (v i)).trans (mul_le_mul_of_nonneg_left ?_ (by linarith))
  exact norm_le_pi_norm (u - v) i

theorem dossField_diff (hK : 1 ≤ K) (B : CoefficientBounds K f g g') (W : ℝ → ι → ℝ) (s t : ℝ) (u v : ι → ℝ) :
    ‖dossField f g W s u - dossField f g W t v‖ ≤ 2 * K ^ 4 * (K * ‖u + W s - (v + W t)‖ + |s - t|) := by
  have hK0 : 0 ≤ K := by linarith
  rw [pi_norm_le_iff_of_nonneg (by positivity)]
  intro i
  have h1 := stateOf_lip hK B (u + W s) (v + W t)
  have h2 := norm_le_pi_norm (stateOf g (u + W s) - stateOf g (v + W t)) i
  rw [Pi.sub_apply, Real.norm_eq_abs] at h2
  have h3 := abs_nonneg (s - t)
  exact (B.diffusion i).quot_lipschitz hK (B.drift _ _ _)
    ((B.lipschitz _ _ _ _ _).trans (mul_le_mul_of_nonneg_left (by linarith) hK0)) (by linarith)

theorem dossField_lip (hK : 1 ≤ K) (B : CoefficientBounds K f g g') (W : ℝ → ι → ℝ) (t : ℝ) (u v : ι → ℝ) :
    dist (dossField f g W t u) (dossField f g W t v) ≤ 2 * K ^ 4 * K * dist u v := by
  have := dossField_diff hK B W t t u v
  rw [dist_eq_norm, dist_eq_norm]
  rw [sub_self, abs_zero, add_zero, add_sub_add_right_eq_sub] at this
  linarith

theorem dossField_le (hK : 1 ≤ K) (B : CoefficientBounds K f g g') (W : ℝ → ι → ℝ) (t : ℝ) (u : ι → ℝ) :
    ‖dossField f g W t u‖ ≤ K * K := by
  rw [pi_norm_le_iff_of_nonneg (by positivity)]
  intro i
  have hp := (B.diffusion i).pos hK (stateOf g (u + W t) i)
  rw [Real.norm_eq_abs, dossField, div_eq_mul_one_div, abs_mul, abs_of_pos (one_div_pos.2 hp)]
  exact mul_le_mul (B.drift _ _ _) ((B.diffusion i).inv_le hK _) (one_div_pos.2 hp).le (by linarith)

/-- Along every continuous path there is a Stratonovich solution with the given initial value. -/
theorem C99_exists (hK : 1 ≤ K) (B : CoefficientBounds K f g g') (W : ℝ → ι → ℝ) (hW : ContinuousOn W (Set.Icc 0 1)) (y0 : ι → ℝ) :
    ∃ Y, Y 0 = y0 ∧ IsStratonovich f g W Y := by
  have hK0 : 0 ≤ K := by linarith
  obtain ⟨u0, hu0⟩ : ∃ u0 : ι → ℝ, u0 = fun i => coord (g i) (y0 i) - W 0 i := ⟨_, rfl⟩
  have hP : IsPicardLindelof (dossField f g W) (⟨0, by simp⟩ : Set.Icc (0 : ℝ) 1) u0 ⟨K * K, by positivity⟩ 0
      ⟨K * K, by positivity⟩ ⟨2 * K ^ 4 * K, by positivity⟩ := by
    refine ⟨fun t _ => LipschitzWith.lipschitzOnWith (LipschitzWith.of_dist_le_mul fun u v => ?_), fun u _ t ht => ?_,
      fun t _ u _ => dossField_le hK B W t u, ?_⟩
    · exact dossField_lip hK B W t u v
    · have hlim : Tendsto (fun s => 2 * K ^ 4 * (K * ‖u + W s - (u + W t)‖ + |s - t|)) (nhdsWithin t (Set.Icc 0 1)) (nhds 0) := by
        have h1 : Tendsto (fun s => u + W s - (u + W t)) (nhdsWithin t (Set.Icc 0 1)) (nhds 0) := by
          have : Tendsto (fun s => u + W s - (u + W t)) (nhdsWithin t (Set.Icc 0 1)) (nhds (u + W t - (u + W t))) :=
            (Tendsto.const_add u (hW t ht)).sub_const (u + W t)
          rwa [sub_self] at this
        have h2 : Tendsto (fun s => |s - t|) (nhdsWithin t (Set.Icc 0 1)) (nhds 0) := by
          have : Tendsto (fun s : ℝ => |s - t|) (nhds t) (nhds |t - t|) := ((continuous_id.sub continuous_const).abs).tendsto t
          rw [sub_self, abs_zero] at this
          exact this.mono_left nhdsWithin_le_nhds
        have := (((h1.norm.const_mul K).add h2).const_mul (2 * K ^ 4))
        simpa using this
      refine tendsto_iff_norm_sub_tendsto_zero.2 (squeeze_zero (fun _ => norm_nonneg _) (fun s => dossField_diff hK B W s t u u) hlim)
    · simp
  obtain ⟨u, hu, hd⟩ := hP.exists_eq_forall_mem_Icc_hasDerivWithinAt₀
  refine ⟨fun t => stateOf g (u t + W t), ?_, fun i => coord (g i), fun i => coord_deriv hK (B.diffusion i), fun i t ht => ?_⟩
  · funext i
    have hu' : u 0 = u0 := hu
    simp only [stateOf, Pi.add_apply, hu', hu0, sub_add_cancel]
    exact coordInv_coord hK (B.diffusion i) _
  · have h1 : HasDerivWithinAt (fun t => u t i) (dossField f g W t (u t) i) (Set.Icc 0 1) t := hasDerivWithinAt_pi.1 (hd t ht) i
    have e : (fun t => coord (g i) (stateOf g (u t + W t) i) - W t i) = fun t => u t i := by
      funext t
      simp only [stateOf, Pi.add_apply, coord_coordInv hK (B.diffusion i), add_sub_cancel_right]
    rw [e]
    exact h1

/-- The solution is unique. -/
theorem C99_unique (hK : 1 ≤ K) (B : CoefficientBounds K f g g') (W Y Z : ℝ → ι → ℝ) (hY : IsStratonovich f g W Y)
    (hZ : IsStratonovich f g W Z) (h0 : Y 0 = Z 0) : ∀ t ∈ Set.Icc (0 : ℝ) 1, Y t = Z t := by
  have key : ∀ Y : ℝ → ι → ℝ, IsStratonovich f g W Y → ∀ t ∈ Set.Icc (0 : ℝ) 1,
      HasDerivWithinAt (fun t i => coord (g i) (Y t i) - W t i) (dossField f g W t fun i => coord (g i) (Y t i) - W t i)
        (Set.Icc 0 1) t := by
    rintro Y ⟨φ, hφ, hd⟩ t ht
    refine hasDerivWithinAt_pi.2 fun i => ?_
    have hc : ∀ x, φ i x = coord (g i) x + (φ i 0 - coord (g i) 0) := by
      intro x
      have hdiff : Differentiable ℝ fun x => φ i x - coord (g i) x := fun x =>
        ((hφ i x).sub (coord_deriv hK (B.diffusion i) x)).differentiableAt
      have hz : ∀ x, deriv (fun x => φ i x - coord (g i) x) x = 0 := fun x => by
        have h := ((hφ i x).sub (coord_deriv hK (B.diffusion i) x)).deriv
        rw [sub_self] at h
        exact h
      have := is_const_of_deriv_eq_zero hdiff hz x 0
      linarith
    have hst : stateOf g ((fun i => coord (g i) (Y t i) - W t i) + W t) = Y t := by
      funext j
      simp only [stateOf, Pi.add_apply, sub_add_cancel]
      exact coordInv_coord hK (B.diffusion j) _
    have h1 := (hd i t ht).sub_const (φ i 0 - coord (g i) 0)
    have e : (fun t => φ i (Y t i) - W t i - (φ i 0 - coord (g i) 0)) = fun t => coord (g i) (Y t i) - W t i := by
      funext t
      rw [hc (Y t i)]
      ring
    rw [e] at h1
    simp only [dossField, hst]
    exact h1
  have hv : ∀ t ∈ Set.Ico (0 : ℝ) 1, LipschitzOnWith (⟨2 * K ^ 4 * K, by positivity⟩ : NNReal) (dossField f g W t) Set.univ := fun t _ =>
    LipschitzWith.lipschitzOnWith (LipschitzWith.of_dist_le_mul fun u v => by
      exact dossField_lip hK B W t u v)
  have right : ∀ {u : ℝ → ι → ℝ} {v : ι → ℝ} {t : ℝ}, t ∈ Set.Ico (0 : ℝ) 1 → HasDerivWithinAt u v (Set.Icc 0 1) t →
      HasDerivWithinAt u v (Set.Ici t) t := fun {u v t} ht h =>
    h.mono_of_mem_nhdsWithin (by
      have : Set.Icc t 1 ∈ nhdsWithin t (Set.Ici t) := Icc_mem_nhdsGE ht.2
      exact mem_of_superset this (Set.Icc_subset_Icc_left ht.1))
  have hu := ODE_solution_unique_of_mem_Icc_right (v := dossField f g W) (s := fun _ => Set.univ) hv
    (fun t ht => (key Y hY t ht).continuousWithinAt) (fun t ht => right ht (key Y hY t (Set.Ico_subset_Icc_self ht)))
    (fun _ _ => trivial) (fun t ht => (key Z hZ t ht).continuousWithinAt)
    (fun t ht => right ht (key Z hZ t (Set.Ico_subset_Icc_self ht))) (fun _ _ => trivial) (by simp only [h0])
  intro t ht
  funext i
  have := congrFun (hu ht) i
  exact (coord_mono hK (B.diffusion i)).injective (by simpa using this)

/-- Along every Hölder continuous path of exponent above `1/3` (almost every path of Brownian motion is one) there is exactly one
Stratonovich solution with the given initial value, and the results of `sdeint` for the increments of the path converge to it. -/
theorem C99_limit (hK : 1 ≤ K) (B : CoefficientBounds K f g g') (W : ℝ → ι → ℝ) (H α : ℝ) (hH : 0 ≤ H) (hα : 1 / 3 < α) (hα1 : α ≤ 1)
    (hW : ∀ s ∈ Set.Icc (0 : ℝ) 1, ∀ t ∈ Set.Icc (0 : ℝ) 1, ∀ i, |W s i - W t i| ≤ H * |s - t| ^ α) (y0 : ι → ℝ) :
    ∃ Y, Y 0 = y0 ∧ IsStratonovich f g W Y ∧
      (∀ Z, Z 0 = y0 → IsStratonovich f g W Z → ∀ t ∈ Set.Icc (0 : ℝ) 1, Z t = Y t) ∧
      ∀ ε > 0, ∃ n0 : ℕ, ∀ n ≥ n0, ∃ y1 : ι → ℝ,
        sdeint (diagonal f g) y0 [0, 1] (increments W n) = .ok [y1] ∧ ∀ i, |y1 i - Y 1 i| ≤ ε := by
  have hc : ContinuousOn W (Set.Icc 0 1) := by
    intro t ht
    refine tendsto_pi_nhds.2 fun i => tendsto_iff_norm_sub_tendsto_zero.2 ?_
    have hlim : Tendsto (fun s => H * |s - t| ^ α) (nhdsWithin t (Set.Icc 0 1)) (nhds 0) := by
      have h1 : Continuous fun s : ℝ => H * |s - t| ^ α :=
        continuous_const.mul (((continuous_id.sub continuous_const).abs).rpow_const fun _ => Or.inr (by linarith))
      have h2 := h1.tendsto t
      rw [sub_self, abs_zero, Real.zero_rpow (by linarith), mul_zero] at h2
      exact h2.mono_left nhdsWithin_le_nhds
    refine squeeze_zero' (Eventually.of_forall fun _ => norm_nonneg _) ?_ hlim
    filter_upwards [self_mem_nhdsWithin] with s hs
    exact hW s hs t ht i
  obtain ⟨Y, hY0, hY⟩ := C99_exists hK B W hc y0
  refine ⟨Y, hY0, hY, fun Z hZ0 hZ => C99_unique hK B W Z Y hZ hY (by rw [hZ0, hY0]), fun ε hε => ?_⟩
  have := C99_converges K H α hK hH hα hα1 f g g' B W Y hY hW ε hε
  rwa [hY0] at this

end

/-- A state dependent diffusion and a path that is not differentiable at `0`. -/
example : ∃ Y, Y 0 = (fun _ => 2) ∧
    IsStratonovich (ι := Unit) (fun y _ _ => -(1 + Real.sin (y ()))) (fun _ x => 2 + Real.sin x) (fun t _ => Real.sqrt t) Y ∧
    ∀ ε > 0, ∃ n0 : ℕ, ∀ n ≥ n0, ∃ y1 : Unit → ℝ,
      sdeint (diagonal (fun (y : Unit → ℝ) _ _ => -(1 + Real.sin (y ()))) fun _ x => 2 + Real.sin x) (fun _ => 2) [0, 1]
        (increments (fun t (_ : Unit) => Real.sqrt t) n) = .ok [y1] ∧ ∀ i, |y1 i - Y 1 i| ≤ ε := by
  obtain ⟨Y, h1, h2, -, h3⟩ := C99_limit (by norm_num) wave_bounds (fun t _ => Real.sqrt t) 1 (1 / 2) zero_le_one (by norm_num)
    (by norm_num) (fun s hs t ht _ => by
      rw [one_mul, ← Real.sqrt_eq_rpow]
      refine abs_le_of_sq_le_sq ?_ (Real.sqrt_nonneg _)
      rw [Real.sq_sqrt (abs_nonneg _)]
      have e1 := Real.sq_sqrt hs.1
      have e2 := Real.sq_sqrt ht.1
      have p1 := Real.sqrt_nonneg s
      have p2 := Real.sqrt_nonneg t
      rcases le_total t s with h | h
      · rw [abs_of_nonneg (by linarith)]
        nlinarith [Real.sqrt_le_sqrt h]
      · rw [abs_of_nonpos (by linarith)]
        nlinarith [Real.sqrt_le_sqrt h]) (fun _ => 2)
  exact ⟨Y, h1, h2, h3⟩

end Verif.SDE
