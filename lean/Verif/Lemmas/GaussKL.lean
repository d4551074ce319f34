import Mathlib.InformationTheory.KullbackLeibler.ChainRule
import Mathlib.InformationTheory.KullbackLeibler.DataProcessing
import Mathlib.Probability.Distributions.Gaussian.Real
import Mathlib.Probability.Independence.Integration
import Mathlib.Probability.Kernel.CompProdEqIff
import Mathlib.MeasureTheory.Integral.Pi

/-!
# Kullback-Leibler divergence of normal distributions and of composed kernels
-/

namespace Verif.SDE

open MeasureTheory ProbabilityTheory InformationTheory
open scoped NNReal ENNReal

/-- The divergence of measures with a density. -/
theorem klDiv_withDensity {Y : Type*} [MeasurableSpace Y] (ν : Measure Y) [IsFiniteMeasure ν] (r : Y → ℝ≥0∞) (hr : Measurable r)
    [IsFiniteMeasure (ν.withDensity r)] :
    klDiv (ν.withDensity r) ν = ∫⁻ y, ENNReal.ofReal (klFun (r y).toReal) ∂ν := by
  rw [klDiv_eq_lintegral_klFun_of_ac (withDensity_absolutelyContinuous _ _)]
  refine lintegral_congr_ae ?_
  filter_upwards [Measure.rnDeriv_withDensity ν hr] with y hy
  rw [hy]

/-- The divergence of two kernels after the same measure is the mean of the divergences. -/
theorem klDiv_compProd_density {X Y : Type*} [MeasurableSpace X] [MeasurableSpace Y] (μ : Measure X) [IsFiniteMeasure μ]
    (κ η : Kernel X Y) [IsMarkovKernel κ] [IsMarkovKernel η] (r : X → Y → ℝ≥0∞) (hr : Measurable (Function.uncurry r))
    (h : ∀ x, κ x = (η x).withDensity (r x)) : klDiv (μ ⊗ₘ κ) (μ ⊗ₘ η) = ∫⁻ x, klDiv (κ x) (η x) ∂μ := by
  have hk : κ = η.withDensity r := by
    ext1 x
    rw [h x, Kernel.withDensity_apply _ hr]
  have hc : μ ⊗ₘ κ = (μ ⊗ₘ η).withDensity fun p => r p.1 p.2 := by
    have : IsSFiniteKernel (η.withDensity r) := by rw [← hk]; infer_instance
    conv_lhs => rw [hk]
    exact Measure.compProd_withDensity hr
  have : IsFiniteMeasure ((μ ⊗ₘ η).withDensity fun p => r p.1 p.2) := by rw [← hc]; infer_instance
  conv_lhs => rw [hc]
  rw [klDiv_withDensity (μ ⊗ₘ η) (fun p => r p.1 p.2) hr, Measure.lintegral_compProd (by
    have : Measurable klFun := measurable_klFun
    exact (this.comp hr.ennreal_toReal).ennreal_ofReal)]
  refine lintegral_congr fun x => ?_
  have : IsFiniteMeasure ((η x).withDensity (r x)) := by rw [← h x]; infer_instance
  rw [h x, klDiv_withDensity (η x) (r x) (hr.comp measurable_prodMk_left)]

/-- The divergence does not change under a measurable equivalence. -/
theorem klDiv_map_equiv {X Y : Type*} [MeasurableSpace X] [MeasurableSpace Y] (e : X ≃ᵐ Y) (μ ν : Measure X) [IsFiniteMeasure μ]
    [IsFiniteMeasure ν] : klDiv (μ.map e) (ν.map e) = klDiv μ ν := by
  refine le_antisymm (klDiv_map_le μ ν e.measurable) ?_
  have := klDiv_map_le (μ.map e) (ν.map e) e.symm.measurable
  rwa [Measure.map_map e.symm.measurable e.measurable, Measure.map_map e.symm.measurable e.measurable, e.symm_comp_self,
    Measure.map_id, Measure.map_id] at this

/-- Product measures with densities. -/
theorem pi_withDensity_eq {ι : Type*} [Fintype ι] (ν : ι → Measure ℝ) [∀ i, IsProbabilityMeasure (ν i)] (r : ι → ℝ → ℝ≥0∞)
    (hr : ∀ i, Measurable (r i)) [∀ i, IsProbabilityMeasure ((ν i).withDensity (r i))] :
    Measure.pi (fun i => (ν i).withDensity (r i)) = (Measure.pi ν).withDensity fun y => ∏ i, r i (y i) := by
  refine Measure.pi_eq fun s hs => ?_
  rw [withDensity_apply _ (MeasurableSet.univ_pi hs), ← lintegral_indicator (MeasurableSet.univ_pi hs)]
  have h1 : ((Set.univ.pi s).indicator fun y : ι → ℝ => ∏ i, r i (y i)) = fun y => ∏ i, (s i).indicator (r i) (y i) := by
    funext y
    by_cases hy : y ∈ Set.univ.pi s
    · rw [Set.indicator_of_mem hy]
      exact Finset.prod_congr rfl fun i _ => (Set.indicator_of_mem (hy i (Set.mem_univ i)) _).symm
    · rw [Set.indicator_of_notMem hy]
      obtain ⟨i, hi⟩ : ∃ i, y i ∉ s i := by
        by_contra hcon
        push Not at hcon
        exact hy fun i _ => hcon i
      exact (Finset.prod_eq_zero (Finset.mem_univ i) (Set.indicator_of_notMem hi _)).symm
  rw [h1, lintegral_prod_eq_prod_lintegral_of_indepFun Finset.univ (fun i (y : ι → ℝ) => (s i).indicator (r i) (y i))
    (iIndepFun_pi (X := fun i => (s i).indicator (r i)) fun i => ((hr i).indicator (hs i)).aemeasurable)
    fun i => ((hr i).indicator (hs i)).comp (measurable_pi_apply i)]
  refine Finset.prod_congr rfl fun i _ => ?_
  rw [withDensity_apply _ (hs i), ← lintegral_indicator (hs i)]
  rw [← (measurePreserving_eval ν i).map_eq, lintegral_map ((hr i).indicator (hs i)) (measurable_pi_apply i)]

/-- The density of one normal distribution with respect to another of the same variance. -/
noncomputable def gaussRatio (a b : ℝ) (v : ℝ≥0) (y : ℝ) : ℝ≥0∞ := ENNReal.ofReal (Real.exp (((y - b) ^ 2 - (y - a) ^ 2) / (2 * v)))

theorem gaussReal_withDensity (a b : ℝ) (v : ℝ≥0) (hv : v ≠ 0) :
    gaussianReal a v = (gaussianReal b v).withDensity (gaussRatio a b v) := by
  have hm : Measurable (gaussRatio a b v) := by unfold gaussRatio; fun_prop
  rw [gaussianReal_of_var_ne_zero _ hv, gaussianReal_of_var_ne_zero _ hv, ← withDensity_mul _ (measurable_gaussianPDF _ _) hm]
  congr 1
  funext y
  rw [Pi.mul_apply, gaussianPDF, gaussianPDF, gaussRatio, ← ENNReal.ofReal_mul (gaussianPDFReal_nonneg _ _ _)]
  congr 1
  rw [gaussianPDFReal, gaussianPDFReal, mul_assoc (√(2 * Real.pi * v))⁻¹, ← Real.exp_add]
  congr 2
  ring

theorem gauss_pi_withDensity {m : ℕ} (a b : Fin m → ℝ) (v : Fin m → ℝ≥0) (hv : ∀ i, v i ≠ 0) :
    Measure.pi (fun i => gaussianReal (a i) (v i)) =
      (Measure.pi fun i => gaussianReal (b i) (v i)).withDensity fun y => ∏ i, gaussRatio (a i) (b i) (v i) (y i) := by
  have : ∀ i, IsProbabilityMeasure ((gaussianReal (b i) (v i)).withDensity (gaussRatio (a i) (b i) (v i))) := fun i => by
    rw [← gaussReal_withDensity _ _ _ (hv i)]
    infer_instance
  rw [← pi_withDensity_eq _ _ fun i => by unfold gaussRatio; fun_prop]
  congr 1
  funext i
  exact gaussReal_withDensity _ _ _ (hv i)

/-- The divergence of normal distributions of the same variances. -/
theorem klDiv_gauss_pi {m : ℕ} (a b : Fin m → ℝ) (v : Fin m → ℝ≥0) (hv : ∀ i, v i ≠ 0) :
    klDiv (Measure.pi fun i => gaussianReal (a i) (v i)) (Measure.pi fun i => gaussianReal (b i) (v i)) =
      ENNReal.ofReal (∑ i, (a i - b i) ^ 2 / (2 * v i)) := by
  set μ := Measure.pi fun i => gaussianReal (a i) (v i) with hμ
  set ν := Measure.pi fun i => gaussianReal (b i) (v i) with hν
  have hd := gauss_pi_withDensity a b v hv
  rw [← hμ, ← hν] at hd
  have hac : μ ≪ ν := by rw [hd]; exact withDensity_absolutelyContinuous _ _
  have hllr : llr μ ν =ᵐ[μ] fun y => ∑ i, ((a i - b i) / v i * y i + (b i ^ 2 - a i ^ 2) / (2 * v i)) := by
    have h1 : μ.rnDeriv ν =ᵐ[ν] fun y => ∏ i, gaussRatio (a i) (b i) (v i) (y i) := by
      rw [hd]
      refine Measure.rnDeriv_withDensity _ ?_
      refine Finset.measurable_fun_prod _ fun i _ => ?_
      unfold gaussRatio
      fun_prop
    filter_upwards [hac.ae_le h1] with y hy
    rw [llr, hy, ENNReal.toReal_prod, Real.log_prod]
    · refine Finset.sum_congr rfl fun i _ => ?_
      rw [gaussRatio, ENNReal.toReal_ofReal (Real.exp_pos _).le, Real.log_exp]
      have : (v i : ℝ) ≠ 0 := by exact_mod_cast hv i
      field_simp
      ring
    · intro i _
      rw [gaussRatio, ENNReal.toReal_ofReal (Real.exp_pos _).le]
      exact (Real.exp_pos _).ne'
  have hint : ∀ i, Integrable (fun y : Fin m → ℝ => (a i - b i) / v i * y i + (b i ^ 2 - a i ^ 2) / (2 * v i)) μ := by
    intro i
    refine Integrable.add (Integrable.const_mul ?_ _) (integrable_const _)
    exact integrable_eval ((memLp_id_gaussianReal 1).integrable le_rfl)
  have hI : Integrable (llr μ ν) μ := (integrable_congr hllr).2 (integrable_finsetSum _ fun i _ => hint i)
  rw [klDiv_of_ac_of_integrable hac hI, integral_congr_ae hllr, integral_finsetSum _ fun i _ => hint i]
  simp only [probReal_univ, add_sub_cancel_right]
  congr 1
  refine Finset.sum_congr rfl fun i _ => ?_
  rw [integral_add (Integrable.const_mul (integrable_eval ((memLp_id_gaussianReal 1).integrable le_rfl)) _) (integrable_const _),
    integral_const_mul, integral_const, integral_eval, integral_id_gaussianReal, probReal_univ, one_smul]
  have : (v i : ℝ) ≠ 0 := by exact_mod_cast hv i
  field_simp
  ring

end Verif.SDE
