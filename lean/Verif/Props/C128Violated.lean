import Verif.Props.C128
import Verif.Lemmas.Processor
import Mathlib.Analysis.Complex.ExponentialBounds

/-!
# C128: where the KL terms are not the divergence of the laws of the paths

`C128_violated`: for every number of steps and every scale of the initial noise there are a diffusion network with one hidden layer
and drifts for which the reported KL is smaller than the divergence. `C128_small_violated`: with a constant diffusion of at most
`1e-8` the term of the path is zero whatever the drifts.
-/

namespace Verif.SDE

open MeasureTheory ProbabilityTheory InformationTheory Verif.Niles
open scoped NNReal ENNReal

/-- An event that is much more likely under `μ` bounds the divergence below. -/
theorem klDiv_event {X : Type*} [MeasurableSpace X] (μ ν : Measure X) [IsFiniteMeasure μ] [IsFiniteMeasure ν] (A : Set X)
    (hA : MeasurableSet A) (b : ℝ) (hb : 0 < b) (hν : ν.real A ≤ b) :
    ENNReal.ofReal (μ.real A * Real.log (μ.real A / b) - μ.real A) ≤ klDiv μ ν := by
  by_cases hac : μ ≪ ν
  swap
  · rw [klDiv_of_not_ac hac]
    exact le_top
  set r := μ.rnDeriv ν with hr
  have hd : ν.withDensity r = μ := Measure.withDensity_rnDeriv_eq μ ν hac
  have hrm : Measurable r := Measure.measurable_rnDeriv μ ν
  have hdA : (ν.restrict A).withDensity r = μ.restrict A := by
    rw [← restrict_withDensity hA, hd]
  have i1 : IsFiniteMeasure ((ν.restrict A).withDensity r) := by rw [hdA]; infer_instance
  have i2 : IsFiniteMeasure (ν.withDensity r) := by rw [hd]; infer_instance
  have hle : klDiv (μ.restrict A) (ν.restrict A) ≤ klDiv μ ν := by
    have h1 := klDiv_withDensity (ν.restrict A) r hrm
    have h2 := klDiv_withDensity ν r hrm
    rw [hdA] at h1
    rw [hd] at h2
    rw [h1, h2]
    exact lintegral_mono' Measure.restrict_le_self le_rfl
  refine le_trans ?_ hle
  refine le_trans ?_ (mul_log_le_klDiv _ _)
  have e1 : (μ.restrict A).real Set.univ = μ.real A := by simp [Measure.real]
  have e2 : (ν.restrict A).real Set.univ = ν.real A := by simp [Measure.real]
  rw [e1, e2]
  refine ENNReal.ofReal_le_ofReal ?_
  have hp : 0 ≤ μ.real A := measureReal_nonneg
  have hq : 0 ≤ ν.real A := measureReal_nonneg
  rcases hq.eq_or_lt with h0 | h0
  · have h3 : ν A = 0 := by
      have := h0.symm
      rwa [measureReal_eq_zero_iff] at this
    have h4 : μ.real A = 0 := by rw [Measure.real, hac h3, ENNReal.toReal_zero]
    rw [h4, ← h0]
    simp
  rcases hp.eq_or_lt with h1 | h1
  · rw [← h1]
    simp only [zero_mul, sub_zero, zero_add]
    exact hq
  have h5 : Real.log (μ.real A / b) ≤ Real.log (μ.real A / ν.real A) :=
    Real.log_le_log (by positivity) (div_le_div_of_nonneg_left hp h0 hν)
  have h6 := mul_le_mul_of_nonneg_left h5 hp
  linarith

theorem gauss_tail (v : ℝ≥0) (hv : v ≠ 0) {x : ℝ} (hx : 0 ≤ x) :
    (gaussianReal 0 v).real {y | x ≤ y} ≤ Real.exp (-(x ^ 2 / (2 * v))) := by
  have hv0 : (0 : ℝ) < v := by positivity
  have hm := mgf_gaussianReal (p := gaussianReal 0 v) (X := id) (μ := 0) (v := v) Measure.map_id (x / v)
  have h := measure_ge_le_exp_mul_mgf (μ := gaussianReal 0 v) (X := id) x (t := x / v) (by positivity)
    (integrable_exp_mul_gaussianReal _)
  rw [hm, ← Real.exp_add] at h
  refine h.trans (le_of_eq ?_)
  congr 1
  field_simp
  ring

theorem gauss_half (v : ℝ≥0) (hv : v ≠ 0) : (gaussianReal 0 v).real {y | 0 < y} = 1 / 2 := by
  have := nullSingletonClass_gaussianReal (μ := 0) hv
  have h1 : (gaussianReal 0 v).real {y | y < 0} = (gaussianReal 0 v).real {y | 0 < y} := by
    have h2 := gaussianReal_map_neg (μ := 0) (v := v)
    rw [neg_zero] at h2
    conv_lhs => rw [← h2]
    rw [map_measureReal_apply (f := fun x : ℝ => -x) (s := {y : ℝ | y < 0}) (by fun_prop) measurableSet_Iio]
    congr 1
    ext y
    simp
  have h3 : (gaussianReal 0 v).real {y | y ≤ 0} = (gaussianReal 0 v).real {y | y < 0} :=
    measureReal_congr (Iio_ae_eq_Iic (μ := gaussianReal 0 v) (a := (0 : ℝ))).symm
  have h4 := probReal_compl_eq_one_sub (μ := gaussianReal 0 v) (s := {y : ℝ | 0 < y}) measurableSet_Ioi
  have h5 : {y : ℝ | 0 < y}ᶜ = {y | y ≤ 0} := by
    ext y
    simp
  rw [h5, h3, h1] at h4
  linarith

/-- The first step of a path. -/
theorem heunPath_one {m : ℕ} (n : ℕ) (drift : (Fin m → ℝ) → ℝ → Fin m → ℝ) (sigma : (Fin m → ℝ) → Fin m → ℝ)
    (z0 : Fin m → ℝ) (k : ℕ) (w : Fin (k + 1) → Fin m → ℝ) :
    heunPath n drift sigma z0 (k + 1) w 1 = heunStep n drift sigma 0 z0 (w 0) := by
  induction k with
  | zero =>
    have : (1 : Fin (0 + 1 + 1)) = Fin.last 1 := rfl
    rw [heunPath, this, Fin.snoc_last]
    rfl
  | succ k ih =>
    have : (1 : Fin (k + 1 + 1 + 1)) = Fin.castSucc 1 := rfl
    rw [heunPath, this, Fin.snoc_castSucc, ih]
    rfl

/-- The weights of a diffusion network with one hidden layer. -/
noncomputable def steepW : ℕ → DenseW
  | 0 => ⟨fun c o => if c = 0 ∧ o = 0 then 1 else 0, fun _ => 0⟩
  | _ => ⟨fun c _ => if c = 0 then -4 else 0, fun _ => 0⟩

theorem steepW_sigma {hidden : ℕ} (hh : 1 ≤ hidden) (x : ℝ) : sigmaFn steepW 1 hidden x = Real.exp (-4 * Real.tanh x) := by
  have h : (0 : ℕ) ∈ Finset.range hidden := Finset.mem_range.2 hh
  simp only [sigmaFn, List.replicate, List.cons_append, List.nil_append, mlpNet, dense, steepW, Finset.range_one,
    Finset.sum_singleton, add_zero, true_and]
  rw [Finset.sum_eq_single_of_mem 0 h fun c _ hc => by simp [hc]]
  simp [mul_comm]

theorem tanh_half {y : ℝ} (hy : 1 ≤ y) : 1 / 2 ≤ Real.tanh y := by
  have h1 : (3 : ℝ) ≤ Real.exp (2 * y) := by
    have := Real.add_one_le_exp (2 * y)
    linarith
  have h0 := Real.exp_pos (2 * y)
  have e : Real.tanh y = 1 - 2 * (Real.exp (2 * y) + 1)⁻¹ := by
    have h2 : Real.exp (2 * y) = Real.exp y * Real.exp y := by rw [two_mul, Real.exp_add]
    rw [Real.tanh_eq, h2, Real.exp_neg]
    have := Real.exp_pos y
    field_simp
    ring
  rw [e]
  have : (Real.exp (2 * y) + 1)⁻¹ ≤ 1 / 4 := by
    rw [one_div]
    exact inv_anti₀ (by norm_num) (by linarith)
  linarith

theorem exp_small : Real.exp (4 / 100) ≤ 105 / 100 := by
  have := Real.exp_bound_div_one_sub_of_interval (x := 4 / 100) (by norm_num) (by norm_num)
  linarith

theorem exp_two : Real.exp (-2) ≤ 15 / 100 := by
  have h := Real.exp_one_gt_d9
  rw [Real.exp_neg]
  have h2 : Real.exp 2 = Real.exp 1 * Real.exp 1 := by rw [← Real.exp_add]; norm_num
  rw [h2, inv_le_comm₀ (by positivity) (by norm_num)]
  nlinarith

/-- A step of the prior that gains three units needs an increment of at least five. -/
theorem steep_step {z w : ℝ} (hz : |z| ≤ 1 / 100)
    (h : 3 < (1 / 2) * (w * Real.exp (-4 * Real.tanh z) + w * Real.exp (-4 * Real.tanh (z + w * Real.exp (-4 * Real.tanh z))))) :
    5 ≤ w := by
  have ht := tanh_lip z 0
  rw [Real.tanh_zero, sub_zero, sub_zero] at ht
  have ht' := abs_le.1 (ht.trans hz)
  have hz' := abs_le.1 hz
  have hs : Real.exp (-4 * Real.tanh z) ≤ 105 / 100 := (Real.exp_le_exp.2 (by linarith)).trans exp_small
  set s := Real.exp (-4 * Real.tanh z) with hsd
  have hs0 : 0 < s := Real.exp_pos _
  have hr0 := Real.exp_pos (-4 * Real.tanh (z + w * s))
  by_contra hw
  push Not at hw
  have hw0 : 0 < w := by
    by_contra h0
    push Not at h0
    nlinarith [mul_nonneg (neg_nonneg.2 h0) hs0.le, mul_nonneg (neg_nonneg.2 h0) hr0.le]
  by_cases hc : 1 ≤ z + w * s
  · have h1 : Real.exp (-4 * Real.tanh (z + w * s)) ≤ 15 / 100 :=
      (Real.exp_le_exp.2 (by linarith [tanh_half hc])).trans exp_two
    nlinarith [mul_le_mul_of_nonneg_left h1 hw0.le, mul_le_mul_of_nonneg_left hs hw0.le]
  · push Not at hc
    have h1 : Real.exp (-4 * Real.tanh (z + w * s)) ≤ s := by
      rw [hsd]
      refine Real.exp_le_exp.2 ?_
      have : Real.tanh z ≤ Real.tanh (z + w * s) := by
        have hmono : Monotone Real.tanh := monotone_of_deriv_nonneg (fun x => (tanh_deriv x).differentiableAt) fun x => by
          rw [(tanh_deriv x).deriv]
          have h := tanh_abs_le x
          have h2 : Real.tanh x ^ 2 ≤ 1 := by rw [← sq_abs]; exact pow_le_one₀ (abs_nonneg _) h
          linarith
        exact hmono (by nlinarith [mul_pos hw0 hs0])
      linarith
    nlinarith [mul_le_mul_of_nonneg_left h1 hw0.le]

/-- Drifts that differ in the first step only, and only for some of the contexts. -/
noncomputable def kickNets (n hidden : ℕ) (c : Fin 1 → ℝ) : Nets ℝ 1 where
  post _ t _ := if |c 0| ≤ 1 / 100 ∧ t = 0 then 3 * n else 0
  prior _ _ _ := 0
  sigma z i := sigmaFn steepW 1 hidden (z i)

theorem kick_pathKL (k hidden : ℕ) (hh : 1 ≤ hidden) (z0 : Fin 1 → ℝ) (w : Fin (k + 1) → Fin 1 → ℝ) :
    pathKL (kickNets (k + 1) hidden) z0 (List.ofFn w) ≤ if |z0 0| ≤ 1 / 100 then 5 * ((k + 1 : ℕ) : ℝ) else 0 := by
  have hn0 : (0 : ℝ) < ((k + 1 : ℕ) : ℝ) := by positivity
  unfold pathKL
  rw [samplePath_heun _ _ (k + 1) (by omega), Fin.sum_univ_succ]
  have hrest : ∀ j : Fin k, ∀ z, logqp (kickNets (k + 1) hidden z0) z ((j.succ : Fin (k + 1)) / ((k + 1 : ℕ) : ℝ)) = 0 := by
    intro j z
    have ht : ((j.succ : Fin (k + 1)) : ℝ) / ((k + 1 : ℕ) : ℝ) ≠ 0 := by
      refine div_ne_zero ?_ hn0.ne'
      rw [Fin.val_succ]
      positivity
    unfold logqp divideNoNan kickNets
    simp only [ht, and_false, if_false, sub_self, zero_div, ite_self]
    simp
  simp only [hrest, mul_zero, Finset.sum_const_zero, add_zero]
  rw [Fin.castSucc_zero, heunPath_zero]
  by_cases hz : |z0 0| ≤ 1 / 100
  · rw [if_pos hz]
    have ht := tanh_lip (z0 0) 0
    rw [Real.tanh_zero, sub_zero, sub_zero] at ht
    have ht' := abs_le.1 (ht.trans hz)
    have hs : Real.exp (-(4 / 100)) ≤ sigmaFn steepW 1 hidden (z0 0) := by
      rw [steepW_sigma hh]
      exact Real.exp_le_exp.2 (by linarith)
    set s := sigmaFn steepW 1 hidden (z0 0) with hsd
    have hinv : s⁻¹ ≤ 105 / 100 := by
      refine le_trans (inv_anti₀ (Real.exp_pos _) hs) ?_
      rw [Real.exp_neg, inv_inv]
      exact exp_small
    have hs0 : 0 < s := (Real.exp_pos _).trans_le hs
    have hbig : ¬|s| ≤ 1 / 10 ^ 8 := by
      rw [abs_of_pos hs0]
      intro h
      have h2 : (1 / 10 ^ 8 : ℝ)⁻¹ ≤ s⁻¹ := inv_anti₀ hs0 h
      norm_num at h2
      linarith
    have hl : logqp (kickNets (k + 1) hidden z0) z0 (((0 : Fin (k + 1)) : ℝ) / ((k + 1 : ℕ) : ℝ)) =
        (1 / 2) * (3 * ((k + 1 : ℕ) : ℝ) * s⁻¹) ^ 2 := by
      unfold logqp divideNoNan kickNets
      simp only [Fin.sum_univ_one, Fin.val_zero, Nat.cast_zero, zero_div, and_true, if_pos hz, sub_zero, ← hsd, if_neg hbig]
      rw [div_eq_mul_inv (3 * ((k + 1 : ℕ) : ℝ)) s]
    rw [hl]
    have h0 : 0 ≤ s⁻¹ := by positivity
    have h3 : s⁻¹ ^ 2 ≤ (105 / 100) ^ 2 := pow_le_pow_left₀ h0 hinv 2
    have e : 1 / ((k + 1 : ℕ) : ℝ) * (1 / 2 * (3 * ((k + 1 : ℕ) : ℝ) * s⁻¹) ^ 2) = (9 / 2) * ((k + 1 : ℕ) : ℝ) * s⁻¹ ^ 2 := by
      field_simp
      ring
    rw [e]
    nlinarith [mul_le_mul_of_nonneg_left h3 hn0.le]
  · rw [if_neg hz]
    unfold logqp divideNoNan kickNets
    simp only [hz, false_and, if_false, sub_self, zero_div, ite_self]
    simp

set_option maxHeartbeats 1000000 in
/-- For every number of steps, every width of the hidden layer of the diffusion network and every scale of the initial noise: drifts
and weights for which the KL terms are smaller than the divergence of the laws of the paths. -/
theorem C128_violated (n : ℕ) (hn : 1 ≤ n) (hidden : ℕ) (hh : 1 ≤ hidden) {scale : ℝ} (hscale : 0 < scale) :
    ∃ (W : ℕ → DenseW) (N : (Fin 1 → ℝ) → Nets ℝ 1),
      (∀ c z i, (N c).sigma z i = sigmaFn W 1 hidden (z i)) ∧ (∀ c z i, 1 / 10 ^ 8 < (N c).sigma z i) ∧
      (∀ c c', (N c).prior = (N c').prior) ∧
      (∀ t, Measurable fun p : (Fin 1 → ℝ) × (Fin 1 → ℝ) => (N p.1).post p.2 t) ∧ (∀ t, Measurable fun z => (N 0).prior z t) ∧
      ENNReal.ofReal (klQ0 (0 : Fin 1 → ℝ) scale) +
          ∫⁻ p, ENNReal.ofReal (pathKL N (startAt 0 scale p.1) (List.ofFn p.2)) ∂pathNoise n 1 <
        klDiv (posteriorLaw n N 0 scale) (priorLaw n N scale) := by
  obtain ⟨k, rfl⟩ : ∃ k, n = k + 1 := ⟨n - 1, by omega⟩
  have hpm : ∀ t, Measurable fun p : (Fin 1 → ℝ) × (Fin 1 → ℝ) => (kickNets (k + 1) hidden p.1).post p.2 t := by
    intro t
    unfold kickNets
    refine measurable_pi_lambda _ fun i => Measurable.ite ?_ measurable_const measurable_const
    refine MeasurableSet.inter (s₁ := {p : (Fin 1 → ℝ) × (Fin 1 → ℝ) | |p.1 0| ≤ 1 / 100}) ?_ (MeasurableSet.const _)
    exact measurableSet_le (by fun_prop) measurable_const
  have hsm : ∀ c, Measurable (kickNets (k + 1) hidden c).sigma := by
    intro c
    have : (kickNets (k + 1) hidden c).sigma = fun z i => Real.exp (-4 * Real.tanh (z i)) := by
      funext z i
      exact steepW_sigma hh _
    rw [this]
    have ht : Measurable Real.tanh := (continuous_iff_continuousAt.2 fun x => (tanh_deriv x).continuousAt).measurable
    exact measurable_pi_lambda _ fun i => Real.measurable_exp.comp ((ht.comp (measurable_pi_apply i)).const_mul _)
  refine ⟨steepW, kickNets (k + 1) hidden, fun _ _ _ => rfl, fun c z i => ?_, fun _ _ => rfl, hpm,
    fun _ => measurable_const, ?_⟩
  · change _ < sigmaFn steepW 1 hidden (z i)
    rw [steepW_sigma hh]
    have h1 : Real.exp (-4) ≤ Real.exp (-4 * Real.tanh (z i)) := by
      refine Real.exp_le_exp.2 ?_
      have := (abs_le.1 (tanh_abs_le (z i))).2
      linarith
    refine lt_of_lt_of_le ?_ h1
    have h2 : Real.exp 4 < 10 ^ 8 := by
      have h3 := Real.exp_one_lt_d9
      have e : Real.exp 4 = Real.exp 1 ^ 4 := by rw [← Real.exp_nat_mul]; norm_num
      rw [e]
      calc Real.exp 1 ^ 4 ≤ 3 ^ 4 := pow_le_pow_left₀ (Real.exp_pos _).le (by linarith) 4
        _ < 10 ^ 8 := by norm_num
    rw [Real.exp_neg, one_div]
    exact inv_strictAnti₀ (Real.exp_pos _) h2
  set N := kickNets (k + 1) hidden with hN
  set n : ℕ := k + 1 with hnd
  have hn0 : (1 : ℝ) ≤ n := by exact_mod_cast hn
  set g : Measure ℝ := gaussianReal 0 (1 / n) with hg
  have hv : (1 / n : ℝ≥0) ≠ 0 := one_div_ne_zero (by exact_mod_cast (by omega : n ≠ 0))
  have hsm0 := startAt_measurable (0 : Fin 1 → ℝ) scale
  -- the starts near zero
  set S : Set (Fin 1 → ℝ) := {x | |startAt 0 scale x 0| ≤ 1 / 100} with hS
  have hSm : MeasurableSet S := measurableSet_le (by fun_prop) measurable_const
  set γ : Measure (Fin 1 → ℝ) := Measure.pi fun _ => gaussianReal 0 1 with hγ
  set Γ : Measure (Fin n → Fin 1 → ℝ) := Measure.pi fun _ => Measure.pi fun _ => gaussianReal 0 (1 / n) with hΓ
  have hp : 0 < γ.real S := by
    have hint : S ⊇ Set.univ.pi fun _ => Set.Ioo (0 : ℝ) (1 / (100 * scale)) := by
      intro x hx
      have h := hx 0 (Set.mem_univ _)
      change |(0 : ℝ) + scale * 1 * x 0| ≤ 1 / 100
      rw [zero_add, mul_one, abs_of_pos (mul_pos hscale h.1)]
      have := (lt_div_iff₀ (by positivity)).1 h.2
      linarith
    have h0 : 0 < γ (Set.univ.pi fun _ => Set.Ioo (0 : ℝ) (1 / (100 * scale))) := by
      rw [hγ, Measure.pi_pi, Fin.prod_univ_one, pos_iff_ne_zero]
      intro h
      have h2 := gaussianReal_absolutelyContinuous' 0 (one_ne_zero (α := ℝ≥0)) h
      rw [Real.volume_Ioo, sub_zero, ENNReal.ofReal_eq_zero] at h2
      have : 0 < 1 / (100 * scale) := by positivity
      linarith
    exact ENNReal.toReal_pos (h0.trans_le (measure_mono hint)).ne' (measure_ne_top _ _)
  have heval : ∀ B : Set ℝ, MeasurableSet B → Γ.real {w | w 0 0 ∈ B} = g.real B := by
    intro B hB
    have h := (measurePreserving_eval (fun _ : Fin 1 => g) 0).comp
      (measurePreserving_eval (fun _ : Fin n => Measure.pi fun _ : Fin 1 => g) 0)
    exact congrArg ENNReal.toReal (h.measure_preimage hB.nullMeasurableSet)
  have hnoise : pathNoise n 1 = γ.prod Γ := rfl
  have hrect : ∀ B : Set ℝ, MeasurableSet B → (pathNoise n 1).real (S ×ˢ {w | w 0 0 ∈ B}) = γ.real S * g.real B := by
    intro B hB
    rw [hnoise, measureReal_prod_prod, heval B hB]
  -- the event
  set A : Set (Fin (n + 1) → Fin 1 → ℝ) := {h | |h 0 0| ≤ 1 / 100 ∧ h 0 0 + 3 < h 1 0} with hA
  have hAm : MeasurableSet A :=
    (measurableSet_le (f := fun h : Fin (n + 1) → Fin 1 → ℝ => |h 0 0|) (by fun_prop) measurable_const).inter
      (measurableSet_lt (f := fun h : Fin (n + 1) → Fin 1 → ℝ => h 0 0 + 3) (g := fun h => h 1 0) (by fun_prop) (by fun_prop))
  have hd1 : MeasurableDrift fun c => (N c).post := hpm
  have hd2 : MeasurableDrift fun c => (N c).prior := fun t => measurable_const
  have hf1 : Measurable fun p : (Fin 1 → ℝ) × (Fin n → Fin 1 → ℝ) =>
      heunPath n (N (startAt 0 scale p.1)).post (N (startAt 0 scale p.1)).sigma (startAt 0 scale p.1) n p.2 :=
    (pathFn_measurable n (fun c => (N c).post) (N 0).sigma hd1 (hsm 0) n).comp (hsm0.prodMap measurable_id)
  have hf2 : Measurable fun p : (Fin 1 → ℝ) × (Fin n → Fin 1 → ℝ) =>
      heunPath n (N (startAt 0 scale p.1)).prior (N (startAt 0 scale p.1)).sigma (startAt 0 scale p.1) n p.2 :=
    (pathFn_measurable n (fun c => (N c).prior) (N 0).sigma hd2 (hsm 0) n).comp (hsm0.prodMap measurable_id)
  have hsig : ∀ c z i, (N c).sigma z i = Real.exp (-4 * Real.tanh (z i)) := fun c z i => steepW_sigma hh _
  have hP : (posteriorLaw n N 0 scale).real A = γ.real S * (1 / 2) := by
    have hBm : MeasurableSet {y : ℝ | 0 < y} := measurableSet_Ioi
    rw [posteriorLaw, map_measureReal_apply hf1 hAm, ← gauss_half _ hv, ← hrect _ hBm]
    congr 1
    ext p
    simp only [Set.mem_preimage, hA, Set.mem_ofPred_eq, Set.mem_prod, hS, heunPath_zero]
    refine and_congr_right fun hz => ?_
    rw [heunPath_one, heunStep]
    have hpost : (N (startAt 0 scale p.1)).post (startAt 0 scale p.1) (((0 : ℕ) : ℝ) / n) 0 = 3 * n := by
      rw [hN, kickNets]
      simp only [Nat.cast_zero, zero_div, and_true, if_pos hz]
    rw [hpost]
    simp only [hsig]
    have hn1 : 1 / (n : ℝ) * (3 * n) = 3 := by
      have : (n : ℝ) ≠ 0 := by positivity
      field_simp
    rw [hn1]
    have ha := Real.exp_pos (-4 * Real.tanh (startAt 0 scale p.1 0))
    have hb := Real.exp_pos (-4 * Real.tanh (startAt 0 scale p.1 0 + p.2 0 0 * Real.exp (-4 * Real.tanh (startAt 0 scale p.1 0))))
    constructor
    · intro h
      by_contra h0
      push Not at h0
      nlinarith [mul_nonneg (neg_nonneg.2 h0) ha.le, mul_nonneg (neg_nonneg.2 h0) hb.le]
    · intro h
      linarith [mul_pos h ha, mul_pos h hb]
  have hQ : (priorLaw n N scale).real A ≤ γ.real S * Real.exp (-(25 * n / 2)) := by
    have hBm : MeasurableSet {y : ℝ | 5 ≤ y} := measurableSet_Ici
    rw [priorLaw, map_measureReal_apply hf2 hAm]
    have htail : g.real {y | 5 ≤ y} ≤ Real.exp (-(25 * n / 2)) := by
      refine (gauss_tail _ hv (by norm_num)).trans (le_of_eq ?_)
      congr 2
      push_cast
      field_simp
      norm_num
    refine le_trans ?_ (mul_le_mul_of_nonneg_left htail hp.le)
    rw [← hrect _ hBm]
    refine measureReal_mono ?_ (measure_ne_top _ _)
    intro p hq
    simp only [Set.mem_preimage, hA, Set.mem_ofPred_eq, heunPath_zero] at hq
    rw [heunPath_one, heunStep] at hq
    refine ⟨hq.1, steep_step hq.1 ?_⟩
    have := hq.2
    simp only [hsig] at this
    have hprior : ∀ c z t i, (N c).prior z t i = 0 := fun _ _ _ _ => rfl
    rw [hprior, mul_zero, add_zero] at this
    linarith
  have i1 : IsProbabilityMeasure (posteriorLaw n N 0 scale) := Measure.isProbabilityMeasure_map (μ := pathNoise n 1) hf1.aemeasurable
  have i2 : IsProbabilityMeasure (priorLaw n N scale) := Measure.isProbabilityMeasure_map (μ := pathNoise n 1) hf2.aemeasurable
  have hlow := klDiv_event (posteriorLaw n N 0 scale) (priorLaw n N scale) A hAm _ (by positivity) hQ
  refine lt_of_lt_of_le ?_ hlow
  have hq0 : ENNReal.ofReal (klQ0 (0 : Fin 1 → ℝ) scale) = 0 := by rw [← klDiv_start 0 hscale, klDiv_self]
  have hup : ∫⁻ p, ENNReal.ofReal (pathKL N (startAt 0 scale p.1) (List.ofFn p.2)) ∂pathNoise n 1 ≤
      ENNReal.ofReal (5 * n * γ.real S) := by
    have h1 : ∀ p : (Fin 1 → ℝ) × (Fin n → Fin 1 → ℝ), ENNReal.ofReal (pathKL N (startAt 0 scale p.1) (List.ofFn p.2)) ≤
        (S ×ˢ Set.univ).indicator (fun _ => ENNReal.ofReal (5 * n)) p := by
      intro p
      have h2 := kick_pathKL k hidden hh (startAt 0 scale p.1) p.2
      by_cases hz : p.1 ∈ S
      · rw [Set.indicator_of_mem (Set.mk_mem_prod hz (Set.mem_univ _))]
        rw [if_pos (show |startAt 0 scale p.1 0| ≤ 1 / 100 from hz)] at h2
        exact ENNReal.ofReal_le_ofReal h2
      · rw [Set.indicator_of_notMem fun h => hz h.1]
        rw [if_neg (show ¬|startAt 0 scale p.1 0| ≤ 1 / 100 from hz)] at h2
        rw [ENNReal.ofReal_of_nonpos h2]
    refine (lintegral_mono h1).trans ?_
    rw [lintegral_indicator_const (hSm.prod MeasurableSet.univ), hnoise, Measure.prod_prod, measure_univ, mul_one,
      ENNReal.ofReal_mul (p := 5 * (n : ℝ)) (by positivity), ofReal_measureReal (measure_ne_top _ _)]
  rw [hq0, zero_add]
  refine lt_of_le_of_lt hup ?_
  rw [hP]
  have hlog : Real.log (γ.real S * (1 / 2) / (γ.real S * Real.exp (-(25 * n / 2)))) = 25 * n / 2 - Real.log 2 := by
    have e : γ.real S * (1 / 2) / (γ.real S * Real.exp (-(25 * n / 2))) = Real.exp (25 * n / 2) / 2 := by
      rw [Real.exp_neg]
      field_simp
    rw [e, Real.log_div (Real.exp_pos _).ne' (by norm_num), Real.log_exp]
  rw [hlog]
  have hlog2 : Real.log 2 ≤ 1 := by
    have := Real.log_le_sub_one_of_pos (x := 2) (by norm_num)
    linarith
  have hfin : 5 * n * γ.real S < γ.real S * (1 / 2) * (25 * n / 2 - Real.log 2) - γ.real S * (1 / 2) := by
    have h3 : 0 < γ.real S * ((1 / 2) * (25 * n / 2 - Real.log 2) - 1 / 2 - 5 * n) := mul_pos hp (by linarith)
    linarith
  exact (ENNReal.ofReal_lt_ofReal_iff (lt_of_le_of_lt (by positivity) hfin)).2 hfin

/-- With a constant diffusion of at most `1e-8` and drifts that differ by one, the term of the path is always zero; the divergence
grows without bound as the diffusion gets smaller. -/
theorem C128_small_violated {m : ℕ} (n : ℕ) (hn : 1 ≤ n) (s : ℝ) (hs : 0 < s) (hs' : s ≤ 1 / 10 ^ 8) (v : Fin m → ℝ) {scale : ℝ}
    (hscale : 0 < scale) :
    let N : (Fin m → ℝ) → Nets ℝ m := fun _ => ⟨fun _ _ _ => 1, fun _ _ _ => 0, fun _ _ => s⟩
    (∀ z0 w, pathKL N z0 (List.ofFn (n := n) w) = 0) ∧
      klDiv (posteriorLaw n N v scale) (priorLaw n N scale) =
        ENNReal.ofReal (klQ0 v scale) + ENNReal.ofReal (m / (2 * s ^ 2)) := by
  intro N
  have hn0 : (0 : ℝ) < n := by exact_mod_cast hn
  refine ⟨fun z0 w => ?_, ?_⟩
  · obtain ⟨z1, h⟩ := C68_violated (N z0) (fun z i => by
      change |s| ≤ _
      rwa [abs_of_pos hs]) z0 (List.ofFn w) (by rw [List.length_ofFn]; omega)
    rw [pathKL, h]
  · rw [law_kl n hn N (fun _ => s) (fun _ => hs) (fun _ _ => rfl) (fun _ _ => rfl) (fun _ => measurable_const)
      (fun _ => measurable_const) v hscale]
    congr 1
    have e : ∀ p : (Fin m → ℝ) × (Fin n → Fin m → ℝ), ∑ j : Fin n, (1 / (n : ℝ)) * rateOf (fun c => (N c).post) (N 0).prior
        (fun _ => s) (startAt v scale p.1) (heunPath n (N (startAt v scale p.1)).post (fun _ _ => s) (startAt v scale p.1) n p.2
          j.castSucc) (j / n) = m / (2 * s ^ 2) := by
      intro p
      simp only [rateOf, N, sub_zero, Finset.sum_const, Finset.card_univ, Fintype.card_fin, nsmul_eq_mul]
      field_simp
    simp only [e, lintegral_const, measure_univ, mul_one]

end Verif.SDE
