import Verif.Lemmas.PathKL
import Verif.Props.C126

/-!
# C128: the KL terms of the latent SDE as a divergence of the laws of the paths

With a diffusion that does not depend on the state, the initial KL term and the expected KL term of the path add up to the
Kullback-Leibler divergence of the law of the sampled path from the law of the path with the prior drift, started at the prior.
-/

namespace Verif.SDE

open MeasureTheory ProbabilityTheory InformationTheory
open scoped NNReal ENNReal

/-- The random numbers of a trajectory: start and `n` increments. -/
noncomputable def pathNoise (n m : ℕ) : Measure ((Fin m → ℝ) × (Fin n → Fin m → ℝ)) :=
  (Measure.pi fun _ => gaussianReal 0 1).prod (Measure.pi fun _ => Measure.pi fun _ => gaussianReal 0 (1 / n))

instance (n m : ℕ) : IsProbabilityMeasure (pathNoise n m) := by
  unfold pathNoise
  infer_instance

/-- The initial state of a trajectory. -/
noncomputable def startAt {m : ℕ} (v : Fin m → ℝ) (scale : ℝ) (x : Fin m → ℝ) : Fin m → ℝ := fun i => v i + scale * 1 * x i

/-- The law of the sampled path: start around `v`, context the start, drift of the posterior. -/
noncomputable def posteriorLaw {m : ℕ} (n : ℕ) (N : (Fin m → ℝ) → Nets ℝ m) (v : Fin m → ℝ) (scale : ℝ) :
    Measure (Fin (n + 1) → Fin m → ℝ) :=
  (pathNoise n m).map fun p =>
    heunPath n (N (startAt v scale p.1)).post (N (startAt v scale p.1)).sigma (startAt v scale p.1) n p.2

/-- The law of the path of the prior: start around zero, drift of the prior. -/
noncomputable def priorLaw {m : ℕ} (n : ℕ) (N : (Fin m → ℝ) → Nets ℝ m) (scale : ℝ) : Measure (Fin (n + 1) → Fin m → ℝ) :=
  (pathNoise n m).map fun p =>
    heunPath n (N (startAt 0 scale p.1)).prior (N (startAt 0 scale p.1)).sigma (startAt 0 scale p.1) n p.2

/-- The KL term of the path as returned with the trajectory. -/
noncomputable def pathKL {m : ℕ} (N : (Fin m → ℝ) → Nets ℝ m) (z0 : Fin m → ℝ) (dw : List (Fin m → ℝ)) : ℝ :=
  match samplePath (dynamics (N z0)) z0 dw with
  | .ok (_, kl) => kl
  | .error _ => 0

theorem gauss_shift {m : ℕ} (c s : Fin m → ℝ) (v : ℝ≥0) :
    (Measure.pi fun _ : Fin m => gaussianReal 0 v).map (fun w i => c i + s i * w i) =
      Measure.pi fun i => gaussianReal (c i) ((s i ^ 2).toNNReal * v) := by
  rw [Measure.pi_map_pi (f := fun i x => c i + s i * x) fun i => by fun_prop]
  congr 1
  funext i
  have h : (fun x : ℝ => c i + s i * x) = (fun y => c i + y) ∘ fun x => s i * x := rfl
  rw [h, ← Measure.map_map (by fun_prop) (by fun_prop), gaussianReal_map_const_mul, gaussianReal_map_const_add]
  have e : (NNReal.mk (s i ^ 2) (sq_nonneg _)) = (s i ^ 2).toNNReal := by
    ext
    rw [Real.coe_toNNReal _ (sq_nonneg _)]
    rfl
  rw [mul_zero, zero_add, e]

/-- The KL rate for a diffusion that does not depend on the state. -/
noncomputable def rateOf {m : ℕ} (post : (Fin m → ℝ) → (Fin m → ℝ) → ℝ → Fin m → ℝ) (prior : (Fin m → ℝ) → ℝ → Fin m → ℝ)
    (s : Fin m → ℝ) (c z : Fin m → ℝ) (t : ℝ) : ℝ := (1 / 2) * ∑ i, ((post c z t i - prior z t i) / s i) ^ 2

theorem noiseKernel_const {m : ℕ} (n : ℕ) (drift : (Fin m → ℝ) → (Fin m → ℝ) → ℝ → Fin m → ℝ) (s : Fin m → ℝ)
    (hd : MeasurableDrift drift) (k : ℕ) (h : Fin (k + 1) → Fin m → ℝ) (v : ℝ≥0) :
    noiseKernel (Measure.pi fun _ => gaussianReal 0 v) (historyStep n drift (fun _ => s) k)
        (historyStep_measurable n drift _ hd measurable_const k) h =
      Measure.pi fun i => gaussianReal (h (Fin.last k) i + (1 / n) * drift (h 0) (h (Fin.last k)) (k / n) i)
        ((s i ^ 2).toNNReal * v) := by
  rw [noiseKernel_apply, ← gauss_shift]
  congr 1
  funext w i
  simp only [historyStep, heunStep]
  ring

theorem path_kl {m : ℕ} (n : ℕ) (hn : 1 ≤ n) (post : (Fin m → ℝ) → (Fin m → ℝ) → ℝ → Fin m → ℝ)
    (prior : (Fin m → ℝ) → ℝ → Fin m → ℝ) (s : Fin m → ℝ) (hs : ∀ i, s i ≠ 0) (hpost : MeasurableDrift post)
    (hprior : MeasurableDrift fun _ => prior) (μ ν : Measure (Fin m → ℝ)) [IsProbabilityMeasure μ] [IsProbabilityMeasure ν] (k : ℕ) :
    klDiv ((μ.prod (Measure.pi fun _ : Fin k => Measure.pi fun _ => gaussianReal 0 (1 / n))).map (pathFn n post (fun _ => s) k))
        ((ν.prod (Measure.pi fun _ : Fin k => Measure.pi fun _ => gaussianReal 0 (1 / n))).map
          (pathFn n (fun _ => prior) (fun _ => s) k)) =
      klDiv μ ν + ∫⁻ p, ENNReal.ofReal (∑ j : Fin k, (1 / n) * rateOf post prior s (pathFn n post (fun _ => s) k p 0)
        (pathFn n post (fun _ => s) k p j.castSucc) (j / n))
          ∂μ.prod (Measure.pi fun _ : Fin k => Measure.pi fun _ => gaussianReal 0 (1 / n)) := by
  have hn0 : (0 : ℝ) < n := by exact_mod_cast hn
  have hrm : ∀ t, Measurable fun p : (Fin m → ℝ) × (Fin m → ℝ) => rateOf post prior s p.1 p.2 t := by
    intro t
    unfold rateOf
    refine Measurable.const_mul (Finset.measurable_fun_sum _ fun i _ => ?_) _
    have h1 := (measurable_pi_apply i).comp (hpost t)
    have h2 := (measurable_pi_apply i).comp (hprior t)
    exact ((h1.sub h2).div_const _).pow_const 2
  have hr0 : ∀ c z t, 0 ≤ rateOf post prior s c z t := fun c z t =>
    mul_nonneg (by norm_num) (Finset.sum_nonneg fun _ _ => sq_nonneg _)
  induction k with
  | zero =>
    have e : ∀ (drift : (Fin m → ℝ) → (Fin m → ℝ) → ℝ → Fin m → ℝ) (τ : Measure (Fin m → ℝ)) [IsProbabilityMeasure τ],
        (τ.prod (Measure.pi fun _ : Fin 0 => Measure.pi fun _ => gaussianReal 0 (1 / n))).map (pathFn n drift (fun _ => s) 0) =
          τ.map (MeasurableEquiv.funUnique (Fin 1) (Fin m → ℝ)).symm := by
      intro drift τ _
      have h1 : pathFn n drift (fun _ => s) 0 = (MeasurableEquiv.funUnique (Fin 1) (Fin m → ℝ)).symm ∘ Prod.fst := by
        funext p j
        rfl
      rw [h1, ← Measure.map_map (MeasurableEquiv.measurable _) measurable_fst, Measure.map_fst_prod, measure_univ, one_smul]
    rw [e, e, klDiv_map_equiv]
    simp
  | succ k ih =>
    set γ : Measure (Fin m → ℝ) := Measure.pi fun _ => gaussianReal 0 (1 / n) with hγ
    have hp := pathFn_measurable n post (fun _ => s) hpost measurable_const k
    have hq := pathFn_measurable n (fun _ => prior) (fun _ => s) hprior measurable_const k
    have i1 := Measure.isProbabilityMeasure_map (μ := μ.prod (Measure.pi fun _ : Fin k => γ)) hp.aemeasurable
    have i2 := Measure.isProbabilityMeasure_map (μ := ν.prod (Measure.pi fun _ : Fin k => γ)) hq.aemeasurable
    rw [path_law_succ n post _ hpost measurable_const k μ γ, path_law_succ n _ _ hprior measurable_const k ν γ,
      klDiv_map_equiv, klDiv_compProd_eq_add, ih, add_assoc]
    congr 1
    have hv : ∀ i, ((s i ^ 2).toNNReal * (1 / n : ℝ≥0) : ℝ≥0) ≠ 0 := by
      intro i
      refine mul_ne_zero ?_ ?_
      · intro h
        have h1 : 0 < s i ^ 2 := by
          have := hs i
          positivity
        exact (Real.toNNReal_pos.2 h1).ne' h
      · have : (n : ℝ≥0) ≠ 0 := by exact_mod_cast (by omega : n ≠ 0)
        exact one_div_ne_zero this
    rw [klDiv_compProd_density _ _ _ (fun h y => ∏ i, gaussRatio
      (h (Fin.last k) i + (1 / n) * post (h 0) (h (Fin.last k)) (k / n) i)
      (h (Fin.last k) i + (1 / n) * prior (h (Fin.last k)) (k / n) i) ((s i ^ 2).toNNReal * (1 / n)) (y i)) ?_ ?_]
    rotate_left
    · simp only [Function.uncurry_def]
      refine Finset.measurable_fun_prod _ fun i _ => ?_
      unfold gaussRatio
      have h1 : Measurable fun p : (Fin (k + 1) → Fin m → ℝ) × (Fin m → ℝ) => post (p.1 0) (p.1 (Fin.last k)) (k / n) i := by
        have h2 : Measurable fun p : (Fin (k + 1) → Fin m → ℝ) × (Fin m → ℝ) => (p.1 0, p.1 (Fin.last k)) := by fun_prop
        exact (measurable_pi_apply i).comp ((hpost (k / n)).comp h2)
      have h3 : Measurable fun p : (Fin (k + 1) → Fin m → ℝ) × (Fin m → ℝ) => prior (p.1 (Fin.last k)) (k / n) i := by
        have h2 : Measurable fun p : (Fin (k + 1) → Fin m → ℝ) × (Fin m → ℝ) => (p.1 0, p.1 (Fin.last k)) := by fun_prop
        exact (measurable_pi_apply i).comp ((hprior (k / n)).comp h2)
      have h4 : Measurable fun p : (Fin (k + 1) → Fin m → ℝ) × (Fin m → ℝ) => p.2 i := by fun_prop
      have h5 : Measurable fun p : (Fin (k + 1) → Fin m → ℝ) × (Fin m → ℝ) => p.1 (Fin.last k) i := by fun_prop
      exact (Real.measurable_exp.comp ((((h4.sub (h5.add (h3.const_mul _))).pow_const 2).sub
        ((h4.sub (h5.add (h1.const_mul _))).pow_const 2)).div_const _)).ennreal_ofReal
    · intro h
      rw [noiseKernel_const n post s hpost, noiseKernel_const n (fun _ => prior) s hprior]
      exact gauss_pi_withDensity _ _ _ hv
    have hstep : ∀ h : Fin (k + 1) → Fin m → ℝ, klDiv (noiseKernel γ (historyStep n post (fun _ => s) k)
        (historyStep_measurable n post _ hpost measurable_const k) h) (noiseKernel γ (historyStep n (fun _ => prior) (fun _ => s) k)
        (historyStep_measurable n _ _ hprior measurable_const k) h) =
          ENNReal.ofReal ((1 / n) * rateOf post prior s (h 0) (h (Fin.last k)) (k / n)) := by
      intro h
      rw [noiseKernel_const n post s hpost, noiseKernel_const n (fun _ => prior) s hprior, klDiv_gauss_pi _ _ _ hv]
      congr 1
      unfold rateOf
      rw [Finset.mul_sum, Finset.mul_sum]
      refine Finset.sum_congr rfl fun i _ => ?_
      have := hs i
      rw [NNReal.coe_mul, Real.coe_toNNReal _ (sq_nonneg _)]
      push_cast
      field_simp
      ring
    simp only [hstep]
    have hA : Measurable fun h : Fin (k + 1) → Fin m → ℝ =>
        ENNReal.ofReal ((1 / n) * rateOf post prior s (h 0) (h (Fin.last k)) (k / n)) := by
      have h2 : Measurable fun h : Fin (k + 1) → Fin m → ℝ => (h 0, h (Fin.last k)) := by fun_prop
      exact (((hrm (k / n)).comp h2).const_mul _).ennreal_ofReal
    have hB : Measurable fun h : Fin (k + 1) → Fin m → ℝ =>
        ENNReal.ofReal (∑ j : Fin k, (1 / n) * rateOf post prior s (h 0) (h j.castSucc) (j / n)) := by
      refine Measurable.ennreal_ofReal (Finset.measurable_fun_sum _ fun j _ => ?_)
      have h2 : Measurable fun h : Fin (k + 1) → Fin m → ℝ => (h 0, h j.castSucc) := by fun_prop
      exact ((hrm (j / n)).comp h2).const_mul _
    have hBp : Measurable fun p => ENNReal.ofReal (∑ j : Fin k, (1 / n) * rateOf post prior s (pathFn n post (fun _ => s) k p 0)
        (pathFn n post (fun _ => s) k p j.castSucc) (j / n)) := hB.comp hp
    rw [lintegral_map hA hp, ← lintegral_add_left hBp]
    rw [← lintegral_noise_succ n post (fun _ => s) hpost measurable_const k μ γ (fun h =>
      ENNReal.ofReal (∑ j : Fin k, (1 / n) * rateOf post prior s (h 0) (h j.castSucc) (j / n)) +
        ENNReal.ofReal ((1 / n) * rateOf post prior s (h 0) (h (Fin.last k)) (k / n))) (hB.add hA)]
    refine lintegral_congr fun p => ?_
    rw [Fin.sum_univ_castSucc, ENNReal.ofReal_add]
    · rfl
    · exact Finset.sum_nonneg fun j _ => mul_nonneg (by positivity) (hr0 _ _ _)
    · exact mul_nonneg (by positivity) (hr0 _ _ _)

theorem startAt_law {m : ℕ} (v : Fin m → ℝ) (scale : ℝ) :
    (Measure.pi fun _ : Fin m => gaussianReal 0 1).map (startAt v scale) =
      Measure.pi fun i => gaussianReal (v i) ((scale ^ 2).toNNReal * 1) := by
  rw [← gauss_shift v (fun _ => scale) 1]
  congr 1
  funext x i
  simp [startAt]

theorem startAt_measurable {m : ℕ} (v : Fin m → ℝ) (scale : ℝ) : Measurable (startAt v scale) := by
  unfold startAt
  fun_prop

theorem klDiv_start {m : ℕ} (v : Fin m → ℝ) {scale : ℝ} (hs : 0 < scale) :
    klDiv ((Measure.pi fun _ : Fin m => gaussianReal 0 1).map (startAt v scale))
      ((Measure.pi fun _ : Fin m => gaussianReal 0 1).map (startAt 0 scale)) = ENNReal.ofReal (klQ0 v scale) := by
  rw [startAt_law, startAt_law, klDiv_gauss_pi v 0 _ fun i => by
    have : 0 < (scale ^ 2).toNNReal := Real.toNNReal_pos.2 (by positivity)
    rw [mul_one]
    exact this.ne', (C68_initial (n := m)).2 v scale hs, Finset.mul_sum]
  congr 1
  refine Finset.sum_congr rfl fun i _ => ?_
  rw [mul_one, Real.coe_toNNReal _ (sq_nonneg _), Pi.zero_apply, sub_zero]
  field_simp

/-- The law of a path in terms of the noise. -/
theorem law_start {m : ℕ} (n : ℕ) (drift : (Fin m → ℝ) → (Fin m → ℝ) → ℝ → Fin m → ℝ) (sigma : (Fin m → ℝ) → Fin m → ℝ)
    (hd : MeasurableDrift drift) (hs : Measurable sigma) (v : Fin m → ℝ) (scale : ℝ) :
    (pathNoise n m).map (fun p => heunPath n (drift (startAt v scale p.1)) sigma (startAt v scale p.1) n p.2) =
      (((Measure.pi fun _ : Fin m => gaussianReal 0 1).map (startAt v scale)).prod
        (Measure.pi fun _ : Fin n => Measure.pi fun _ => gaussianReal 0 (1 / n))).map (pathFn n drift sigma n) := by
  have h1 := Measure.map_prod_map (Measure.pi fun _ : Fin m => gaussianReal 0 1)
    (Measure.pi fun _ : Fin n => Measure.pi fun _ : Fin m => gaussianReal 0 (1 / n)) (startAt_measurable v scale) measurable_id
  rw [Measure.map_id] at h1
  rw [h1, Measure.map_map (pathFn_measurable n drift sigma hd hs n) ((startAt_measurable v scale).prodMap measurable_id)]
  rfl

/-- With a diffusion that does not depend on the state: the divergence of the laws of the paths. -/
theorem law_kl {m : ℕ} (n : ℕ) (hn : 1 ≤ n) (N : (Fin m → ℝ) → Nets ℝ m) (s : Fin m → ℝ) (hpos : ∀ i, 0 < s i)
    (hsigma : ∀ c z, (N c).sigma z = s) (hctx : ∀ c c', (N c).prior = (N c').prior)
    (hpost : ∀ t, Measurable fun p : (Fin m → ℝ) × (Fin m → ℝ) => (N p.1).post p.2 t)
    (hprior : ∀ t, Measurable fun z => (N 0).prior z t) (v : Fin m → ℝ) {scale : ℝ} (hscale : 0 < scale) :
    klDiv (posteriorLaw n N v scale) (priorLaw n N scale) = ENNReal.ofReal (klQ0 v scale) +
      ∫⁻ p, ENNReal.ofReal (∑ j : Fin n, (1 / n) * rateOf (fun c => (N c).post) (N 0).prior s (startAt v scale p.1)
        (heunPath n (N (startAt v scale p.1)).post (fun _ => s) (startAt v scale p.1) n p.2 j.castSucc) (j / n)) ∂pathNoise n m := by
  have hd1 : MeasurableDrift fun c => (N c).post := hpost
  have hd2 : MeasurableDrift fun _ : Fin m → ℝ => (N 0).prior := fun t => (hprior t).comp measurable_snd
  have hsg : ∀ c, (N c).sigma = fun _ => s := fun c => funext (hsigma c)
  have e1 : posteriorLaw n N v scale = (((Measure.pi fun _ : Fin m => gaussianReal 0 1).map (startAt v scale)).prod
      (Measure.pi fun _ : Fin n => Measure.pi fun _ => gaussianReal 0 (1 / n))).map (pathFn n (fun c => (N c).post) (fun _ => s) n) := by
    rw [← law_start n _ _ hd1 measurable_const v scale]
    simp only [posteriorLaw, hsg]
  have e2 : priorLaw n N scale = (((Measure.pi fun _ : Fin m => gaussianReal 0 1).map (startAt 0 scale)).prod
      (Measure.pi fun _ : Fin n => Measure.pi fun _ => gaussianReal 0 (1 / n))).map (pathFn n (fun _ => (N 0).prior) (fun _ => s) n) := by
    rw [← law_start n _ _ hd2 measurable_const 0 scale]
    simp only [priorLaw, hsg, hctx _ 0]
  have i1 := Measure.isProbabilityMeasure_map (μ := Measure.pi fun _ : Fin m => gaussianReal 0 1) (startAt_measurable v scale).aemeasurable
  have i2 := Measure.isProbabilityMeasure_map (μ := Measure.pi fun _ : Fin m => gaussianReal 0 1) (startAt_measurable 0 scale).aemeasurable
  rw [e1, e2, path_kl n hn _ _ s (fun i => (hpos i).ne') hd1 hd2, klDiv_start v hscale]
  congr 1
  have hrm : Measurable fun p : (Fin m → ℝ) × (Fin n → Fin m → ℝ) => ENNReal.ofReal (∑ j : Fin n, (1 / n) *
      rateOf (fun c => (N c).post) (N 0).prior s (pathFn n (fun c => (N c).post) (fun _ => s) n p 0)
        (pathFn n (fun c => (N c).post) (fun _ => s) n p j.castSucc) (j / n)) := by
    refine Measurable.ennreal_ofReal (Finset.measurable_fun_sum _ fun j _ => Measurable.const_mul ?_ _)
    unfold rateOf
    refine Measurable.const_mul (Finset.measurable_fun_sum _ fun i _ => ?_) _
    have hp := pathFn_measurable n _ _ hd1 (measurable_const (a := s)) n
    have h0 := (measurable_pi_apply 0).comp hp
    have hj := (measurable_pi_apply j.castSucc).comp hp
    exact ((((measurable_pi_apply i).comp ((hpost (j / n)).comp (h0.prodMk hj))).sub
      ((measurable_pi_apply i).comp ((hprior (j / n)).comp hj))).div_const _).pow_const 2
  have h1 := Measure.map_prod_map (Measure.pi fun _ : Fin m => gaussianReal 0 1)
    (Measure.pi fun _ : Fin n => Measure.pi fun _ : Fin m => gaussianReal 0 (1 / n)) (startAt_measurable v scale) measurable_id
  rw [Measure.map_id] at h1
  rw [h1, lintegral_map hrm ((startAt_measurable v scale).prodMap measurable_id)]
  refine lintegral_congr fun p => ?_
  simp only [Prod.map, id_eq, pathFn, heunPath_zero]

/-- The term of the path with a diffusion that does not depend on the state. -/
theorem pathKL_eq {m : ℕ} (n : ℕ) (hn : 1 ≤ n) (N : (Fin m → ℝ) → Nets ℝ m) (s : Fin m → ℝ) (hs : ∀ i, 1 / 10 ^ 8 < s i)
    (hsigma : ∀ c z, (N c).sigma z = s) (hctx : ∀ c c', (N c).prior = (N c').prior) (z0 : Fin m → ℝ) (w : Fin n → Fin m → ℝ) :
    pathKL N z0 (List.ofFn w) = ∑ j : Fin n, (1 / n) * rateOf (fun c => (N c).post) (N 0).prior s z0
      (heunPath n (N z0).post (fun _ => s) z0 n w j.castSucc) (j / n) := by
  have hsg : (N z0).sigma = fun _ => s := funext (hsigma z0)
  unfold pathKL
  rw [samplePath_heun _ _ n hn]
  refine Finset.sum_congr rfl fun j _ => ?_
  have hr := (C68_partial (N z0) fun z i => by rw [hsigma]; exact hs i).1
  simp only [hr, rateOf, hsg, hctx z0 0]

/-- With a diffusion that does not depend on the state, the KL terms are the Kullback-Leibler divergence of the laws of the paths:
the initial term, and the mean of the term of the path. Missing: diffusions that depend on the state (`C128_violated`) and
diffusions below `1e-8` (`C128_small_violated`). -/
theorem C128_partial {m : ℕ} (n : ℕ) (hn : 1 ≤ n) (N : (Fin m → ℝ) → Nets ℝ m) (s : Fin m → ℝ) (hs : ∀ i, 1 / 10 ^ 8 < s i)
    (hsigma : ∀ c z, (N c).sigma z = s) (hctx : ∀ c c', (N c).prior = (N c').prior)
    (hpost : ∀ t, Measurable fun p : (Fin m → ℝ) × (Fin m → ℝ) => (N p.1).post p.2 t)
    (hprior : ∀ t, Measurable fun z => (N 0).prior z t) (v : Fin m → ℝ) {scale : ℝ} (hscale : 0 < scale) :
    klDiv (posteriorLaw n N v scale) (priorLaw n N scale) = ENNReal.ofReal (klQ0 v scale) +
      ∫⁻ p, ENNReal.ofReal (pathKL N (startAt v scale p.1) (List.ofFn p.2)) ∂pathNoise n m := by
  rw [law_kl n hn N s (fun i => lt_trans (by positivity) (hs i)) hsigma hctx hpost hprior v hscale]
  simp only [pathKL_eq n hn N s hs hsigma hctx]

end Verif.SDE
