import Verif.Props.C128Violated
import Verif.Props.C107Processor

/-!
# C128: the reported KL of the networks

The mean over the random numbers of the KL that `LatentSDE.__call__` returns, with the networks of `Dynamics` and a diffusion
network that is constant.
-/

namespace Verif.SDE

open MeasureTheory ProbabilityTheory InformationTheory Verif.Niles
open scoped NNReal ENNReal

/-- The numbers of a trajectory as one vector. -/
def joinNoise {n N : ℕ} (p : (Fin N → ℝ) × (Fin n → Fin N → ℝ)) : Fin N ⊕ (Fin n × Fin N) → ℝ
  | .inl l => p.1 l
  | .inr (t, l) => p.2 t l

theorem joinNoise_measurable {n N : ℕ} : Measurable (joinNoise (n := n) (N := N)) := by
  refine measurable_pi_lambda _ fun i => ?_
  rcases i with l | ⟨t, l⟩
  · change Measurable fun p : (Fin N → ℝ) × (Fin n → Fin N → ℝ) => p.1 l
    fun_prop
  · change Measurable fun p : (Fin N → ℝ) × (Fin n → Fin N → ℝ) => p.2 t l
    fun_prop

theorem joinNoise_law (n N : ℕ) : (pathNoise n N).map joinNoise = trajectoryLaw n N := by
  unfold trajectoryLaw
  refine (Measure.pi_eq fun s hs => ?_).symm
  rw [Measure.map_apply joinNoise_measurable (MeasurableSet.univ_pi hs)]
  have e : joinNoise (n := n) (N := N) ⁻¹' Set.univ.pi s =
      (Set.univ.pi fun l => s (.inl l)) ×ˢ (Set.univ.pi fun t => Set.univ.pi fun l => s (.inr (t, l))) := by
    ext p
    simp only [Set.mem_preimage, Set.mem_univ_pi, Set.mem_prod, Sum.forall, Prod.forall, joinNoise]
  rw [e, pathNoise, Measure.prod_prod, Measure.pi_pi, Measure.pi_pi, Fintype.prod_sum_type, Fintype.prod_prod_type]
  simp only [Measure.pi_pi]

/-- The end of a sampled path. -/
noncomputable def endState {m : ℕ} (N : Nets ℝ m) (z0 : Fin m → ℝ) (dw : List (Fin m → ℝ)) : Fin m → ℝ :=
  match samplePath (dynamics N) z0 dw with
  | .ok (z1, _) => z1
  | .error _ => 0

/-- The networks with the prior drift in place of the posterior drift. -/
def priorNets {m : ℕ} (N : Nets ℝ m) : Nets ℝ m := { N with post := N.prior }

/-- The KL terms bound the divergence of the law of the sampled end state from the law of the end state of the prior. -/
theorem C128_end {m : ℕ} (n : ℕ) (hn : 1 ≤ n) (N : (Fin m → ℝ) → Nets ℝ m) (s : Fin m → ℝ) (hs : ∀ i, 1 / 10 ^ 8 < s i)
    (hsigma : ∀ c z, (N c).sigma z = s) (hctx : ∀ c c', (N c).prior = (N c').prior)
    (hpost : ∀ t, Measurable fun p : (Fin m → ℝ) × (Fin m → ℝ) => (N p.1).post p.2 t)
    (hprior : ∀ t, Measurable fun z => (N 0).prior z t) (v : Fin m → ℝ) {scale : ℝ} (hscale : 0 < scale) :
    klDiv ((pathNoise n m).map fun p => endState (N (startAt v scale p.1)) (startAt v scale p.1) (List.ofFn p.2))
        ((pathNoise n m).map fun p => endState (priorNets (N (startAt 0 scale p.1))) (startAt 0 scale p.1) (List.ofFn p.2)) ≤
      ENNReal.ofReal (klQ0 v scale) +
        ∫⁻ p, ENNReal.ofReal (pathKL N (startAt v scale p.1) (List.ofFn p.2)) ∂pathNoise n m := by
  rw [← C128_partial n hn N s hs hsigma hctx hpost hprior v hscale]
  have hsg : ∀ c, (N c).sigma = fun _ => s := fun c => funext (hsigma c)
  have hd1 : MeasurableDrift fun c => (N c).post := hpost
  have hd2 : MeasurableDrift fun c => (N c).prior := fun t => by
    simp only [hctx _ 0]
    exact (hprior t).comp measurable_snd
  have hf1 : Measurable fun p : (Fin m → ℝ) × (Fin n → Fin m → ℝ) =>
      heunPath n (N (startAt v scale p.1)).post (N (startAt v scale p.1)).sigma (startAt v scale p.1) n p.2 := by
    simp only [hsg]
    exact (pathFn_measurable n (fun c => (N c).post) (fun _ => s) hd1 measurable_const n).comp
      ((startAt_measurable v scale).prodMap measurable_id)
  have hf2 : Measurable fun p : (Fin m → ℝ) × (Fin n → Fin m → ℝ) =>
      heunPath n (N (startAt 0 scale p.1)).prior (N (startAt 0 scale p.1)).sigma (startAt 0 scale p.1) n p.2 := by
    simp only [hsg]
    exact (pathFn_measurable n (fun c => (N c).prior) (fun _ => s) hd2 measurable_const n).comp
      ((startAt_measurable 0 scale).prodMap measurable_id)
  have i1 : IsProbabilityMeasure (posteriorLaw n N v scale) := Measure.isProbabilityMeasure_map (μ := pathNoise n m) hf1.aemeasurable
  have i2 : IsProbabilityMeasure (priorLaw n N scale) := Measure.isProbabilityMeasure_map (μ := pathNoise n m) hf2.aemeasurable
  have hlast : Measurable fun h : Fin (n + 1) → Fin m → ℝ => h (Fin.last n) := measurable_pi_apply _
  refine le_trans (le_of_eq ?_) (klDiv_map_le _ _ hlast)
  rw [posteriorLaw, priorLaw, Measure.map_map hlast hf1, Measure.map_map hlast hf2]
  congr 2
  · funext p
    rw [endState, samplePath_heun _ _ n hn]
    rfl
  · funext p
    rw [endState, samplePath_heun _ _ n hn]
    rfl

theorem pathKL_measurable {m : ℕ} (n : ℕ) (hn : 1 ≤ n) (N : (Fin m → ℝ) → Nets ℝ m) (s : Fin m → ℝ) (hs : ∀ i, 1 / 10 ^ 8 < s i)
    (hsigma : ∀ c z, (N c).sigma z = s) (hctx : ∀ c c', (N c).prior = (N c').prior)
    (hpost : ∀ t, Measurable fun p : (Fin m → ℝ) × (Fin m → ℝ) => (N p.1).post p.2 t)
    (hprior : ∀ t, Measurable fun z => (N 0).prior z t) :
    Measurable fun p : (Fin m → ℝ) × (Fin n → Fin m → ℝ) => pathKL N p.1 (List.ofFn p.2) := by
  simp only [pathKL_eq n hn N s hs hsigma hctx]
  refine Finset.measurable_fun_sum _ fun j _ => Measurable.const_mul ?_ _
  unfold rateOf
  refine Measurable.const_mul (Finset.measurable_fun_sum _ fun i _ => ?_) _
  have hp := pathFn_measurable n (fun c => (N c).post) (fun _ => s) hpost measurable_const n
  have hj : Measurable fun p : (Fin m → ℝ) × (Fin n → Fin m → ℝ) => heunPath n (N p.1).post (fun _ => s) p.1 n p.2 j.castSucc :=
    (measurable_pi_apply j.castSucc).comp hp
  exact ((((measurable_pi_apply i).comp ((hpost (j / n)).comp (measurable_fst.prodMk hj))).sub
    ((measurable_pi_apply i).comp ((hprior (j / n)).comp hj))).div_const _).pow_const 2

/-- The KL of one trajectory. -/
noncomputable def klOf {m : ℕ} (r : Except SDEError ((Fin m → ℝ) × ℝ)) : ℝ :=
  match r with
  | .ok (_, kl) => kl
  | .error _ => 0

/-- The KL that `LatentSDE.__call__` returns for one example: the mean over the samples of the terms of the paths, and the initial term
(transformer.py 919-937, 955). -/
noncomputable def reportedKL {batch S n seq latent : ℕ} (w : DynW) (layers hidden : ℕ) (scale : ℝ) (v : Fin (seq * latent) → ℝ)
    (ω : Places batch S n (seq * latent) → ℝ) (b : Fin batch) : ℝ :=
  (∑ s : Fin S, klOf (sampleSDE gelu w layers hidden seq latent scale v (noiseAt ω b s))) / S + klQ0 v scale

/-- The networks are measurable in context and state. -/
theorem dynNets_measurable (w : DynW) (layers hidden seq : ℕ) {latent : ℕ} (hl : 2 ∣ latent) :
    (∀ t, Measurable fun p : (Fin (seq * latent) → ℝ) × (Fin (seq * latent) → ℝ) =>
      (dynNets gelu w layers hidden seq latent p.1).post p.2 t) ∧
    ∀ t, Measurable fun z => (dynNets gelu w layers hidden seq latent 0).prior z t := by
  have hc : NetClass (fun f : (Fin (seq * latent) → ℝ) × (Fin (seq * latent) → ℝ) → ℝ => Continuous f) := netClass_continuous
  have hw : DynFam (fun f : (Fin (seq * latent) → ℝ) × (Fin (seq * latent) → ℝ) → ℝ => Continuous f) fun _ => w :=
    ⟨TransFam.const hc _, TransFam.const hc _, fun _ => DenseFam.const hc _⟩
  have h1 : ∀ i, Continuous fun p : (Fin (seq * latent) → ℝ) × (Fin (seq * latent) → ℝ) => p.1 i := fun i => by fun_prop
  have h2 : ∀ i, Continuous fun p : (Fin (seq * latent) → ℝ) × (Fin (seq * latent) → ℝ) => p.2 i := fun i => by fun_prop
  have h := fun t i => dynNets_fam hc hw layers hidden seq hl h1 h2 t i
  refine ⟨fun t => measurable_pi_lambda _ fun i => (h t i).1.measurable, fun t => measurable_pi_lambda _ fun i => ?_⟩
  have h3 := (h t i).2.1.comp (Continuous.prodMk_right (0 : Fin (seq * latent) → ℝ))
  exact h3.measurable

/-- For all weights with a constant diffusion above `1e-8`, all latent states, numbers of steps and samples: the expectation of the
reported KL is the divergence of the law of the sampled path from the law of the path of the prior. -/
theorem C128_reported (batch S n : ℕ) (hS : 1 ≤ S) (hn : 1 ≤ n) (w : DynW) {layers : ℕ} (h0 : 0 < layers) (hidden seq : ℕ)
    {latent : ℕ} (hl : 2 ∣ latent) (s : ℝ) (hs : 1 / 10 ^ 8 < s) (hsigma : ∀ x, sigmaFn w.diffusion layers hidden x = s)
    (v : Fin (seq * latent) → ℝ) {scale : ℝ} (hscale : 0 < scale) (b : Fin batch) :
    klDiv (posteriorLaw n (dynNets gelu w layers hidden seq latent) v scale)
        (priorLaw n (dynNets gelu w layers hidden seq latent) scale) =
      ENNReal.ofReal (∫ ω, reportedKL (S := S) (n := n) w layers hidden scale v ω b ∂normals batch S n (seq * latent)) := by
  set N := dynNets gelu w layers hidden seq latent with hN
  have hsig : ∀ c z, (N c).sigma z = fun _ => s := fun c z => funext fun i => by rw [hN, dynNets_sigma, hsigma]
  have hctx : ∀ c c', (N c).prior = (N c').prior := fun _ _ => rfl
  obtain ⟨hpost, hprior⟩ := dynNets_measurable w layers hidden seq hl
  rw [← hN] at hpost hprior
  have hmeas := pathKL_measurable n hn N (fun _ => s) (fun _ => hs) hsig hctx hpost hprior
  rw [C128_partial n hn N (fun _ => s) (fun _ => hs) hsig hctx hpost hprior v hscale]
  obtain ⟨K, hK⟩ := C108_bounded w h0 hidden seq hl
  obtain ⟨F, hF⟩ : ∃ F : SampleNoise (seq * latent) → ℝ,
      F = fun ν => klOf (sampleSDE gelu w layers hidden seq latent scale v ν) := ⟨_, rfl⟩
  have hFe : ∀ ν, F ν = pathKL N (startAt v scale ν.start) ν.dw := fun ν => by rw [hF]; rfl
  have hb : ∀ ν : SampleNoise (seq * latent), ν.dw ≠ [] →
      0 ≤ F ν ∧ F ν ≤ K := by
    intro ν hν
    obtain ⟨z, kl, h1, -, h2, h3⟩ := hK scale v ν hν
    rw [hF]
    dsimp only
    rw [h1]
    exact ⟨h2, h3⟩
  have hof : ∀ p : (Fin (seq * latent) → ℝ) × (Fin n → Fin (seq * latent) → ℝ),
      F (ofVec (n := n) (joinNoise p)) =
        pathKL N (startAt v scale p.1) (List.ofFn p.2) := fun p => by
    rw [hFe]
    rfl
  have hne : ∀ x : Fin (seq * latent) ⊕ (Fin n × Fin (seq * latent)) → ℝ, (ofVec (n := n) x).dw ≠ [] := by
    intro x h
    have := congrArg List.length h
    simp only [ofVec, List.length_ofFn, List.length_nil] at this
    omega
  have hFm : Measurable fun x : Fin (seq * latent) ⊕ (Fin n × Fin (seq * latent)) → ℝ =>
      F (ofVec (n := n) x) := by
    have h1 : Measurable fun x : Fin (seq * latent) ⊕ (Fin n × Fin (seq * latent)) → ℝ =>
        (startAt v scale fun l => x (.inl l), fun (t : Fin n) (l : Fin (seq * latent)) => x (.inr (t, l))) :=
      ((startAt_measurable v scale).comp (by fun_prop)).prodMk (by fun_prop)
    have e : (fun x : Fin (seq * latent) ⊕ (Fin n × Fin (seq * latent)) → ℝ => F (ofVec (n := n) x)) =
        (fun p : (Fin (seq * latent) → ℝ) × (Fin n → Fin (seq * latent) → ℝ) => pathKL N p.1 (List.ofFn p.2)) ∘ fun x =>
          (startAt v scale fun l => x (.inl l), fun (t : Fin n) (l : Fin (seq * latent)) => x (.inr (t, l))) := by
      funext x
      rw [hFe]
      rfl
    rw [e]
    exact Measurable.comp hmeas h1
  have hL : MemLp (fun x => F (ofVec (n := n) x)) 2
      (trajectoryLaw n (seq * latent)) := by
    rw [← joinNoise_law]
    have := Measure.isProbabilityMeasure_map (μ := pathNoise n (seq * latent)) (joinNoise_measurable (n := n)).aemeasurable
    refine MemLp.of_bound hFm.aestronglyMeasurable K (Filter.Eventually.of_forall fun x => ?_)
    rw [Real.norm_eq_abs, abs_of_nonneg (hb _ (hne x)).1]
    exact (hb _ (hne x)).2
  have hmean := (C126_mean batch S n (seq * latent) hS b F hL).1
  rw [← joinNoise_law, integral_map joinNoise_measurable.aemeasurable hFm.aestronglyMeasurable] at hmean
  simp only [hof] at hmean
  have hkl : ∀ p : (Fin (seq * latent) → ℝ) × (Fin n → Fin (seq * latent) → ℝ),
      0 ≤ pathKL N (startAt v scale p.1) (List.ofFn p.2) ∧ pathKL N (startAt v scale p.1) (List.ofFn p.2) ≤ K := by
    intro p
    rw [← hof p]
    exact hb _ (hne _)
  have hmv : Measurable fun p : (Fin (seq * latent) → ℝ) × (Fin n → Fin (seq * latent) → ℝ) =>
      pathKL N (startAt v scale p.1) (List.ofFn p.2) := by
    have e : (fun p : (Fin (seq * latent) → ℝ) × (Fin n → Fin (seq * latent) → ℝ) =>
        pathKL N (startAt v scale p.1) (List.ofFn p.2)) =
          (fun p : (Fin (seq * latent) → ℝ) × (Fin n → Fin (seq * latent) → ℝ) => pathKL N p.1 (List.ofFn p.2)) ∘
            Prod.map (startAt v scale) id := rfl
    rw [e]
    exact Measurable.comp hmeas ((startAt_measurable v scale).prodMap measurable_id)
  have hint : Integrable (fun p : (Fin (seq * latent) → ℝ) × (Fin n → Fin (seq * latent) → ℝ) =>
      pathKL N (startAt v scale p.1) (List.ofFn p.2)) (pathNoise n (seq * latent)) := by
    refine Integrable.of_bound hmv.aestronglyMeasurable K (Filter.Eventually.of_forall fun p => ?_)
    rw [Real.norm_eq_abs, abs_of_nonneg (hkl p).1]
    exact (hkl p).2
  have hq : 0 ≤ klQ0 v scale := by
    rw [C68_initial.2 v scale hscale]
    exact mul_nonneg (by norm_num) (Finset.sum_nonneg fun _ _ => sq_nonneg _)
  rw [← ofReal_integral_eq_lintegral_ofReal hint (Filter.Eventually.of_forall fun p => (hkl p).1),
    ← ENNReal.ofReal_add hq (integral_nonneg fun p => (hkl p).1)]
  congr 1
  have hsumInt : Integrable (fun ω : Places batch S n (seq * latent) → ℝ =>
      (∑ s : Fin S, F (noiseAt ω b s)) / S)
      (normals batch S n (seq * latent)) := by
    refine Integrable.div_const (integrable_finsetSum _ fun i _ => ?_) _
    have he : (fun ω : Places batch S n (seq * latent) → ℝ => F (noiseAt ω b i)) =
        (fun x => F (ofVec (n := n) x)) ∘
          fun ω => noiseVec (n := n) (noiseAt ω b i) := by
      funext ω
      simp only [Function.comp_apply, ofVec_noiseVec]
    have hprob : IsProbabilityMeasure (normals batch S n (seq * latent)) := by
      unfold normals
      infer_instance
    refine Integrable.of_bound ?_ K (Filter.Eventually.of_forall fun ω => ?_)
    · rw [he]
      exact (hFm.comp (noiseVec_measurable (b, i))).aestronglyMeasurable
    · have h1 := hb (noiseAt ω b i) (by rw [← ofVec_noiseVec (n := n)]; exact hne _)
      rw [Real.norm_eq_abs, abs_of_nonneg h1.1]
      exact h1.2
  have hprob : IsProbabilityMeasure (normals batch S n (seq * latent)) := by
    unfold normals
    infer_instance
  have hrep : ∀ ω : Places batch S n (seq * latent) → ℝ, reportedKL (S := S) (n := n) w layers hidden scale v ω b =
      (∑ s : Fin S, F (noiseAt ω b s)) / S + klQ0 v scale := fun ω => by
    rw [reportedKL, hF]
  simp only [hrep]
  rw [integral_add hsumInt (integrable_const _), integral_const, probReal_univ, one_smul, hmean, add_comm]

/-- A diffusion network with zero kernels is constant. -/
theorem sigmaFn_bias (a : ℝ) (layers hidden : ℕ) (x : ℝ) : sigmaFn (fun _ => ⟨fun _ _ => 0, fun _ => a⟩) layers hidden x = Real.exp a := by
  have h : ∀ (layers l : ℕ) (y : Tensor), (mlpNet Real.tanh Real.exp (fun _ => ⟨fun _ _ => 0, fun _ => a⟩) l
      (List.replicate layers hidden ++ [1]) y).val 0 0 0 = Real.exp a := by
    intro layers
    induction layers with
    | zero =>
      intro l y
      simp [mlpNet, dense]
    | succ k ih =>
      intro l y
      have e : ∃ g gs, List.replicate k hidden ++ [1] = g :: gs := by
        cases k with
        | zero => exact ⟨_, _, rfl⟩
        | succ k => exact ⟨_, _, rfl⟩
      obtain ⟨g, gs, hg⟩ := e
      rw [List.replicate_succ, List.cons_append, hg, mlpNet]
      have := ih (l + 1)
      rw [hg] at this
      exact this _
  exact h layers 0 _

/-- The hypotheses are met by arbitrary transformer weights with a diffusion network with zero kernels; 16 tokens of 64 numbers, 20
steps, 4 samples. -/
example (post prior : TransW) (v : Fin (16 * 64) → ℝ) (b : Fin 8) :
    klDiv (posteriorLaw 20 (dynNets gelu ⟨post, prior, fun _ => ⟨fun _ _ => 0, fun _ => 0⟩⟩ 2 32 16 64) v (1 / 10))
        (priorLaw 20 (dynNets gelu ⟨post, prior, fun _ => ⟨fun _ _ => 0, fun _ => 0⟩⟩ 2 32 16 64) (1 / 10)) =
      ENNReal.ofReal (∫ ω, reportedKL (batch := 8) (S := 4) (n := 20) (seq := 16) (latent := 64)
        ⟨post, prior, fun _ => ⟨fun _ _ => 0, fun _ => 0⟩⟩ 2 32 (1 / 10) v ω b ∂normals 8 4 20 (16 * 64)) :=
  C128_reported 8 4 20 (by norm_num) (by norm_num) _ (by norm_num) 32 16 (by norm_num) 1 (by norm_num)
    (fun x => by rw [sigmaFn_bias, Real.exp_zero]) v (by norm_num) b

/-- The hypotheses of the general theorem are met by a posterior drift towards the context. -/
example (v : Fin 3 → ℝ) := C128_partial 20 (by norm_num)
  (fun c : Fin 3 → ℝ => (⟨fun z _ i => c i - z i, fun z t i => -z i + t, fun _ _ => 1 / 2⟩ : Nets ℝ 3)) (fun _ => 1 / 2)
  (fun _ => by norm_num) (fun _ _ => rfl) (fun _ _ => rfl) (fun t => by fun_prop) (fun t => by fun_prop) v (scale := 1) one_pos

end Verif.SDE
