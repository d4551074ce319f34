import Verif.Props.C130

/-!
# C130: what a new latent SDE computes

The last kernels of the drifts and of the diffusion are zero (transformer.py 597, 603, 720), so that both drifts and the diffusion are
constant: `C130_initial` (the exact values), `C130_law` (the law of the samples), `C130_through` (the losses of the training are of the
kind of `C130_training`), `C130_kl` (what the KL is during the first updates).
-/

namespace Verif.Niles

open Finset Verif.SDE Verif.Comm MeasureTheory ProbabilityTheory InformationTheory
open scoped NNReal

/-- With a zero last kernel the transformer returns the last bias. -/
theorem transformer_zero (w : TransW) (hw : ∀ c o, w.patches.kernel c o = 0) (layers latent : ℕ) (x : Tensor) (hx : 2 ∣ x.shape.chan) :
    ∃ y, transformerBlockT gelu w layers latent x = .ok y ∧ ∀ b t o, y.val b t o = w.patches.bias o := by
  have hP : NetClass (fun _ : Unit → ℝ => True) := by
    constructor <;> intros <;> trivial
  have hR := resClass_self hP
  have h : RFam (fun v : Unit → ℕ → ℝ => ∀ c, (fun _ : Unit → ℝ => True) fun θ => v θ c) x.shape fun _ : Unit => x :=
    ⟨fun _ => rfl, fun _ _ _ => trivial⟩
  obtain ⟨y, ey, -⟩ := h.enc1DLayers hR hx (TransFam.const hP w).blocks (act := gelu) (fun _ => trivial) latent layers
  refine ⟨dense w.patches latent (layerNorm w.norm (y ())), by simp only [transformerBlockT, ey ()], fun b t o => ?_⟩
  simp only [dense, hw, mul_zero, sum_const_zero, zero_add]

/-- With a zero last kernel the diffusion is the exponential of the last bias. -/
theorem sigma_zero (w : ℕ → DenseW) (layers hidden : ℕ) (hw : ∀ c o, (w layers).kernel c o = 0) (x : ℝ) :
    sigmaFn w layers hidden x = Real.exp ((w layers).bias 0) := by
  have h : ∀ (k l : ℕ) (y : Tensor), l + k = layers →
      (mlpNet Real.tanh Real.exp w l (List.replicate k hidden ++ [1]) y).val 0 0 0 = Real.exp ((w layers).bias 0) := by
    intro k
    induction k with
    | zero =>
      intro l y hl
      have : l = layers := by omega
      subst this
      simp [mlpNet, dense, hw]
    | succ k ih =>
      intro l y hl
      have e : ∃ g gs, List.replicate k hidden ++ [1] = g :: gs := by
        cases k with
        | zero => exact ⟨_, _, rfl⟩
        | succ k => exact ⟨_, _, rfl⟩
      obtain ⟨g, gs, hg⟩ := e
      rw [List.replicate_succ, List.cons_append, hg, mlpNet]
      have := ih (l + 1)
      rw [hg] at this
      exact this _ (by omega)
  exact h layers 0 _ (by omega)

/-- The weights of a new `Dynamics`: the last kernels are zero; everything else is arbitrary. -/
structure NewDyn (w : DynW) (layers : ℕ) : Prop where
  post : ∀ c o, w.post.patches.kernel c o = 0
  prior : ∀ c o, w.prior.patches.kernel c o = 0
  diffusion : ∀ c o, (w.diffusion layers).kernel c o = 0

/-- The values of a new latent SDE, for all other weights, inputs and noises: the sampled start, plus the bias of the posterior drift,
plus the Brownian motion times the diffusion; the KL of the path does not depend on the input. -/
theorem C130_initial (w : DynW) (layers hidden seq : ℕ) {latent : ℕ} (hl : 2 ∣ latent) (hw : NewDyn w layers) (scale : ℝ)
    (v : Fin (seq * latent) → ℝ) (ν : SampleNoise (seq * latent)) (hν : ν.dw ≠ []) :
    sampleSDE gelu w layers hidden seq latent scale v ν = .ok
      (fun i => v i + scale * ν.start i + w.post.patches.bias (i % latent) +
        Real.exp ((w.diffusion layers).bias 0) * (ν.dw.map fun x => x i).sum,
      (1 / 2) * ∑ i : Fin (seq * latent), divideNoNan (w.post.patches.bias (i % latent) - w.prior.patches.bias (i % latent))
        (Real.exp ((w.diffusion layers).bias 0)) ^ 2) := by
  set N := dynNets gelu w layers hidden seq latent (fun i => v i + scale * 1 * ν.start i) with hN
  have hpost : ∀ z t i, N.post z t i = w.post.patches.bias (i % latent) := by
    intro z t i
    obtain ⟨y, ey, hy⟩ := transformer_zero w.post hw.post layers latent
      (withContext seq latent z (fun i => v i + scale * 1 * ν.start i) t) hl
    simp only [hN, dynNets, ey, driftOf, hy]
  have hprior : ∀ z t i, N.prior z t i = w.prior.patches.bias (i % latent) := by
    intro z t i
    obtain ⟨y, ey, hy⟩ := transformer_zero w.prior hw.prior layers latent (withTime seq latent z t) hl
    simp only [hN, dynNets, ey, driftOf, hy]
  have hsig : ∀ z i, N.sigma z i = Real.exp ((w.diffusion layers).bias 0) := by
    intro z i
    rw [hN, dynNets_sigma, sigma_zero w.diffusion layers hidden hw.diffusion]
  set n := ν.dw.length with hn
  have hn0 : 0 < n := List.length_pos_iff.2 hν
  have hn1 : (n : ℝ) ≠ 0 := by positivity
  obtain ⟨Z, hZ0, hZ, kl, hs, -, hkl⟩ := C68_path N (fun i => v i + scale * 1 * ν.start i) ν.dw hn0
  have hZk : ∀ k ≤ n, ∀ i, Z k i = v i + scale * ν.start i + (k : ℝ) / n * w.post.patches.bias (i % latent) +
      Real.exp ((w.diffusion layers).bias 0) * ((ν.dw.take k).map fun x => x i).sum := by
    intro k
    induction k with
    | zero =>
      intro _ i
      rw [hZ0]
      simp
    | succ k ih =>
      intro hk i
      have h1 := hZ k (by omega) i
      simp only [hpost, hsig, ← hn] at h1
      rw [h1, ih (by omega) i, List.take_add_one, List.getElem?_eq_getElem (by omega)]
      simp only [Option.toList_some, List.map_append, List.map_cons, List.map_nil, List.sum_append, List.sum_cons, List.sum_nil,
        Nat.cast_add, Nat.cast_one]
      field_simp
      ring
  have hq : ∀ z t, logqp N z t = (1 / 2) * ∑ i : Fin (seq * latent), divideNoNan
      (w.post.patches.bias (i % latent) - w.prior.patches.bias (i % latent)) (Real.exp ((w.diffusion layers).bias 0)) ^ 2 := by
    intro z t
    simp only [logqp, hpost, hprior, hsig]
  change samplePath (dynamics N) _ ν.dw = _
  rw [hs, hkl]
  congr 2
  · funext i
    rw [hZk n le_rfl i, div_self hn1, one_mul, hn, List.take_length]
  · simp only [hq, sum_const, card_range, nsmul_eq_mul]
    rw [← hn]
    field_simp

theorem trajectoryLaw_elim (n N : ℕ) : trajectoryLaw n N =
    Measure.pi fun i => gaussianReal 0 (Sum.elim (fun _ => 1) (fun _ => 1 / (n : ℝ≥0)) i) := by
  unfold trajectoryLaw
  congr 1
  funext i
  rcases i with i | i <;> rfl

/-- The law of a coordinate of a sample of a new latent SDE: normal, around the latent state plus a bias, with the variance of the start
plus the squared diffusion. -/
theorem C130_law (batch S n : ℕ) (hn : 1 ≤ n) (w : DynW) (layers hidden seq : ℕ) {latent : ℕ} (hl : 2 ∣ latent) (hw : NewDyn w layers)
    (scale : ℝ) (v : Fin (seq * latent) → ℝ) (b : Fin batch) (s : Fin S) (i : Fin (seq * latent)) :
    (normals batch S n (seq * latent)).map (fun ω => match sampleSDE gelu w layers hidden seq latent scale v (noiseAt ω b s) with
        | .ok (z1, _) => z1 i
        | .error _ => 0) =
      gaussianReal (v i + w.post.patches.bias (i % latent))
        (scale ^ 2 + Real.exp ((w.diffusion layers).bias 0) ^ 2).toNNReal := by
  set σ := Real.exp ((w.diffusion layers).bias 0) with hσ
  set m := v i + w.post.patches.bias (i % latent) with hm
  let X := fun x : (Fin (seq * latent) ⊕ (Fin n × Fin (seq * latent))) → ℝ => x (.inl i)
  let T : Finset (Fin (seq * latent) ⊕ (Fin n × Fin (seq * latent))) :=
    Finset.univ.map ⟨fun t => Sum.inr (t, i), fun a c hac => by simpa using hac⟩
  let Y := ∑ j ∈ T, fun x : (Fin (seq * latent) ⊕ (Fin n × Fin (seq * latent))) → ℝ => x j
  have hYe : ∀ x, Y x = ∑ t : Fin n, x (.inr (t, i)) := by
    intro x
    simp only [Y, T, Finset.sum_map, Finset.sum_apply]
    rfl
  have hf : (fun ω => match sampleSDE gelu w layers hidden seq latent scale v (noiseAt (batch := batch) (S := S) (n := n) ω b s) with
        | .ok (z1, _) => z1 i
        | .error _ => 0) = (fun x => m + ((σ * Y x) + (scale * X x))) ∘ fun ω => noiseVec (n := n) (noiseAt ω b s) := by
    funext ω
    have hne : (noiseAt ω b s).dw ≠ [] := by
      intro h
      have := congrArg List.length h
      simp [noiseAt, sampleNoise] at this
      omega
    rw [C130_initial w layers hidden seq hl hw scale v _ hne]
    simp only [Function.comp_apply, hYe, X]
    have h1 : ((noiseAt ω b s).dw.map fun x => x i).sum = ∑ t : Fin n, noiseVec (n := n) (noiseAt ω b s) (.inr (t, i)) := by
      conv_lhs => rw [← ofVec_noiseVec ω b s]
      simp only [ofVec, List.map_ofFn, List.sum_ofFn, Function.comp_apply]
    rw [h1]
    simp only [noiseVec]
    ring
  have hYm : Measurable Y := by fun_prop
  have hXm : Measurable X := by fun_prop
  rw [hf, ← Measure.map_map (by fun_prop) (noiseVec_measurable (b, s)), noiseVec_law (b, s)]
  set μ := trajectoryLaw n (seq * latent) with hμ
  have hind : iIndepFun (fun i (x : (Fin (seq * latent) ⊕ (Fin n × Fin (seq * latent))) → ℝ) => x i) μ :=
    iIndepFun_pi (X := fun _ x => x) fun i => aemeasurable_id
  have hXY : IndepFun Y X μ := hind.indepFun_finsetSum_of_notMem₀ (fun i => (measurable_pi_apply i).aemeasurable) (by simp [T])
  have hX : μ.map X = gaussianReal 0 1 := by
    rw [hμ, trajectoryLaw_elim]
    exact (measurePreserving_eval (fun i : Fin (seq * latent) ⊕ (Fin n × Fin (seq * latent)) =>
      gaussianReal 0 (Sum.elim (fun _ => 1) (fun _ => 1 / (n : ℝ≥0)) i)) (Sum.inl i)).map_eq
  have hY : μ.map Y = gaussianReal 0 1 := by
    have h2 := sum_gaussian (fun i : Fin (seq * latent) ⊕ (Fin n × Fin (seq * latent)) =>
      Sum.elim (fun _ => 1) (fun _ => 1 / (n : ℝ≥0)) i) T
    have h4 : ∀ f : Fin (seq * latent) ⊕ (Fin n × Fin (seq * latent)) → ℝ≥0, ∑ j ∈ T, f j = ∑ t : Fin n, f (.inr (t, i)) :=
      fun f => Finset.sum_map _ _ _
    rw [h4] at h2
    have h3 : (∑ _t : Fin n, (1 / n : ℝ≥0)) = 1 := by
      rw [Finset.sum_const, nsmul_eq_mul, card_univ, Fintype.card_fin, mul_one_div, div_self]
      have : 0 < n := hn
      positivity
    rw [hμ, trajectoryLaw_elim]
    exact h2.trans (congrArg (gaussianReal 0) h3)
  have hX' : μ.map (fun x => scale * X x) = gaussianReal 0 (scale ^ 2).toNNReal := by
    have e : (fun x => scale * X x) = (fun y => scale * y) ∘ X := rfl
    rw [e, ← Measure.map_map (by fun_prop) hXm, hX, gaussianReal_map_const_mul, mul_zero, mul_one]
    congr 1
    ext
    rw [Real.coe_toNNReal _ (sq_nonneg _)]
    rfl
  have hY' : μ.map (fun x => σ * Y x) = gaussianReal 0 (σ ^ 2).toNNReal := by
    have e : (fun x => σ * Y x) = (fun y => σ * y) ∘ Y := rfl
    rw [e, ← Measure.map_map (by fun_prop) hYm, hY, gaussianReal_map_const_mul, mul_zero, mul_one]
    congr 1
    ext
    rw [Real.coe_toNNReal _ (sq_nonneg _)]
    rfl
  have hXY' : IndepFun (fun x => σ * Y x) (fun x => scale * X x) μ :=
    hXY.comp (φ := fun y => σ * y) (ψ := fun y => scale * y) (by fun_prop) (by fun_prop)
  have hsum := gaussianReal_add_gaussianReal_of_indepFun hXY' hY' hX'
  have e : (fun x => m + (σ * Y x + scale * X x)) = (fun y => m + y) ∘ ((fun x => σ * Y x) + fun x => scale * X x) := rfl
  rw [e, ← Measure.map_map (by fun_prop) (by fun_prop), hsum, gaussianReal_map_const_add, add_zero, zero_add, add_comm (scale ^ 2),
    Real.toNNReal_add (sq_nonneg _) (sq_nonneg _)]

/-- The parameters that are not those of the `MLP`. -/
def MlpPlaces.rest {ι : Type*} (p : MlpPlaces ι) (θ : ι → ℝ) : {i // p.layer i = none} → ℝ := fun i => θ i

/-- Every loss that is computed from the networks of `Dynamics` and the other parameters uses the weights of the diffusion only through
the values of its network. -/
theorem C130_through {ι : Type*} (p : MlpPlaces ι) (layers hidden seq latent : ℕ) (post prior : ({i // p.layer i = none} → ℝ) → TransW)
    (G : ({i // p.layer i = none} → ℝ) → ((Fin (seq * latent) → ℝ) → Nets ℝ (seq * latent)) → ℝ) :
    ThroughMlp p Real.tanh Real.exp (List.replicate layers hidden ++ [1]) fun θ =>
      G (p.rest θ) (dynNets gelu ⟨post (p.rest θ), prior (p.rest θ), p.read θ⟩ layers hidden seq latent) := by
  intro θ θ' h1 h2
  have e1 : p.rest θ = p.rest θ' := funext fun i => h1 i i.2
  have e2 : dynNets gelu ⟨post (p.rest θ), prior (p.rest θ), p.read θ⟩ layers hidden seq latent =
      dynNets gelu ⟨post (p.rest θ'), prior (p.rest θ'), p.read θ'⟩ layers hidden seq latent := by
    funext ctx
    rw [← e1]
    simp only [dynNets, h2]
  exact congrArg₂ G e1 e2

/-- During the first `layers + 1` updates of the training of a new latent SDE, whatever the losses: the diffusion is constant, and as long
as it is above `1e-8` the expectation of the reported KL is the divergence of the laws of the paths. -/
theorem C130_kl {ι : Type*} [Fintype ι] [DecidableEq ι] {P : ℕ} {B : Type*} (p : MlpPlaces ι) {layers : ℕ} (h0 : 0 < layers)
    (hidden seq : ℕ) {latent : ℕ} (hl : 2 ∣ latent) (c : OptConfig) (hlr : c.lr 0 = 0) (loss : Fin P → ℕ → B → (ι → ℝ) → ℝ)
    (hL : ∀ d k b, ThroughMlp p Real.tanh Real.exp (List.replicate layers hidden ++ [1]) (loss d k b)) (θ : ι → ℝ)
    (hzero : ∀ l, l ≤ layers → ∀ a o i, p.kernel l a o = some i → θ i = 0) (batches : List (Fin P → B))
    (hlen : batches.length ≤ layers + 1) (d : Fin P) (post prior : TransW) :
    let s := pTrain ℝ (fun d (s : OptState ι) b => gradOf (loss d s.step b) s.params) (applyGradients c) batches
      (fun _ => createTrainState θ) d
    ∃ σ > 0, (∀ x, sigmaFn (p.read s.params) layers hidden x = σ) ∧ (1 / 10 ^ 8 < σ →
      ∀ (batch S n : ℕ), 1 ≤ S → 1 ≤ n → ∀ (v : Fin (seq * latent) → ℝ) (scale : ℝ), 0 < scale → ∀ b : Fin batch,
        klDiv (posteriorLaw n (dynNets gelu ⟨post, prior, p.read s.params⟩ layers hidden seq latent) v scale)
            (priorLaw n (dynNets gelu ⟨post, prior, p.read s.params⟩ layers hidden seq latent) scale) =
          ENNReal.ofReal (∫ ω, reportedKL (S := S) (n := n) ⟨post, prior, p.read s.params⟩ layers hidden scale v ω b
            ∂normals batch S n (seq * latent))) := by
  intro s
  obtain ⟨-, -, h3⟩ := C130_training p Real.tanh Real.exp (List.replicate layers hidden ++ [1]) layers (by simp) c hlr loss hL θ hzero
    batches hlen d
  have hconst : ∀ x, sigmaFn (p.read s.params) layers hidden x = sigmaFn (p.read s.params) layers hidden 0 := fun x => h3 _ _ 0 0 0 0 0
  have hpos : 0 < sigmaFn (p.read s.params) layers hidden 0 := by
    obtain ⟨k, hk⟩ : ∃ k, layers = k + 1 := ⟨layers - 1, by omega⟩
    have : ∀ (fs : List ℕ) (l : ℕ) (x : Tensor), fs ≠ [] → ∀ b t c, 0 < (mlpNet Real.tanh Real.exp (p.read s.params) l fs x).val b t c := by
      intro fs
      induction fs with
      | nil => exact fun l x h => absurd rfl h
      | cons f fs ih =>
        intro l x _ b t c
        cases fs with
        | nil => exact Real.exp_pos _
        | cons g gs => exact ih (l + 1) _ (by simp) b t c
    exact this _ 0 _ (by simp) 0 0 0
  refine ⟨_, hpos, hconst, fun hs batch S n hS hn v scale hscale b => ?_⟩
  exact C128_reported batch S n hS hn ⟨post, prior, p.read s.params⟩ h0 hidden seq hl _ hs hconst v hscale b

/-- The places of the weights of a network with `L` hidden layers of width at most `m`, besides `κ` other parameters. -/
def gridPlaces (L m : ℕ) (κ : Type*) : MlpPlaces (Fin (L + 1) × (Fin m × Fin m ⊕ Fin m) ⊕ κ) where
  kernel l a o := if h : l < L + 1 ∧ a < m ∧ o < m then some (.inl (⟨l, h.1⟩, .inl (⟨a, h.2.1⟩, ⟨o, h.2.2⟩))) else none
  bias l o := if h : l < L + 1 ∧ o < m then some (.inl (⟨l, h.1⟩, .inr ⟨o, h.2⟩)) else none
  layer i := match i with
    | .inl (l, _) => some l
    | .inr _ => none
  kernel_layer l a o i h := by
    split_ifs at h with hc
    · rw [← Option.some.inj h]
  bias_layer l o i h := by
    split_ifs at h with hc
    · rw [← Option.some.inj h]

/-- The hypotheses are met: 4 hidden layers of width 32, 100 other parameters, a loss that uses the diffusion, and the optimizer of the
configuration with a rate that starts at zero; five updates. -/
example (b : List (Fin 2 → ℝ)) (hb : b.length ≤ 5) :=
  C130_kl (P := 2) (B := ℝ) (gridPlaces 4 32 (Fin 100)) (layers := 4) (by norm_num) 32 16 (latent := 64) (by norm_num)
    (createTx (fun x => 0.0075 * (x / 1000)) 0.05 (some 0.01)) (by simp [createTx])
    (fun _ _ b θ => (fun (r : {i // (gridPlaces 4 32 (Fin 100)).layer i = none} → ℝ) (N : (Fin (16 * 64) → ℝ) → Nets ℝ (16 * 64)) =>
      (N 0).sigma (fun _ => b) 0 + ∑ j, r ⟨.inr j, rfl⟩) ((gridPlaces 4 32 (Fin 100)).rest θ) (dynNets gelu
        ⟨zeroTrans, zeroTrans, (gridPlaces 4 32 (Fin 100)).read θ⟩ 4 32 16 64))
    (fun _ _ b => C130_through (gridPlaces 4 32 (Fin 100)) 4 32 16 64 (fun _ => _) (fun _ => _) fun r N =>
      (N 0).sigma (fun _ => b) 0 + ∑ j, r ⟨.inr j, rfl⟩)
    (fun i => match i with
      | .inl (_, .inl _) => 0
      | .inl (_, .inr _) => 1 / 10 ^ 6
      | .inr _ => 1)
    (fun l _ a o i h => by
      simp only [gridPlaces] at h
      split_ifs at h
      rw [← Option.some.inj h])
    b hb 0

/-- A new latent SDE with hidden layers that are not zero. -/
example : NewDyn ⟨{ zeroTrans with norm := ⟨fun _ => 1, fun _ => 0⟩ }, zeroTrans,
    fun l => ⟨fun _ _ => if l = 4 then 0 else 1, fun o => o / 10 ^ 6⟩⟩ 4 :=
  ⟨fun _ _ => rfl, fun _ _ => rfl, fun _ _ => by simp⟩

end Verif.Niles
