import Verif.Model.MlpProcessor
import Verif.Props.C68
import Verif.Props.C130
import Verif.Lemmas.Processor
import Mathlib.Analysis.Real.Pi.Bounds

/-!
# C135: what the second version of the latent SDE can represent

`LatentSDE` with `use_transformer=False`.
-/

namespace Verif.Niles

open Finset Verif.SDE

/-! ### The activation -/

theorem gelu_nonneg {x : ℝ} (hx : 0 ≤ x) : x / 2 ≤ gelu x := by
  unfold gelu
  have h : 0 ≤ Real.tanh (Real.sqrt (2 / Real.pi) * (x + 44715 / 10 ^ 6 * x ^ 3)) := by
    rw [Real.tanh_eq_sinh_div_cosh]
    exact div_nonneg (Real.sinh_nonneg_iff.2 (by positivity)) (Real.cosh_pos _).le
  nlinarith

/-- `gelu` is nowhere below `-1/4`. -/
theorem gelu_ge (x : ℝ) : -(1 / 4) ≤ gelu x := by
  rcases le_or_gt 0 x with hx | hx
  · have := gelu_nonneg hx; linarith
  · obtain ⟨a, ha, rfl⟩ : ∃ a, 0 < a ∧ x = -a := ⟨-x, by linarith, by ring⟩
    unfold gelu
    set c := Real.sqrt (2 / Real.pi) with hc
    have hc1 : 2 / 3 ≤ c := by
      rw [hc]
      apply Real.le_sqrt_of_sq_le
      rw [le_div_iff₀ Real.pi_pos]
      have := Real.pi_lt_d2
      nlinarith
    set s := c * (a + 44715 / 10 ^ 6 * a ^ 3) with hs
    have hs1 : 2 / 3 * a ≤ s := by
      have : 0 ≤ 44715 / 10 ^ 6 * a ^ 3 := by positivity
      rw [hs]
      nlinarith
    have harg : c * (-a + 44715 / 10 ^ 6 * (-a) ^ 3) = -s := by rw [hs]; ring
    rw [harg, Real.tanh_neg]
    -- `1 - tanh s = 2 / (1 + exp (2 s)) ≤ 1 / (1 + s + s ^ 2)`
    have hexp : 1 + 2 * s + 2 * s ^ 2 ≤ Real.exp (2 * s) := by
      have := Real.quadratic_le_exp_of_nonneg (show (0 : ℝ) ≤ 2 * s by nlinarith)
      nlinarith
    have htanh : (1 - Real.tanh s) * (1 + Real.exp (2 * s)) = 2 := by
      rw [Real.tanh_eq_sinh_div_cosh, Real.sinh_eq, Real.cosh_eq]
      have h1 : Real.exp (2 * s) = Real.exp s * Real.exp s := by rw [← Real.exp_add]; ring_nf
      have h2 : Real.exp s * Real.exp (-s) = 1 := by rw [← Real.exp_add]; simp
      have h3 : 0 < Real.exp s := Real.exp_pos s
      have h4 : 0 < Real.exp (-s) := Real.exp_pos (-s)
      rw [h1]
      field_simp
      ring_nf
      nlinarith
    have hpos : 0 < 1 - Real.tanh s := by
      have := Real.tanh_lt_one s
      linarith
    have h5 : (1 - Real.tanh s) * (1 + s + s ^ 2) ≤ 1 := by nlinarith
    have h6 : 2 * a ≤ 1 + s + s ^ 2 := by nlinarith [sq_nonneg (s - 1)]
    nlinarith

theorem gelu_onto {y : ℝ} (hy : 0 ≤ y) : ∃ x, gelu x = y := by
  have hcont : Continuous gelu := by
    unfold gelu
    have ht : Continuous Real.tanh := by
      have : Real.tanh = fun x => Real.sinh x / Real.cosh x := funext Real.tanh_eq_sinh_div_cosh
      rw [this]
      exact Real.continuous_sinh.div Real.continuous_cosh (fun x => (Real.cosh_pos x).ne')
    exact (continuous_id.div_const 2).mul (continuous_const.add (ht.comp (by fun_prop)))
  have h0 : gelu 0 = 0 := by simp [gelu]
  have h1 : y ≤ gelu (2 * y) := by
    have := gelu_nonneg (show 0 ≤ 2 * y by linarith)
    linarith
  obtain ⟨x, -, hx⟩ := intermediate_value_Icc (show (0 : ℝ) ≤ 2 * y by linarith) hcont.continuousOn
    (show y ∈ Set.Icc (gelu 0) (gelu (2 * y)) from ⟨by rw [h0]; exact hy, h1⟩)
  exact ⟨x, hx⟩

/-! ### The networks -/

/-- The last thing a network does is its final activation. -/
theorem mlpNet_final (act final : ℝ → ℝ) (w : ℕ → DenseW) (fs : List ℕ) (hfs : fs ≠ []) :
    ∀ (l : ℕ) (x : Tensor) (b t c : ℕ), ∃ v, (mlpNet act final w l fs x).val b t c = final v := by
  induction fs with
  | nil => exact absurd rfl hfs
  | cons f fs ih =>
    intro l x b t c
    cases fs with
    | nil => exact ⟨_, rfl⟩
    | cons g gs => simp only [mlpNet]; exact ih (by simp) (l + 1) _ b t c

theorem mlpVec_final (act final : ℝ → ℝ) (w : ℕ → DenseW) (fs : List ℕ) (hfs : fs ≠ []) {n : ℕ} (v : Fin n → ℝ) (c : ℕ) :
    ∃ r, mlpVec act final w fs v c = final r := mlpNet_final act final w fs hfs 0 _ 0 0 c

/-- All layers without kernel: the network returns the activated bias of the last layer. -/
theorem mlpNet_bias (act final : ℝ → ℝ) (bias : ℕ → ℝ) (fs : List ℕ) (hfs : fs ≠ []) :
    ∀ (l : ℕ) (x : Tensor) (b t c : ℕ),
      (mlpNet act final (fun _ => ⟨fun _ _ => 0, bias⟩) l fs x).val b t c = final (bias c) := by
  induction fs with
  | nil => exact absurd rfl hfs
  | cons f fs ih =>
    intro l x b t c
    cases fs with
    | nil => simp [mlpNet, dense]
    | cons g gs => simp only [mlpNet]; exact ih (by simp) (l + 1) _ b t c

theorem features_ne (k h o : ℕ) : List.replicate k h ++ [o] ≠ [] := by simp

theorem abs_tanh_le (x : ℝ) : |Real.tanh x| ≤ 1 :=
  abs_le.2 ⟨(Real.neg_one_lt_tanh x).le, (Real.tanh_lt_one x).le⟩

theorem post_le (w : MlpSDEW) (s : MlpSizes) (ctx : Fin s.context → ℝ) (z : Fin s.latent → ℝ) (t : ℝ) (i : Fin s.latent) :
    |(mlpNets w s ctx).post z t i| ≤ 1 := by
  obtain ⟨r, hr⟩ := mlpVec_final gelu Real.tanh w.post [s.hidden, s.latent] (by simp) (Fin.append z ctx) i
  simp only [mlpNets, driftNet, hr]
  exact abs_tanh_le r

theorem prior_le (w : MlpSDEW) (s : MlpSizes) (ctx : Fin s.context → ℝ) (z : Fin s.latent → ℝ) (t : ℝ) (i : Fin s.latent) :
    |(mlpNets w s ctx).prior z t i| ≤ 1 := by
  obtain ⟨r, hr⟩ := mlpVec_final gelu Real.tanh w.prior (List.replicate s.sdeLayers s.hidden ++ [s.latent])
    (features_ne _ _ _) z i
  simp only [mlpNets, driftNet, hr]
  exact abs_tanh_le r

/-! ### The trajectories -/

/-- Without noise the trajectory is Euler's method for the posterior drift. -/
theorem variational_path {n : ℕ} (N : Nets ℝ n) (z0 : Fin n → ℝ) (dw : List (Fin n → ℝ)) (hdw : 0 < dw.length) :
    ∃ Z : ℕ → Fin n → ℝ, Z 0 = z0 ∧
      (∀ (k : ℕ), k < dw.length → ∀ i, Z (k + 1) i = Z k i + (1 / dw.length) * N.post (Z k) (k / dw.length) i) ∧
      samplePath (variational N) z0 dw = .ok (Z dw.length,
        ∑ k ∈ Finset.range dw.length, (1 / dw.length) * logqp N (Z k) (k / dw.length)) := by
  set dw0 : List (Fin n → ℝ) := List.replicate dw.length 0 with hdw0
  have hlen : dw0.length = dw.length := by simp [hdw0]
  have hzero : ∀ (k : ℕ) (hk : k < dw0.length), dw0[k] = 0 := by intro k hk; simp [hdw0]
  have hsame : samplePath (variational N) z0 dw0 = samplePath (dynamics N) z0 dw0 := by
    have hf : ∀ (ts : ℝ × ℝ) (dt : ℝ) (m : ℕ) (st : ℝ × ((Fin n → ℝ) × ℝ)),
        (List.replicate m (0 : Fin n → ℝ)).foldl (stepFn (variational N) ts dt) st =
          (List.replicate m (0 : Fin n → ℝ)).foldl (stepFn (dynamics N) ts dt) st := by
      intro ts dt m
      induction m with
      | zero => intro st; rfl
      | succ m ih =>
        intro st
        rw [List.replicate_succ, List.foldl_cons, List.foldl_cons, ih]
        congr 1
        have h0 : ∀ z : Fin n → ℝ, (fun i => (0 : Fin n → ℝ) i * N.sigma z i) = 0 := by intro z; funext i; simp
        unfold stepFn heun variational dynamics
        simp only [h0, mul_zero]
    unfold samplePath
    rw [sdeint_ok _ _ 0 [1] dw0 dw0.length (by omega) (by simp) (by simp),
      sdeint_ok _ _ 0 [1] dw0 dw0.length (by omega) (by simp) (by simp)]
    simp only [List.length_cons, List.length_nil, segments, segScan, sdeintSeg, List.take_length, Bool.false_eq_true,
      if_false]
    rw [hdw0, hf]
  obtain ⟨Z, h0, h1, kl, h2, -, h3⟩ := C68_path N z0 dw0 (by omega)
  refine ⟨Z, h0, fun k hk i => ?_, ?_⟩
  · have := h1 k (by omega) i
    simp only [hzero k (by omega)] at this
    rw [this, hlen]
    simp
  · rw [C68_no_noise N z0 dw dw0 hlen.symm, hsame, h2, h3, hlen]

theorem path_moves {n : ℕ} (N : Nets ℝ n) (hpost : ∀ z t i, |N.post z t i| ≤ 1) (z0 : Fin n → ℝ) (m : ℕ) (hm : 0 < m)
    (Z : ℕ → Fin n → ℝ) (h0 : Z 0 = z0)
    (h1 : ∀ k, k < m → ∀ i, Z (k + 1) i = Z k i + (1 / m) * N.post (Z k) (k / m) i) (i : Fin n) :
    |Z m i - z0 i| ≤ 1 := by
  have hm' : (0 : ℝ) < m := by exact_mod_cast hm
  have key : ∀ k ≤ m, |Z k i - z0 i| ≤ k * (1 / m) := by
    intro k
    induction k with
    | zero => intro _; simp [h0]
    | succ k ih =>
      intro hk
      have a := ih (by omega)
      rw [h1 k (by omega)]
      have b : |(1 / (m : ℝ)) * N.post (Z k) (k / m) i| ≤ 1 / m := by
        rw [abs_mul, abs_of_pos (by positivity)]
        have := hpost (Z k) (k / m) i
        have h3 : (0 : ℝ) < 1 / m := by positivity
        nlinarith
      calc |Z k i + (1 / (m : ℝ)) * N.post (Z k) (k / m) i - z0 i|
          = |(Z k i - z0 i) + (1 / (m : ℝ)) * N.post (Z k) (k / m) i| := by ring_nf
        _ ≤ |Z k i - z0 i| + |(1 / (m : ℝ)) * N.post (Z k) (k / m) i| := abs_add_le _ _
        _ ≤ k * (1 / m) + 1 / m := add_le_add a b
        _ = ((k + 1 : ℕ) : ℝ) * (1 / m) := by push_cast; ring
  have := key m le_rfl
  rwa [mul_one_div, div_self hm'.ne'] at this

/-! ### C135 -/

theorem mlpCall_eq (w : MlpSDEW) (s : MlpSizes) (σ : ℝ) (x : Fin s.data → ℝ) (dw : List (Fin s.latent → ℝ))
    {z1 : Fin s.latent → ℝ} {kl : ℝ}
    (h : samplePath (variational (mlpNets w s (q0Context w s x))) (q0Mean w s x) dw = .ok (z1, kl)) :
    mlpCall w s σ 1 x dw = .ok {
      y := [fun c => mlpVec gelu gelu w.decoder (List.replicate s.layers s.hidden ++ [s.data]) z1 c]
      klQ0 := klDiag (q0Mean w s x) (q0Std w s x) (fun _ => 0) (fun _ => σ * 1)
      klPath := kl } := by
  unfold mlpCall
  rw [if_neg (by simp), h]

/-- The call succeeds exactly for one sample and at least one grid point. -/
theorem C135_runs (w : MlpSDEW) (s : MlpSizes) (σ : ℝ) (m : ℕ) (x : Fin s.data → ℝ) (dw : List (Fin s.latent → ℝ)) :
    (∃ out, mlpCall w s σ m x dw = .ok out) ↔ m = 1 ∧ dw ≠ [] := by
  unfold mlpCall
  constructor
  · rintro ⟨out, h⟩
    split at h
    · cases h
    · next hm =>
      refine ⟨not_not.1 hm, ?_⟩
      rintro rfl
      simp [samplePath, sdeint, sdeintArgs] at h
  · rintro ⟨rfl, hdw⟩
    obtain ⟨Z, -, -, h⟩ := variational_path (mlpNets w s (q0Context w s x)) (q0Mean w s x) dw (List.length_pos_iff.2 hdw)
    rw [if_neg (by simp), h]
    exact ⟨_, rfl⟩

/-- C135 is violated: the result does not depend on the random numbers, whatever the weights. The model is not stochastic. -/
theorem C135_noise_violated (w : MlpSDEW) (s : MlpSizes) (σ : ℝ) (m : ℕ) (x : Fin s.data → ℝ) (dw dw' : List (Fin s.latent → ℝ))
    (h : dw.length = dw'.length) : mlpCall w s σ m x dw = mlpCall w s σ m x dw' := by
  unfold mlpCall
  rw [C68_no_noise _ _ dw dw' h]

/-- The same weights, except that the diffusion is the constant `exp b`. -/
noncomputable def constDiffusion (w : MlpSDEW) (b : ℝ) : MlpSDEW :=
  { w with diffusion := fun _ _ => ⟨fun _ _ => 0, fun _ => b⟩ }

theorem constDiffusion_sigma (w : MlpSDEW) (s : MlpSizes) (b : ℝ) (ctx : Fin s.context → ℝ) (z : Fin s.latent → ℝ) (i : Fin s.latent) :
    (mlpNets (constDiffusion w b) s ctx).sigma z i = Real.exp b := by
  simp only [mlpNets, diffusionNet, mlpVec, constDiffusion]
  exact mlpNet_bias gelu Real.exp (fun _ => b) _ (features_ne _ _ _) 0 _ 0 0 0

/-- C135 is violated: the KL term does not tie the posterior to the prior. For all weights and every `ε > 0` there are weights
that differ in the diffusion alone, with which all examples give the same predictions and the same `kl_q0`, and `kl_path` is below
`ε` for all of them at once. -/
theorem C135_kl_violated (w : MlpSDEW) (s : MlpSizes) (ε : ℝ) (hε : 0 < ε) :
    ∃ w' : MlpSDEW, w'.encoder = w.encoder ∧ w'.decoder = w.decoder ∧ w'.prior = w.prior ∧ w'.post = w.post ∧
      ∀ (σ : ℝ) (x : Fin s.data → ℝ) (dw : List (Fin s.latent → ℝ)) (out : MlpOut s.data), mlpCall w s σ 1 x dw = .ok out →
        ∃ out', mlpCall w' s σ 1 x dw = .ok out' ∧ out'.y = out.y ∧ out'.klQ0 = out.klQ0 ∧ 0 ≤ out'.klPath ∧ out'.klPath < ε := by
  -- the diffusion `D`, with `2 * latent / D ^ 2 < ε`
  set D : ℝ := 1 + 2 * s.latent / ε with hD
  have hD1 : 1 ≤ D := by
    have : 0 ≤ 2 * (s.latent : ℝ) / ε := by positivity
    linarith
  have hexp : Real.exp (Real.log D) = D := Real.exp_log (by linarith)
  refine ⟨constDiffusion w (Real.log D), rfl, rfl, rfl, rfl, ?_⟩
  intro σ x dw out h
  have hdw : 0 < dw.length := List.length_pos_iff.2 ((C135_runs w s σ 1 x dw).1 ⟨out, h⟩).2
  set ctx := q0Context w s x with hctx
  obtain ⟨Z, h0, h1, h2⟩ := variational_path (mlpNets w s ctx) (q0Mean w s x) dw hdw
  obtain ⟨Z', h0', h1', h2'⟩ := variational_path (mlpNets (constDiffusion w (Real.log D)) s ctx) (q0Mean w s x) dw hdw
  have hZ : ∀ k ≤ dw.length, Z' k = Z k := by
    intro k
    induction k with
    | zero => intro _; rw [h0, h0']
    | succ k ih =>
      intro hk
      funext i
      rw [h1 k (by omega), h1' k (by omega), ih (by omega)]
      rfl
  rw [mlpCall_eq w s σ x dw h2] at h
  simp only [Except.ok.injEq] at h
  subst h
  refine ⟨_, mlpCall_eq (constDiffusion w (Real.log D)) s σ x dw h2', ?_, rfl, ?_, ?_⟩
  · simp only
    rw [hZ _ le_rfl]
    rfl
  · simp only
    exact Finset.sum_nonneg fun k _ => mul_nonneg (by positivity) (logqp_nonneg _ _ _)
  · have hrate : ∀ z t, logqp (mlpNets (constDiffusion w (Real.log D)) s ctx) z t ≤ 2 * s.latent / D ^ 2 := by
      intro z t
      unfold logqp
      have hterm : ∀ i ∈ (Finset.univ : Finset (Fin s.latent)),
          divideNoNan ((mlpNets (constDiffusion w (Real.log D)) s ctx).post z t i -
            (mlpNets (constDiffusion w (Real.log D)) s ctx).prior z t i)
            ((mlpNets (constDiffusion w (Real.log D)) s ctx).sigma z i) ^ 2 ≤ 4 / D ^ 2 := by
        intro i _
        rw [constDiffusion_sigma, hexp]
        unfold divideNoNan
        rw [if_neg (by rw [abs_of_pos (by linarith)]; norm_num; linarith)]
        rw [div_pow]
        have a := abs_le.1 (post_le (constDiffusion w (Real.log D)) s ctx z t i)
        have b := abs_le.1 (prior_le (constDiffusion w (Real.log D)) s ctx z t i)
        gcongr
        nlinarith
      calc (1 / 2 : ℝ) * ∑ i, _ ≤ (1 / 2) * ∑ _i : Fin s.latent, 4 / D ^ 2 :=
            mul_le_mul_of_nonneg_left (Finset.sum_le_sum hterm) (by norm_num)
        _ = 2 * s.latent / D ^ 2 := by
            rw [Finset.sum_const, Finset.card_univ, Fintype.card_fin, nsmul_eq_mul]; ring
    have hl : (0 : ℝ) < dw.length := by exact_mod_cast hdw
    calc ∑ k ∈ Finset.range dw.length, (1 / (dw.length : ℝ)) *
          logqp (mlpNets (constDiffusion w (Real.log D)) s ctx) (Z' k) (k / dw.length)
        ≤ ∑ _k ∈ Finset.range dw.length, (1 / (dw.length : ℝ)) * (2 * s.latent / D ^ 2) :=
          Finset.sum_le_sum fun k _ => mul_le_mul_of_nonneg_left (hrate _ _) (by positivity)
      _ = 2 * s.latent / D ^ 2 := by
          rw [Finset.sum_const, Finset.card_range, nsmul_eq_mul]; field_simp
      _ < ε := by
          rw [div_lt_iff₀ (by positivity)]
          have h4 : 2 * (s.latent : ℝ) = (D - 1) * ε := by rw [hD]; field_simp; ring
          have h5 : 0 ≤ D - 1 := by linarith
          have h6 : D - 1 < D ^ 2 := by nlinarith
          rw [h4]
          nlinarith

/-- C135 is violated: no weights, input or random numbers give a prediction with a number below `-1/4`; the mean of the latent state
is never below `-1/4` and its standard deviation never below `exp(-1/4)`. -/
theorem C135_range_violated (w : MlpSDEW) (s : MlpSizes) (σ : ℝ) (m : ℕ) (x : Fin s.data → ℝ) (dw : List (Fin s.latent → ℝ)) :
    (∀ out, mlpCall w s σ m x dw = .ok out → ∀ y ∈ out.y, ∀ c, -(1 / 4) ≤ y c) ∧
    (∀ i, -(1 / 4) ≤ q0Mean w s x i) ∧ ∀ i, Real.exp (-(1 / 4)) ≤ q0Std w s x i := by
  have henc : ∀ c, -(1 / 4) ≤ encoderOut w s x c := by
    intro c
    obtain ⟨r, hr⟩ := mlpVec_final gelu gelu w.encoder
      (List.replicate s.layers s.hidden ++ [2 * s.latent + s.context]) (features_ne _ _ _) x c
    unfold encoderOut
    rw [hr]
    exact gelu_ge r
  refine ⟨?_, fun i => henc i, fun i => Real.exp_le_exp.2 (henc _)⟩
  intro out h y hy c
  unfold mlpCall at h
  split at h
  · cases h
  · split at h
    · cases h
    · next z1 kl _ =>
      simp only [Except.ok.injEq] at h
      subst h
      simp only [List.mem_singleton] at hy
      subst hy
      obtain ⟨r, hr⟩ := mlpVec_final gelu gelu w.decoder (List.replicate s.layers s.hidden ++ [s.data])
        (features_ne _ _ _) z1 (c : ℕ)
      simp only
      rw [hr]
      exact gelu_ge r

/-- What is left of C135: every state without negative numbers is the prediction for suitable weights, whatever the input. -/
theorem C135_partial (s : MlpSizes) (target : Fin s.data → ℝ) (hy : ∀ c, 0 ≤ target c) (w : MlpSDEW) :
    ∃ decoder : ℕ → DenseW, ∀ (σ : ℝ) (x : Fin s.data → ℝ) (dw : List (Fin s.latent → ℝ)), dw ≠ [] →
      ∃ out, mlpCall { w with decoder := decoder } s σ 1 x dw = .ok out ∧ out.y = [target] := by
  choose b hb using fun c => gelu_onto (hy c)
  refine ⟨fun _ => ⟨fun _ _ => 0, fun c => if h : c < s.data then b ⟨c, h⟩ else 0⟩, fun σ x dw hdw => ?_⟩
  obtain ⟨out, h⟩ := (C135_runs { w with decoder := fun _ => ⟨fun _ _ => 0, fun c => if h : c < s.data then b ⟨c, h⟩ else 0⟩ }
    s σ 1 x dw).2 ⟨rfl, hdw⟩
  refine ⟨out, h, ?_⟩
  unfold mlpCall at h
  rw [if_neg (by simp)] at h
  split at h
  · cases h
  · simp only [Except.ok.injEq] at h
    subst h
    simp only [List.cons.injEq, and_true]
    funext c
    unfold mlpVec
    rw [mlpNet_bias gelu gelu _ _ (features_ne _ _ _), dif_pos c.2]
    exact hb c

/-- The latent state moves by at most one in every coordinate between time zero and one: for all weights, the prediction is the
decoder at a point within distance one of the mean. -/
theorem C135_latent (w : MlpSDEW) (s : MlpSizes) (σ : ℝ) (x : Fin s.data → ℝ) (dw : List (Fin s.latent → ℝ)) (hdw : dw ≠ []) :
    ∃ z1 : Fin s.latent → ℝ, (∀ i, |z1 i - q0Mean w s x i| ≤ 1) ∧ ∃ out, mlpCall w s σ 1 x dw = .ok out ∧
      out.y = [fun c : Fin s.data => mlpVec gelu gelu w.decoder (List.replicate s.layers s.hidden ++ [s.data]) z1 c] := by
  have hl := List.length_pos_iff.2 hdw
  obtain ⟨Z, h0, h1, h2⟩ := variational_path (mlpNets w s (q0Context w s x)) (q0Mean w s x) dw hl
  refine ⟨Z dw.length, fun i => path_moves _ (post_le w s _) _ _ hl Z h0 h1 i, ?_⟩
  unfold mlpCall
  rw [if_neg (by simp), h2]
  exact ⟨_, rfl, rfl⟩

/-- The theorems are about runs that exist: two latent numbers, three data, one grid point. -/
example (w : MlpSDEW) (x : Fin 3 → ℝ) : ∃ out, mlpCall w ⟨4, 1, 1, 2, 1, 3⟩ 1 1 x [fun _ => 1] = .ok out :=
  (C135_runs w ⟨4, 1, 1, 2, 1, 3⟩ 1 1 x _).2 ⟨rfl, by simp⟩

end Verif.Niles
