import Verif.Props.C108
import Verif.Props.C99Exists

/-!
# C110: the processor converges when the number of grid points grows

`C110_trajectory`: for all weights, all initial states and all paths of the noise that are Hölder continuous of exponent above
`1/3` (almost all paths of Brownian motion are) there is exactly one solution of the latent equation in the sense of
Stratonovich with the drift and the diffusion of `Dynamics`, and the states that `sample_sde` returns converge to its value at
time one as `num_gridpoints` grows. `C110_kl`: when the diffusion coefficients exceed `1e-8` the KL term converges to the
integral of the KL rate along that solution.
-/

namespace Verif.Niles

open Finset Verif.SDE Verif.Spec Filter

/-- The trajectory of `samplePath` at all grid points, and its distance from the Stratonovich solution. -/
theorem path_grid (K : ℝ) (hK : 1 ≤ K) : ∃ C : ℝ, 0 ≤ C ∧ ∀ (d : ℕ) (N : Nets ℝ d) (g g' : Fin d → ℝ → ℝ),
    (∀ z i, N.sigma z i = g i (z i)) → CoefficientBounds K N.post g g' →
    ∀ (W Y : ℝ → Fin d → ℝ), IsStratonovich N.post g W Y → ∀ (n : ℕ) (ω : ℝ), 0 < n → 0 ≤ ω → ω ≤ 1 →
      (∀ s ∈ Set.Icc (0 : ℝ) 1, ∀ t ∈ Set.Icc (0 : ℝ) 1, |s - t| ≤ 1 / n → ∀ i, |W s i - W t i| ≤ ω) →
      ∃ Z : ℕ → Fin d → ℝ, Z 0 = Y 0 ∧
        samplePath (dynamics N) (Y 0) (increments W n) =
          .ok (Z n, ∑ k ∈ range n, (1 / n) * logqp N (Z k) (k / n)) ∧
        ∀ k ≤ n, ∀ i, |Z k i - Y (k / n) i| ≤ C * (1 / n + ω + n * ω ^ 3) := by
  obtain ⟨C, hC0, hC⟩ := C99_path K hK
  refine ⟨C, hC0, fun d N g g' hσ B W Y hY n ω hn hω0 hω1 hosc => ?_⟩
  have hnR : (0 : ℝ) < n := by exact_mod_cast hn
  have hlen : (increments W n).length = n := length_increments W n
  obtain ⟨Z, hZ0, hZ, kl, hs, -, hkl⟩ := C68_path N (Y 0) (increments W n) (by rw [hlen]; exact hn)
  rw [hlen] at hs hkl
  obtain ⟨ys, hy, hyl, herr⟩ := hC (Fin d) N.post g g' B W Y hY n 1 ω hn one_pos hω0 hω1 (by simpa using hosc)
  obtain ⟨X, hX0, hX, hres⟩ := C47_uniform (diagonal N.post g) (Y 0) (0 : ℝ) (1 / n) (by positivity) n 1 one_pos hn
    (increments W (n * 1)) (by rw [length_increments])
  have hts : (List.range (n + 1)).map (fun i : ℕ => (0 : ℝ) + i * (1 / n)) = (List.range (n + 1)).map fun i : ℕ => (i : ℝ) / n := by
    apply List.map_congr_left
    intro i _
    ring
  rw [hts, hy] at hres
  have hys : ys = (List.range n).map fun j => X ((j + 1) * 1) := by simpa using hres
  have hXZ : ∀ k ≤ n, X k = Z k := by
    intro k
    induction k with
    | zero => intro _; rw [hX0, hZ0]
    | succ k ih =>
      intro hk
      funext i
      have h1 := hX k (by omega)
      have h2 := hZ k (by rw [hlen]; omega) i
      have e : (increments W (n * 1))[k]'(by rw [length_increments]; omega) = (increments W n)[k]'(by rw [hlen]; omega) := by
        congr 1
        rw [mul_one]
      dsimp only at h1 h2
      have hc : ((increments W n).length : ℝ) = n := by rw [hlen]
      rw [hc] at h2
      rw [h1, h2, ih (by omega), e]
      simp only [diagonal, Pi.add_apply, Pi.smul_apply, smul_eq_mul, hσ, Nat.cast_one, div_one, zero_add]
      rw [mul_one_div]
  refine ⟨Z, hZ0, by rw [hs, hkl], fun k hk i => ?_⟩
  cases k with
  | zero =>
    rw [hZ0, Nat.cast_zero, zero_div, sub_self, abs_zero]
    positivity
  | succ j =>
    have h1 := herr j (by omega) i
    have e : ys[j]'(by rw [hyl]; omega) = Z (j + 1) := by
      rw [← hXZ (j + 1) hk]
      simp [hys]
    rw [e] at h1
    simpa using h1

/-- Along a Hölder continuous path the errors at all grid points become small together. -/
theorem path_grid_hoelder {K : ℝ} (hK : 1 ≤ K) {d : ℕ} (N : Nets ℝ d) {g g' : Fin d → ℝ → ℝ} (hσ : ∀ z i, N.sigma z i = g i (z i))
    (B : CoefficientBounds K N.post g g') {W Y : ℝ → Fin d → ℝ} (hY : IsStratonovich N.post g W Y) {H α : ℝ} (hH : 0 ≤ H)
    (hα : 1 / 3 < α) (hW : ∀ s ∈ Set.Icc (0 : ℝ) 1, ∀ t ∈ Set.Icc (0 : ℝ) 1, ∀ i, |W s i - W t i| ≤ H * |s - t| ^ α) {ε : ℝ} (hε : 0 < ε) :
    ∃ n0 : ℕ, ∀ n ≥ n0, ∃ Z : ℕ → Fin d → ℝ, Z 0 = Y 0 ∧
      samplePath (dynamics N) (Y 0) (increments W n) = .ok (Z n, ∑ k ∈ range n, (1 / n) * logqp N (Z k) (k / n)) ∧
      ∀ k ≤ n, ∀ i, |Z k i - Y (k / n) i| ≤ ε := by
  obtain ⟨C, hC0, hC⟩ := path_grid K hK
  have t1 : Tendsto (fun n : ℕ => (n : ℝ) ^ (-α)) atTop (nhds 0) :=
    (tendsto_rpow_neg_atTop (by linarith : 0 < α)).comp tendsto_natCast_atTop_atTop
  have t2 : Tendsto (fun n : ℕ => (n : ℝ) ^ (1 - 3 * α)) atTop (nhds 0) := by
    have := (tendsto_rpow_neg_atTop (by linarith : 0 < 3 * α - 1)).comp tendsto_natCast_atTop_atTop
    refine this.congr fun n => ?_
    simp only [Function.comp]
    congr 1
    ring
  have t3 : Tendsto (fun n : ℕ => (1 : ℝ) / n) atTop (nhds 0) := tendsto_const_div_atTop_nhds_zero_nat 1
  have tω : Tendsto (fun n : ℕ => H * (n : ℝ) ^ (-α)) atTop (nhds 0) := by simpa using t1.const_mul H
  have tall : Tendsto (fun n : ℕ => C * (1 / (n : ℝ) + H * (n : ℝ) ^ (-α) + H ^ 3 * (n : ℝ) ^ (1 - 3 * α))) atTop (nhds 0) := by
    simpa using ((t3.add tω).add (t2.const_mul (H ^ 3))).const_mul C
  have e1 := tω.eventually (gt_mem_nhds one_pos)
  have e2 := tall.eventually (gt_mem_nhds hε)
  obtain ⟨n0, hn0⟩ := eventually_atTop.1 ((e1.and e2).and (eventually_gt_atTop 0))
  refine ⟨n0, fun n hn => ?_⟩
  obtain ⟨⟨h1, h2⟩, h3⟩ := hn0 n hn
  have hnR : (0 : ℝ) < n := by exact_mod_cast h3
  obtain ⟨Z, hZ0, hZ, herr⟩ := hC d N g g' hσ B W Y hY n (H * (n : ℝ) ^ (-α)) h3 (by positivity) h1.le (by
    intro s hs t ht hst i
    refine (hW s hs t ht i).trans (mul_le_mul_of_nonneg_left ?_ hH)
    refine (Real.rpow_le_rpow (abs_nonneg _) hst (by linarith)).trans_eq ?_
    rw [one_div, Real.inv_rpow hnR.le, Real.rpow_neg hnR.le])
  refine ⟨Z, hZ0, hZ, fun k hk i => (herr k hk i).trans ?_⟩
  have e : (n : ℝ) * (H * (n : ℝ) ^ (-α)) ^ 3 = H ^ 3 * (n : ℝ) ^ (1 - 3 * α) := by
    rw [mul_pow, ← Real.rpow_natCast, ← Real.rpow_natCast, ← Real.rpow_mul hnR.le,
      show (1 - 3 * α : ℝ) = 1 + -α * ((3 : ℕ) : ℝ) by push_cast; ring, Real.rpow_add hnR, Real.rpow_one]
    ring
  rw [e]
  exact h2.le

/-- For all weights (with a hidden layer) and all paths of the noise the trajectories converge to the Stratonovich solution of
the latent equation, which exists and is unique. -/
theorem C110_trajectory (w : DynW) {layers : ℕ} (h0 : 0 < layers) (hidden seq : ℕ) {latent : ℕ} (hl : 2 ∣ latent) (scale : ℝ)
    (v start : Fin (seq * latent) → ℝ) (W : ℝ → Fin (seq * latent) → ℝ) (H α : ℝ) (hH : 0 ≤ H) (hα : 1 / 3 < α) (hα1 : α ≤ 1)
    (hW : ∀ s ∈ Set.Icc (0 : ℝ) 1, ∀ t ∈ Set.Icc (0 : ℝ) 1, ∀ i, |W s i - W t i| ≤ H * |s - t| ^ α) :
    let z0 := fun i => v i + scale * start i
    let N := dynNets gelu w layers hidden seq latent z0
    ∃ Y, Y 0 = z0 ∧ IsStratonovich N.post (fun i x => N.sigma (fun _ => x) i) W Y ∧
      (∀ Y', Y' 0 = z0 → IsStratonovich N.post (fun i x => N.sigma (fun _ => x) i) W Y' → ∀ t ∈ Set.Icc (0 : ℝ) 1, Y' t = Y t) ∧
      ∀ ε > 0, ∃ n0 : ℕ, ∀ n ≥ n0, ∃ z kl, sampleSDE gelu w layers hidden seq latent scale v ⟨start, increments W n⟩ = .ok (z, kl) ∧
        ∀ i, |z i - Y 1 i| ≤ ε := by
  intro z0 N
  obtain ⟨K, hK, g', hB⟩ := dynNets_bounds w h0 hidden seq hl
  obtain ⟨B, -⟩ := hB z0
  have hσ : ∀ z i, N.sigma z i = sigmaFn w.diffusion layers hidden (z i) := fun z i => dynNets_sigma _ _ _ _ _ _ _ _ _
  have eg : (fun i x => N.sigma (fun _ => x) i) = fun (_ : Fin (seq * latent)) => sigmaFn w.diffusion layers hidden := by
    funext i x
    exact hσ _ i
  rw [eg]
  obtain ⟨Y, hY0, hY, hu, -⟩ := C99_limit hK B W H α hH hα hα1 hW z0
  refine ⟨Y, hY0, hY, hu, fun ε hε => ?_⟩
  obtain ⟨n0, hn0⟩ := path_grid_hoelder hK N hσ B hY hH hα hW hε
  refine ⟨max n0 1, fun n hn => ?_⟩
  obtain ⟨Z, -, hs, herr⟩ := hn0 n ((le_max_left _ _).trans hn)
  have hn1 : 1 ≤ n := (le_max_right _ _).trans hn
  have hnR : (n : ℝ) ≠ 0 := by exact_mod_cast (by omega : n ≠ 0)
  refine ⟨Z n, ∑ k ∈ range n, (1 / n) * logqp N (Z k) (k / n), ?_, fun i => ?_⟩
  · rw [hY0] at hs
    rw [← hs]
    simp only [sampleSDE, mul_one, N, z0]
  · have := herr n le_rfl i
    rwa [div_self hnR] at this

theorem stratonovich_continuous {K : ℝ} (hK : 1 ≤ K) {d : ℕ} {f : (Fin d → ℝ) → ℝ → Fin d → ℝ} {g g' : Fin d → ℝ → ℝ}
    (B : CoefficientBounds K f g g') {W Y : ℝ → Fin d → ℝ} (hY : IsStratonovich f g W Y) (hW : ContinuousOn W (Set.Icc 0 1)) :
    ContinuousOn Y (Set.Icc 0 1) := by
  obtain ⟨φ, hφ, hd⟩ := hY
  refine continuousOn_pi.2 fun i => ?_
  have h1 : ContinuousOn (fun t => φ i (Y t i)) (Set.Icc 0 1) := by
    have := ContinuousOn.add (fun t ht => (hd i t ht).continuousWithinAt : ContinuousOn (fun t => φ i (Y t i) - W t i) (Set.Icc 0 1))
      (continuousOn_pi.1 hW i)
    refine this.congr fun t _ => ?_
    simp
  intro t ht
  refine tendsto_iff_norm_sub_tendsto_zero.2 ?_
  have h2 : Tendsto (fun s => K * |φ i (Y s i) - φ i (Y t i)|) (nhdsWithin t (Set.Icc 0 1)) (nhds 0) := by
    have := ((tendsto_iff_norm_sub_tendsto_zero.1 (h1 t ht)).const_mul K)
    simpa using this
  exact squeeze_zero (fun _ => norm_nonneg _) (fun s => (B.diffusion i).expand hK (hφ i) _ _) h2

theorem hoelder_continuous {d : ℕ} {W : ℝ → Fin d → ℝ} {H α : ℝ} (hα : 0 < α)
    (hW : ∀ s ∈ Set.Icc (0 : ℝ) 1, ∀ t ∈ Set.Icc (0 : ℝ) 1, ∀ i, |W s i - W t i| ≤ H * |s - t| ^ α) : ContinuousOn W (Set.Icc 0 1) := by
  intro t ht
  refine tendsto_pi_nhds.2 fun i => tendsto_iff_norm_sub_tendsto_zero.2 ?_
  have hlim : Tendsto (fun s => H * |s - t| ^ α) (nhdsWithin t (Set.Icc 0 1)) (nhds 0) := by
    have h1 : Continuous fun s : ℝ => H * |s - t| ^ α :=
      continuous_const.mul (((continuous_id.sub continuous_const).abs).rpow_const fun _ => Or.inr hα.le)
    have h2 := h1.tendsto t
    rw [sub_self, abs_zero, Real.zero_rpow hα.ne', mul_zero] at h2
    exact h2.mono_left nhdsWithin_le_nhds
  refine squeeze_zero' (Eventually.of_forall fun _ => norm_nonneg _) ?_ hlim
  filter_upwards [self_mem_nhdsWithin] with s hs
  exact hW s hs t ht i

/-- Left Riemann sums of continuous functions. -/
theorem riemann_sum {ℓ : ℝ → ℝ} (hℓ : ContinuousOn ℓ (Set.Icc 0 1)) {ε : ℝ} (hε : 0 < ε) :
    ∃ n0 : ℕ, ∀ n ≥ n0, |∑ k ∈ range n, (1 / n) * ℓ (k / n) - ∫ t in (0 : ℝ)..1, ℓ t| ≤ ε := by
  have hu := isCompact_Icc.uniformContinuousOn_of_continuous hℓ
  obtain ⟨δ, hδ, h⟩ := Metric.uniformContinuousOn_iff.1 hu ε hε
  obtain ⟨n0, hn0⟩ := exists_nat_gt (1 / δ)
  refine ⟨max n0 1, fun n hn => ?_⟩
  have hn1 : 0 < n := lt_of_lt_of_le one_pos ((le_max_right _ _).trans hn)
  have hnR : (0 : ℝ) < n := by exact_mod_cast hn1
  have hnδ : 1 / (n : ℝ) < δ := by
    have : (n0 : ℝ) ≤ n := by exact_mod_cast (le_max_left _ _).trans hn
    rw [div_lt_iff₀ hnR]
    rw [div_lt_iff₀ hδ] at hn0
    nlinarith
  have hmem : ∀ k : ℕ, k ≤ n → (k : ℝ) / n ∈ Set.Icc (0 : ℝ) 1 := fun k hk =>
    ⟨by positivity, by rw [div_le_one hnR]; exact_mod_cast hk⟩
  have hle : ∀ k : ℕ, (k : ℝ) / n ≤ (k + 1 : ℕ) / n := fun k => by
    rw [div_le_div_iff_of_pos_right hnR]
    exact_mod_cast Nat.le_succ k
  have hsub : ∀ k : ℕ, k < n → Set.Icc ((k : ℝ) / n) ((k + 1 : ℕ) / n) ⊆ Set.Icc 0 1 := fun k hk =>
    Set.Icc_subset_Icc (hmem k hk.le).1 (hmem (k + 1) hk).2
  have hint : ∀ k : ℕ, k < n → IntervalIntegrable ℓ MeasureTheory.volume ((k : ℝ) / n) ((k + 1 : ℕ) / n) := fun k hk =>
    ContinuousOn.intervalIntegrable (by rw [Set.uIcc_of_le (hle k)]; exact hℓ.mono (hsub k hk))
  have hsplit := intervalIntegral.sum_integral_adjacent_intervals (f := ℓ) (a := fun k : ℕ => (k : ℝ) / n) (n := n) hint
  simp only [Nat.cast_zero, zero_div, div_self hnR.ne'] at hsplit
  rw [← hsplit, ← sum_sub_distrib]
  refine (abs_sum_le_sum_abs _ _).trans ?_
  calc _ ≤ ∑ k ∈ range n, ε * (1 / n) := sum_le_sum fun k hk => ?_
    _ = ε := by
      rw [sum_const, card_range, nsmul_eq_mul]
      field_simp
  have hk := mem_range.1 hk
  have hw : ((k + 1 : ℕ) : ℝ) / n - k / n = 1 / n := by
    rw [← sub_div]
    congr 1
    push_cast
    ring
  have e : 1 / (n : ℝ) * ℓ (k / n) - ∫ t in ((k : ℝ) / n)..((k + 1 : ℕ) / n), ℓ t = ∫ t in ((k : ℝ) / n)..((k + 1 : ℕ) / n), (ℓ (k / n) - ℓ t) := by
    rw [intervalIntegral.integral_sub intervalIntegrable_const (hint k hk), intervalIntegral.integral_const, hw, smul_eq_mul]
  rw [e]
  have hb := intervalIntegral.norm_integral_le_of_norm_le_const (a := (k : ℝ) / n) (b := (k + 1 : ℕ) / n) (C := ε)
    (f := fun t => ℓ (k / n) - ℓ t) (fun t ht => by
      rw [Set.uIoc_of_le (hle k)] at ht
      have ht' : t ∈ Set.Icc ((k : ℝ) / n) ((k + 1 : ℕ) / n) := ⟨ht.1.le, ht.2⟩
      have := h _ (hmem k hk.le) t (hsub k hk ht') (by
        rw [Real.dist_eq, abs_sub_comm, abs_of_nonneg (by linarith [ht.1])]
        linarith [ht.2])
      exact this.le)
  rw [hw, abs_of_pos (by positivity : (0 : ℝ) < 1 / n)] at hb
  exact hb

theorem NetClass.sumFin {Θ : Type*} {P : (Θ → ℝ) → Prop} (h : NetClass P) {n : ℕ} {f : Fin n → Θ → ℝ} (hf : ∀ i, P (f i)) :
    P fun θ => ∑ i, f i θ := by
  have := h.sum (f := fun k θ => if hk : k < n then f ⟨k, hk⟩ θ else 0) (fun k => by
    by_cases hk : k < n
    · simpa [hk] using hf ⟨k, hk⟩
    · simpa [hk] using h.const 0) n
  have e : (fun θ => ∑ i, f i θ) = fun θ => ∑ k ∈ range n, if hk : k < n then f ⟨k, hk⟩ θ else 0 := by
    funext θ
    rw [sum_range]
    exact sum_congr rfl fun i _ => by simp
  rw [e]
  exact this

/-- The KL rate is Lipschitz continuous when the diffusion exceeds `1e-8`. -/
theorem logqp_lip (w : DynW) {layers : ℕ} (h0 : 0 < layers) (hidden seq : ℕ) {latent : ℕ} (hl : 2 ∣ latent)
    (hσ : ∀ x, (1 : ℝ) / 10 ^ 8 < sigmaFn w.diffusion layers hidden x) :
    ∃ Q, 0 ≤ Q ∧ ∀ ctx z z' s t, |logqp (dynNets gelu w layers hidden seq latent ctx) z s -
      logqp (dynNets gelu w layers hidden seq latent ctx) z' t| ≤ Q * (‖z - z'‖ + |s - t|) := by
  obtain ⟨K0, hK0, g', hs⟩ := sigmaFn_bounds w.diffusion h0 hidden
  have hsB := hs K0 le_rfl
  obtain ⟨K1, hK1, hd⟩ := drift_bounds w layers hidden seq hl
  have hP : NetClass (GlobalBL (argDist (n := seq * latent))) := netClass_boundedLip _ _
  have hpost : ∀ i, GlobalBL (argDist (n := seq * latent)) fun p => (dynNets gelu w layers hidden seq latent p.2.1).post p.1 p.2.2 i :=
    fun i _ => ⟨K1, K1, hK1, hK1, fun p _ => ((hd i).1 _ _ _).1, fun p _ q _ => ((hd i).2 _ _ _ _ _ _).1⟩
  have hprior : ∀ i, GlobalBL (argDist (n := seq * latent)) fun p => (dynNets gelu w layers hidden seq latent p.2.1).prior p.1 p.2.2 i :=
    fun i _ => ⟨K1, K1, hK1, hK1, fun p _ => ((hd i).1 _ _ _).2, fun p _ q _ => ((hd i).2 _ _ _ _ _ _).2⟩
  have hinv : ∀ i, GlobalBL (argDist (n := seq * latent)) fun p => 1 / sigmaFn w.diffusion layers hidden (p.1 i) := fun i _ => by
    refine ⟨K0, 2 * K0 ^ 4, by linarith, by positivity, fun p _ => ?_, fun p _ q _ => ?_⟩
    · rw [abs_of_pos (one_div_pos.2 (hsB.pos hK0 _))]
      exact hsB.inv_le hK0 _
    · have h1 : |p.1 i - q.1 i| ≤ argDist p q := by
        have := norm_le_pi_norm (p.1 - q.1) i
        rw [Pi.sub_apply, Real.norm_eq_abs] at this
        unfold argDist
        linarith [norm_nonneg (p.2.1 - q.2.1), abs_nonneg (p.2.2 - q.2.2)]
      refine hsB.quot_lipschitz hK0 (by rw [abs_one]; exact hK0) ?_ h1
      rw [sub_self, abs_zero]
      have := argDist_nonneg p q
      positivity
  have hterm : ∀ i, GlobalBL (argDist (n := seq * latent)) fun p =>
      (((dynNets gelu w layers hidden seq latent p.2.1).post p.1 p.2.2 i - (dynNets gelu w layers hidden seq latent p.2.1).prior p.1 p.2.2 i) *
        (1 / sigmaFn w.diffusion layers hidden (p.1 i))) ^ 2 := fun i => by
    have h1 := hP.mul (hP.sub (hpost i) (hprior i)) (hinv i)
    have := hP.mul h1 h1
    simpa [pow_two] using this
  have hsum := hP.mul (hP.const (1 / 2)) (hP.sumFin hterm)
  have e : ∀ p : DynArg (seq * latent), logqp (dynNets gelu w layers hidden seq latent p.2.1) p.1 p.2.2 = 1 / 2 * ∑ i,
      (((dynNets gelu w layers hidden seq latent p.2.1).post p.1 p.2.2 i - (dynNets gelu w layers hidden seq latent p.2.1).prior p.1 p.2.2 i) *
        (1 / sigmaFn w.diffusion layers hidden (p.1 i))) ^ 2 := by
    intro p
    rw [(C68_partial (dynNets gelu w layers hidden seq latent p.2.1) fun z i => by rw [dynNets_sigma]; exact hσ _).1]
    congr 1
    refine sum_congr rfl fun i _ => ?_
    rw [dynNets_sigma, div_eq_mul_one_div]
  obtain ⟨M, L, -, hL, -, h2⟩ := hsum 0
  refine ⟨L, hL, fun ctx z z' s t => ?_⟩
  have := h2 (z, ctx, s) trivial (z', ctx, t) trivial
  have e1 := e (z, ctx, s)
  have e2 := e (z', ctx, t)
  dsimp only at this e1 e2
  rw [← e1, ← e2] at this
  simpa [argDist] using this

/-- The KL term of the path converges to the integral of the KL rate along the Stratonovich solution. -/
theorem C110_kl (w : DynW) {layers : ℕ} (h0 : 0 < layers) (hidden seq : ℕ) {latent : ℕ} (hl : 2 ∣ latent) (scale : ℝ)
    (v start : Fin (seq * latent) → ℝ) (W : ℝ → Fin (seq * latent) → ℝ) (H α : ℝ) (hH : 0 ≤ H) (hα : 1 / 3 < α)
    (hW : ∀ s ∈ Set.Icc (0 : ℝ) 1, ∀ t ∈ Set.Icc (0 : ℝ) 1, ∀ i, |W s i - W t i| ≤ H * |s - t| ^ α) :
    let z0 := fun i => v i + scale * start i
    let N := dynNets gelu w layers hidden seq latent z0
    (∀ z i, (1 : ℝ) / 10 ^ 8 < N.sigma z i) →
    ∀ Y, Y 0 = z0 → IsStratonovich N.post (fun i x => N.sigma (fun _ => x) i) W Y →
      ∀ ε > 0, ∃ n0 : ℕ, ∀ n ≥ n0, ∃ z kl, sampleSDE gelu w layers hidden seq latent scale v ⟨start, increments W n⟩ = .ok (z, kl) ∧
        |kl - ∫ t in (0 : ℝ)..1, 1 / 2 * ∑ i, ((N.post (Y t) t i - N.prior (Y t) t i) / N.sigma (Y t) i) ^ 2| ≤ ε := by
  intro z0 N hN Y hY0 hY ε hε
  obtain ⟨K, hK, g', hB⟩ := dynNets_bounds w h0 hidden seq hl
  obtain ⟨B, -⟩ := hB z0
  have hσ : ∀ z i, N.sigma z i = sigmaFn w.diffusion layers hidden (z i) := fun z i => dynNets_sigma _ _ _ _ _ _ _ _ _
  have eg : (fun i x => N.sigma (fun _ => x) i) = fun (_ : Fin (seq * latent)) => sigmaFn w.diffusion layers hidden := by
    funext i x
    exact hσ _ i
  rw [eg] at hY
  have hrate : ∀ t, 1 / 2 * ∑ i, ((N.post (Y t) t i - N.prior (Y t) t i) / N.sigma (Y t) i) ^ 2 = logqp N (Y t) t := fun t =>
    ((C68_partial N hN).1 (Y t) t).symm
  simp only [hrate]
  have hlip : ∃ Q, 0 ≤ Q ∧ ∀ z z' s t, |logqp N z s - logqp N z' t| ≤ Q * (‖z - z'‖ + |s - t|) := by
    by_cases hd : 0 < seq * latent
    · obtain ⟨Q, hQ, h⟩ := logqp_lip w h0 hidden seq hl fun x => by
        have := hN (fun _ => x) ⟨0, hd⟩
        rwa [hσ] at this
      exact ⟨Q, hQ, fun z z' s t => h z0 z z' s t⟩
    · have hd0 : seq * latent = 0 := by omega
      refine ⟨0, le_rfl, fun z z' s t => ?_⟩
      have : ∀ z t, logqp N z t = 0 := by
        intro z t
        have : IsEmpty (Fin (seq * latent)) := by rw [hd0]; infer_instance
        simp [logqp]
      rw [this, this]
      simp
  obtain ⟨Q, hQ, hL⟩ := hlip
  have hYc := stratonovich_continuous hK B hY (hoelder_continuous (by linarith) hW)
  have hℓ : ContinuousOn (fun t => logqp N (Y t) t) (Set.Icc 0 1) := by
    intro t ht
    refine tendsto_iff_norm_sub_tendsto_zero.2 ?_
    have h1 : Tendsto (fun s => Q * (‖Y s - Y t‖ + |s - t|)) (nhdsWithin t (Set.Icc 0 1)) (nhds 0) := by
      have a := tendsto_iff_norm_sub_tendsto_zero.1 (hYc t ht)
      have b : Tendsto (fun s : ℝ => |s - t|) (nhdsWithin t (Set.Icc 0 1)) (nhds 0) := by
        have : Tendsto (fun s : ℝ => |s - t|) (nhds t) (nhds |t - t|) := ((continuous_id.sub continuous_const).abs).tendsto t
        rw [sub_self, abs_zero] at this
        exact this.mono_left nhdsWithin_le_nhds
      simpa using (a.add b).const_mul Q
    exact squeeze_zero (fun _ => norm_nonneg _) (fun s => hL _ _ _ _) h1
  obtain ⟨n1, hn1⟩ := riemann_sum hℓ (half_pos hε)
  obtain ⟨n2, hn2⟩ := path_grid_hoelder hK N hσ B hY hH hα hW (ε := ε / 2 / (Q + 1)) (by positivity)
  refine ⟨max (max n1 n2) 1, fun n hn => ?_⟩
  obtain ⟨Z, -, hs, herr⟩ := hn2 n (((le_max_right _ _).trans (le_max_left _ _)).trans hn)
  have h1 := hn1 n (((le_max_left _ _).trans (le_max_left _ _)).trans hn)
  have hpos : 0 < n := lt_of_lt_of_le one_pos ((le_max_right _ _).trans hn)
  have hnR : (0 : ℝ) < n := by exact_mod_cast hpos
  refine ⟨Z n, ∑ k ∈ range n, (1 / n) * logqp N (Z k) (k / n), ?_, ?_⟩
  · rw [hY0] at hs
    rw [← hs]
    simp only [sampleSDE, mul_one, N, z0]
  · have h2 : |∑ k ∈ range n, (1 / (n : ℝ)) * logqp N (Z k) (k / n) - ∑ k ∈ range n, (1 / (n : ℝ)) * logqp N (Y (k / n)) (k / n)| ≤ ε / 2 := by
      rw [← sum_sub_distrib]
      refine (abs_sum_le_sum_abs _ _).trans ?_
      calc _ ≤ ∑ k ∈ range n, (1 / (n : ℝ)) * (ε / 2) := sum_le_sum fun k hk => ?_
        _ = ε / 2 := by
          rw [sum_const, card_range, nsmul_eq_mul]
          field_simp
      rw [← mul_sub, abs_mul, abs_of_pos (by positivity : (0 : ℝ) < 1 / n)]
      refine mul_le_mul_of_nonneg_left ((hL _ _ _ _).trans ?_) (by positivity)
      have hz : ‖Z k - Y (k / n)‖ ≤ ε / 2 / (Q + 1) := by
        rw [pi_norm_le_iff_of_nonneg (by positivity)]
        exact fun i => herr k (mem_range.1 hk).le i
      rw [sub_self, abs_zero, add_zero]
      calc Q * ‖Z k - Y (k / n)‖ ≤ (Q + 1) * (ε / 2 / (Q + 1)) := mul_le_mul (by linarith) hz (norm_nonneg _) (by linarith)
        _ = ε / 2 := by field_simp
    have e : ∀ a b c : ℝ, a - c = (a - b) + (b - c) := fun a b c => by ring
    rw [e _ (∑ k ∈ range n, (1 / (n : ℝ)) * logqp N (Y (k / n)) (k / n))]
    exact (abs_add_le _ _).trans (by linarith)

theorem sqrt_hoelder {s t : ℝ} (hs : s ∈ Set.Icc (0 : ℝ) 1) (ht : t ∈ Set.Icc (0 : ℝ) 1) :
    |Real.sqrt s - Real.sqrt t| ≤ 1 * |s - t| ^ (1 / 2 : ℝ) := by
  rw [one_mul, ← Real.sqrt_eq_rpow]
  refine abs_le_of_sq_le_sq ?_ (Real.sqrt_nonneg _)
  rw [Real.sq_sqrt (abs_nonneg _)]
  have e1 := Real.sq_sqrt hs.1
  have e2 := Real.sq_sqrt ht.1
  have p1 := Real.sqrt_nonneg s
  have p2 := Real.sqrt_nonneg t
  rcases le_total t s with h | h
  · rw [abs_of_nonneg (by linarith)]
    nlinarith [Real.sqrt_le_sqrt h]
  · rw [abs_of_nonpos (by linarith)]
    nlinarith [Real.sqrt_le_sqrt h]

/-- The default sizes, arbitrary weights, and a path that is not differentiable at `0`. -/
example (w : DynW) (v : Fin (16 * 192) → ℝ) :
    let N := dynNets gelu w 4 32 16 192 v
    ∃ Y, Y 0 = v ∧ IsStratonovich N.post (fun i x => N.sigma (fun _ => x) i) (fun t _ => Real.sqrt t) Y ∧
      ∀ ε > 0, ∃ n0 : ℕ, ∀ n ≥ n0, ∃ z kl,
        sampleSDE gelu w 4 32 16 192 (1 / 10) v ⟨0, increments (fun t _ => Real.sqrt t) n⟩ = .ok (z, kl) ∧ ∀ i, |z i - Y 1 i| ≤ ε := by
  obtain ⟨Y, h1, h2, -, h3⟩ := C110_trajectory w (by norm_num : 0 < 4) 32 16 (by norm_num : 2 ∣ 192) (1 / 10) v 0
    (fun t _ => Real.sqrt t) 1 (1 / 2) zero_le_one (by norm_num) (by norm_num) (fun s hs t ht _ => sqrt_hoelder hs ht)
  simp only [Pi.zero_apply, mul_zero, add_zero] at h1 h2 h3
  exact ⟨Y, h1, h2, h3⟩

/-- With zero weights of the diffusion network the diffusion is one. -/
example (post prior : TransW) (v : Fin (16 * 192) → ℝ) :
    let N := dynNets gelu ⟨post, prior, fun _ => zeroDense⟩ 4 32 16 192 v
    ∃ Y : ℝ → Fin (16 * 192) → ℝ, Y 0 = v ∧ ∀ ε > 0, ∃ n0 : ℕ, ∀ n ≥ n0, ∃ z kl,
      sampleSDE gelu ⟨post, prior, fun _ => zeroDense⟩ 4 32 16 192 (1 / 10) v ⟨0, increments (fun t _ => Real.sqrt t) n⟩ = .ok (z, kl) ∧
        |kl - ∫ t in (0 : ℝ)..1, 1 / 2 * ∑ i, ((N.post (Y t) t i - N.prior (Y t) t i) / N.sigma (Y t) i) ^ 2| ≤ ε := by
  intro N
  obtain ⟨Y, h1, h2, -, -⟩ := C110_trajectory ⟨post, prior, fun _ => zeroDense⟩ (by norm_num : 0 < 4) 32 16 (by norm_num : 2 ∣ 192)
    (1 / 10) v 0 (fun t _ => Real.sqrt t) 1 (1 / 2) zero_le_one (by norm_num) (by norm_num) (fun s hs t ht _ => sqrt_hoelder hs ht)
  have hN : ∀ z i, (1 : ℝ) / 10 ^ 8 < N.sigma z i := by
    intro z i
    have : N.sigma z i = 1 := by
      rw [show N.sigma z i = _ from dynNets_sigma _ _ _ _ _ _ _ _ _]
      simp [sigmaFn, mlpNet, dense, zeroDense]
    rw [this]
    norm_num
  have := C110_kl ⟨post, prior, fun _ => zeroDense⟩ (by norm_num : 0 < 4) 32 16 (by norm_num : 2 ∣ 192) (1 / 10) v 0
    (fun t _ => Real.sqrt t) 1 (1 / 2) zero_le_one (by norm_num) (fun s hs t ht _ => sqrt_hoelder hs ht)
  simp only [Pi.zero_apply, mul_zero, add_zero] at h1 h2 this
  exact ⟨Y, h1, this hN Y h1 h2⟩

end Verif.Niles
