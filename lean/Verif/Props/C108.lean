import Verif.Lemmas.ProcBounds
import Verif.Props.C68

/-!
# C108: trajectories of the processor cannot blow up

`C108_bounded`: for all weights of `Dynamics` (with at least one hidden layer) there is one number that bounds, for all latent
states, all random numbers and all numbers of grid points, how far a trajectory moves relative to the noise it is given, and the
KL term of the path. `C108_noHidden`: without a hidden layer there is no such number.
-/

namespace Verif.Niles

open Finset Verif.SDE

theorem divideNoNan_le {x y a b : ℝ} (hx : |x| ≤ a) (hy : 0 < y) (hb : 1 / y ≤ b) : |divideNoNan x y| ≤ a * b := by
  have ha : 0 ≤ a := (abs_nonneg x).trans hx
  have hb0 : 0 ≤ b := (one_div_pos.2 hy).le.trans hb
  unfold divideNoNan
  split_ifs
  · rw [abs_zero]
    positivity
  · rw [div_eq_mul_one_div, abs_mul, abs_of_pos (one_div_pos.2 hy)]
    exact mul_le_mul hx hb (one_div_pos.2 hy).le ha

/-- The general form: for networks with bounds. -/
theorem path_bounded {n : ℕ} {K : ℝ} (hK : 1 ≤ K) (N : Nets ℝ n) (hpost : ∀ z t i, |N.post z t i| ≤ K)
    (hprior : ∀ z t i, |N.prior z t i| ≤ K) (hpos : ∀ z i, 0 < N.sigma z i) (hinv : ∀ z i, 1 / N.sigma z i ≤ K)
    (hsigma : ∀ z i, N.sigma z i ≤ K) (z0 : Fin n → ℝ) (dw : List (Fin n → ℝ)) (hdw : dw ≠ []) :
    ∃ z kl, samplePath (dynamics N) z0 dw = .ok (z, kl) ∧ (∀ i, |z i - z0 i| ≤ K * (1 + (dw.map fun d => |d i|).sum)) ∧
      0 ≤ kl ∧ kl ≤ 2 * n * K ^ 4 := by
  have hlen : 0 < dw.length := List.length_pos_iff.2 hdw
  have hN : (0 : ℝ) < dw.length := by exact_mod_cast hlen
  have hK0 : 0 ≤ K := by linarith
  obtain ⟨Z, hZ0, hZ, kl, hs, hkl0, hkl⟩ := C68_path N z0 dw hlen
  have hmove : ∀ k ≤ dw.length, ∀ i, |Z k i - z0 i| ≤ K * (k / dw.length + ((dw.take k).map fun d => |d i|).sum) := by
    intro k
    induction k with
    | zero => intro _ i; simp [hZ0]
    | succ k ih =>
      intro hk i
      have hk' : k < dw.length := by omega
      have h1 := ih hk'.le i
      have h2 := hZ k hk' i
      dsimp only at h2
      have hstep : |Z (k + 1) i - Z k i| ≤ K * (1 / dw.length + |dw[k] i|) := by
        rw [h2]
        have e : Z k i + 1 / dw.length * N.post (Z k) (k / dw.length) i + 1 / 2 * (dw[k] i * N.sigma (Z k) i +
            dw[k] i * N.sigma (fun j => Z k j + dw[k] j * N.sigma (Z k) j) i) - Z k i =
            1 / dw.length * N.post (Z k) (k / dw.length) i + dw[k] i * (1 / 2 * (N.sigma (Z k) i +
              N.sigma (fun j => Z k j + dw[k] j * N.sigma (Z k) j) i)) := by ring
        rw [e]
        refine (abs_add_le _ _).trans ?_
        rw [abs_mul, abs_mul, abs_of_pos (by positivity : (0 : ℝ) < 1 / dw.length)]
        have hs1 := hsigma (Z k) i
        have hs2 := hsigma (fun j => Z k j + dw[k] j * N.sigma (Z k) j) i
        have hp1 := hpos (Z k) i
        have hp2 := hpos (fun j => Z k j + dw[k] j * N.sigma (Z k) j) i
        have a1 : 1 / (dw.length : ℝ) * |N.post (Z k) (k / dw.length) i| ≤ 1 / dw.length * K :=
          mul_le_mul_of_nonneg_left (hpost _ _ _) (by positivity)
        have a2 : |dw[k] i| * |1 / 2 * (N.sigma (Z k) i + N.sigma (fun j => Z k j + dw[k] j * N.sigma (Z k) j) i)| ≤ |dw[k] i| * K := by
          refine mul_le_mul_of_nonneg_left ?_ (abs_nonneg _)
          rw [abs_of_pos (by linarith)]
          linarith
        linarith
      have hsum : ((dw.take (k + 1)).map fun d => |d i|).sum = ((dw.take k).map fun d => |d i|).sum + |dw[k] i| := by
        rw [List.take_succ_eq_append_getElem hk', List.map_append, List.sum_append]
        simp
      rw [hsum]
      have e : Z (k + 1) i - z0 i = (Z k i - z0 i) + (Z (k + 1) i - Z k i) := by ring
      rw [e]
      refine (abs_add_le _ _).trans ((add_le_add h1 hstep).trans_eq ?_)
      push_cast
      ring
  refine ⟨_, kl, hs, fun i => ?_, hkl0, ?_⟩
  · have := hmove dw.length le_rfl i
    rwa [List.take_length, div_self hN.ne'] at this
  · have hrate : ∀ z t, logqp N z t ≤ 2 * n * K ^ 4 := by
      intro z t
      have h1 : ∀ i, divideNoNan (N.post z t i - N.prior z t i) (N.sigma z i) ^ 2 ≤ (2 * K * K) ^ 2 := by
        intro i
        rw [← sq_abs]
        refine pow_le_pow_left₀ (abs_nonneg _) (divideNoNan_le ?_ (hpos z i) (hinv z i)) 2
        exact (abs_sub _ _).trans (by linarith [hpost z t i, hprior z t i])
      have h2 := sum_le_sum (s := univ) fun i _ => h1 i
      rw [sum_const, card_univ, Fintype.card_fin, nsmul_eq_mul] at h2
      unfold logqp
      calc _ ≤ 1 / 2 * ((n : ℝ) * (2 * K * K) ^ 2) := mul_le_mul_of_nonneg_left h2 (by norm_num)
        _ = _ := by ring
    rw [hkl]
    calc _ ≤ ∑ k ∈ range dw.length, (1 / dw.length) * (2 * n * K ^ 4) :=
          sum_le_sum fun k _ => mul_le_mul_of_nonneg_left (hrate _ _) (by positivity)
      _ = _ := by
        rw [sum_const, card_range, nsmul_eq_mul]
        field_simp

/-- For all weights there is a number that bounds all trajectories of the processor: for all latent states, scales, random
numbers and numbers of grid points, the trajectory exists, its distance from the initial state is at most the bound times one
plus the sum of the absolute increments of the noise of that coordinate, and the KL term is at most the bound. -/
theorem C108_bounded (w : DynW) {layers : ℕ} (h0 : 0 < layers) (hidden seq : ℕ) {latent : ℕ} (hl : 2 ∣ latent) :
    ∃ K : ℝ, ∀ (scale : ℝ) (v : Fin (seq * latent) → ℝ) (ν : SampleNoise (seq * latent)), ν.dw ≠ [] →
      ∃ z kl, sampleSDE gelu w layers hidden seq latent scale v ν = .ok (z, kl) ∧
        (∀ i, |z i - (v i + scale * ν.start i)| ≤ K * (1 + (ν.dw.map fun d => |d i|).sum)) ∧ 0 ≤ kl ∧ kl ≤ K := by
  obtain ⟨K, hK, g', hB⟩ := dynNets_bounds w h0 hidden seq hl
  refine ⟨K + 2 * (seq * latent : ℕ) * K ^ 4, fun scale v ν hν => ?_⟩
  obtain ⟨B, hprior⟩ := hB fun i => v i + scale * 1 * ν.start i
  have hs : ∀ z i, (dynNets gelu w layers hidden seq latent fun i => v i + scale * 1 * ν.start i).sigma z i =
      sigmaFn w.diffusion layers hidden (z i) := fun z i => dynNets_sigma _ _ _ _ _ _ _ _ _
  obtain ⟨z, kl, h1, h2, h3, h4⟩ := path_bounded hK (dynNets gelu w layers hidden seq latent fun i => v i + scale * 1 * ν.start i)
    B.drift hprior (fun z i => by rw [hs]; exact (B.diffusion i).pos hK _) (fun z i => by rw [hs]; exact (B.diffusion i).inv_le hK _)
    (fun z i => by rw [hs]; exact (B.diffusion i).upper _) (fun i => v i + scale * 1 * ν.start i) ν.dw hν
  have hq : 0 ≤ 2 * ((seq * latent : ℕ) : ℝ) * K ^ 4 := by positivity
  refine ⟨z, kl, h1, fun i => ?_, h3, h4.trans (by linarith)⟩
  have hsum : 0 ≤ (ν.dw.map fun d => |d i|).sum := List.sum_nonneg (by
    intro x hx
    obtain ⟨d, -, rfl⟩ := List.mem_map.1 hx
    exact abs_nonneg _)
  have := h2 i
  rw [mul_one] at this
  exact this.trans (mul_le_mul_of_nonneg_right (by linarith) (by linarith))

/-- The default sizes of the processor (four hidden layers of 32 features, latent dimension 192) with 16 tokens. -/
example (w : DynW) : ∃ K : ℝ, ∀ (v : Fin (16 * 192) → ℝ) (ν : SampleNoise (16 * 192)), ν.dw.length = 16 →
    ∃ z kl, sampleSDE gelu w 4 32 16 192 (1 / 10) v ν = .ok (z, kl) ∧
      (∀ i, |z i - (v i + 1 / 10 * ν.start i)| ≤ K * (1 + (ν.dw.map fun d => |d i|).sum)) ∧ 0 ≤ kl ∧ kl ≤ K := by
  obtain ⟨K, hK⟩ := C108_bounded w (by norm_num : 0 < 4) 32 16 (by norm_num : 2 ∣ 192)
  exact ⟨K, fun v ν hν => hK (1 / 10) v ν (by intro h; rw [h] at hν; simp at hν)⟩

/-! ## Without a hidden layer -/

/-- The weights zero. -/
def zeroDense : DenseW := ⟨fun _ _ => 0, fun _ => 0⟩

/-- All weights of the transformer zero. -/
def zeroTrans : TransW where
  blocks _ := ⟨⟨fun _ => 0, fun _ => 0⟩, ⟨zeroDense, zeroDense, zeroDense, zeroDense⟩, ⟨fun _ => 0, fun _ => 0⟩, ⟨zeroDense, zeroDense⟩⟩
  norm := ⟨fun _ => 0, fun _ => 0⟩
  patches := zeroDense

/-- Without a hidden layer the diffusion is the exponential of an affine function of the state, and no number bounds the
trajectories: with the weight one the noise `1` moves the state by more than any multiple of it. -/
theorem C108_noHidden : ¬ ∃ K : ℝ, ∀ (v : Fin (1 * 2) → ℝ) (ν : SampleNoise (1 * 2)), ν.dw ≠ [] →
    ∀ z kl, sampleSDE gelu ⟨zeroTrans, zeroTrans, fun _ => ⟨fun _ _ => 1, fun _ => 0⟩⟩ 0 32 1 2 0 v ν = .ok (z, kl) →
      ∀ i, |z i - (v i + 0 * ν.start i)| ≤ K * (1 + (ν.dw.map fun d => |d i|).sum) := by
  rintro ⟨K, h⟩
  obtain ⟨x, hx⟩ : ∃ x : ℝ, x = 4 * |K| + 1 := ⟨_, rfl⟩
  have h1 := h (fun _ => x) ⟨fun _ => 0, [fun _ => 1]⟩ (by simp)
  obtain ⟨Z, hZ0, hZ, kl, hs, -, -⟩ := C68_path (dynNets gelu ⟨zeroTrans, zeroTrans, fun _ => ⟨fun _ _ => 1, fun _ => 0⟩⟩ 0 32 1 2
    fun i => x + 0 * 1 * 0) (fun _ => x + 0 * 1 * 0) [fun _ => 1] (by simp)
  have h2 := h1 (Z 1) kl (by exact hs) 0
  have h3 := hZ 0 (by simp) 0
  simp only [dynNets_sigma] at h3
  have hpost : ∀ z t, (dynNets gelu ⟨zeroTrans, zeroTrans, fun _ => ⟨fun _ _ => 1, fun _ => 0⟩⟩ 0 32 1 2
      fun i => x + 0 * 1 * 0).post z t 0 = 0 := by
    intro z t
    simp [dynNets, transformerBlockT, enc1DLayersT, driftOf, dense, zeroTrans, zeroDense]
  rw [hpost] at h3
  have hsig : ∀ y, sigmaFn (fun _ => (⟨fun _ _ => 1, fun _ => 0⟩ : DenseW)) 0 32 y = Real.exp y := by
    intro y
    simp [sigmaFn, mlpNet, dense]
  simp only [hsig, hZ0] at h3
  have h4 := Real.add_one_le_exp x
  have h5 : 0 < Real.exp (x + 0 * 1 * 0 + 1 * Real.exp (x + 0 * 1 * 0)) := Real.exp_pos _
  have h6 : Z 1 0 - (x + 0 * 0) ≥ 1 / 2 * (x + 1) := by
    have : Z 1 0 = Z (0 + 1) 0 := rfl
    rw [this, h3]
    simp only [mul_zero, add_zero, List.getElem_cons_zero, one_mul] at h5 ⊢
    linarith
  have h7 := (le_abs_self _).trans h2
  simp at h7 h6
  have := le_abs_self K
  have := abs_nonneg K
  linarith

end Verif.Niles
