import Verif.Model.Optimizer

/-!
# C159: training does not depend on the scale of the loss

Adam divides the gradients by their size. `C159_partial`: multiplying the loss by `κ` gives the same weights after every number of
steps when `eps` and the norm of the clipping are multiplied by `κ`; so for `eps = 0` without clipping the scale has no effect.
`C159_violated`: with the `eps` of train.py 526 every change of the scale changes the weights in the first step, and for a small
scale training comes to a halt (`C159_small`). `C159_clipped`: with gradients above the norm of the clipping it has no effect.
-/

namespace Verif.Niles

variable {ι : Type*} [Fintype ι]

/-- `n` training steps, where `G k θ` is the gradient of the loss of batch `k` at the weights `θ` (train.py 440-459). -/
noncomputable def descend (c : OptConfig) (G : ℕ → (ι → ℝ) → ι → ℝ) (s : OptState ι) : ℕ → OptState ι
  | 0 => s
  | n + 1 => applyGradients c (descend c G s n) (G n (descend c G s n).params)

/-- The configuration in other units of the loss. -/
noncomputable def OptConfig.rescale (c : OptConfig) (κ : ℝ) : OptConfig := { c with eps := κ * c.eps, clip := c.clip.map (κ * ·) }

theorem globalNorm_smul {κ : ℝ} (hκ : 0 ≤ κ) (g : ι → ℝ) : globalNorm (κ • g) = κ * globalNorm g := by
  unfold globalNorm
  simp only [Pi.smul_apply, smul_eq_mul, mul_pow, ← Finset.mul_sum]
  rw [Real.sqrt_mul (sq_nonneg κ), Real.sqrt_sq hκ]

theorem clipped_rescale (c : OptConfig) {κ : ℝ} (hκ : 0 < κ) (g : ι → ℝ) : clipped (c.rescale κ) (κ • g) = κ • clipped c g := by
  unfold clipped OptConfig.rescale
  cases hc : c.clip with
  | none => rfl
  | some m =>
    simp only [Option.map_some]
    unfold clipByGlobalNorm
    rw [globalNorm_smul hκ.le]
    by_cases h : globalNorm g < m
    · rw [if_pos h, if_pos (mul_lt_mul_of_pos_left h hκ)]
    · rw [if_neg h, if_neg (fun h' => h (lt_of_mul_lt_mul_left h' hκ.le))]
      funext i
      simp only [Pi.smul_apply, smul_eq_mul]
      rw [mul_div_mul_left _ _ hκ.ne']
      ring

/-- The state in other units of the loss: the same weights, the moments multiplied by `κ` and `κ ^ 2`. -/
def OptState.rescale (s : OptState ι) (κ : ℝ) : OptState ι := { s with mu := κ • s.mu, nu := κ ^ 2 • s.nu }

theorem applyGradients_rescale (c : OptConfig) {κ : ℝ} (hκ : 0 < κ) (s : OptState ι) (g : ι → ℝ) :
    applyGradients (c.rescale κ) (s.rescale κ) (κ • g) = (applyGradients c s g).rescale κ := by
  have h1 : newMu (c.rescale κ) (κ • s.mu) (κ • clipped c g) = κ • newMu c s.mu (clipped c g) := by
    funext i
    simp only [newMu, OptConfig.rescale, Pi.smul_apply, smul_eq_mul]
    ring
  have h2 : newNu (c.rescale κ) (κ ^ 2 • s.nu) (κ • clipped c g) = κ ^ 2 • newNu c s.nu (clipped c g) := by
    funext i
    simp only [newNu, OptConfig.rescale, Pi.smul_apply, smul_eq_mul]
    ring
  have h3 : ∀ (mu nu : ι → ℝ) (k : ℕ) (i : ι), adamDirection (c.rescale κ) (κ • mu) (κ ^ 2 • nu) k i = adamDirection c mu nu k i := by
    intro mu nu k i
    simp only [adamDirection, OptConfig.rescale, Pi.smul_apply, smul_eq_mul]
    rw [mul_div_assoc κ, mul_div_assoc (κ ^ 2), Real.sqrt_mul (sq_nonneg κ), Real.sqrt_sq hκ.le, ← mul_add, mul_div_mul_left _ _ hκ.ne']
  unfold applyGradients
  simp only [clipped_rescale c hκ]
  simp only [OptState.rescale]
  rw [h1, h2]
  simp only [h3]
  rfl

/-- Missing: `eps` and the norm of the clipping have to be multiplied as well (`C159_violated`). Then the weights after every number
of steps do not depend on the scale of the loss. -/
theorem C159_partial (c : OptConfig) {κ : ℝ} (hκ : 0 < κ) (G : ℕ → (ι → ℝ) → ι → ℝ) (θ : ι → ℝ) (n : ℕ) :
    (descend { c with eps := κ * c.eps, clip := c.clip.map (κ * ·) } (fun k w => κ • G k w) (createTrainState θ) n).params =
      (descend c G (createTrainState θ) n).params := by
  have h : descend (c.rescale κ) (fun k w => κ • G k w) (createTrainState θ) n = (descend c G (createTrainState θ) n).rescale κ := by
    induction n with
    | zero =>
      simp only [descend, OptState.rescale, createTrainState]
      congr 1 <;> (funext i; simp)
    | succ n ih =>
      simp only [descend]
      rw [ih]
      exact applyGradients_rescale c hκ _ _
  change (descend (c.rescale κ) _ _ n).params = _
  rw [h]
  rfl

/-- Without `eps` and clipping the scale of the loss has no effect. -/
theorem C159_pure (c : OptConfig) (heps : c.eps = 0) (hclip : c.clip = none) {κ : ℝ} (hκ : 0 < κ) (G : ℕ → (ι → ℝ) → ι → ℝ)
    (θ : ι → ℝ) (n : ℕ) :
    (descend c (fun k w => κ • G k w) (createTrainState θ) n).params = (descend c G (createTrainState θ) n).params := by
  have h := C159_partial c hκ G θ n
  rw [heps, mul_zero, hclip, Option.map_none] at h
  have e : ({ c with eps := 0, clip := none } : OptConfig) = c := by
    cases c
    simp only at heps hclip
    subst heps hclip
    rfl
  rwa [e] at h

/-- With gradients that are clipped before and after the change of the scale it has no effect either. -/
theorem C159_clipped (c : OptConfig) {m : ℝ} (hm : c.clip = some m) {κ : ℝ} (hκ : 0 < κ) (G : ℕ → (ι → ℝ) → ι → ℝ)
    (hG : ∀ k w, m ≤ globalNorm (G k w) ∧ m ≤ κ * globalNorm (G k w)) (s : OptState ι) (n : ℕ) :
    descend c (fun k w => κ • G k w) s n = descend c G s n := by
  have h : ∀ k w, clipped c (κ • G k w) = clipped c (G k w) := by
    intro k w
    obtain ⟨h1, h2⟩ := hG k w
    simp only [clipped, hm, clipByGlobalNorm]
    rw [globalNorm_smul hκ.le, if_neg (not_lt.mpr h1), if_neg (not_lt.mpr h2)]
    funext i
    rw [Pi.smul_apply, smul_eq_mul, mul_div_mul_left _ _ hκ.ne']
  induction n with
  | zero => rfl
  | succ n ih =>
    simp only [descend]
    rw [ih]
    unfold applyGradients
    simp only [h]

theorem first_step (c : OptConfig) (h1 : c.b1 ≠ 1) (h2 : c.b2 < 1) (hclip : c.clip = none) (θ g : ι → ℝ) (i : ι) :
    (applyGradients c (createTrainState θ) g).params i = θ i - c.lr 0 * (g i / (|g i| + c.eps) + c.weightDecay * θ i) := by
  have e1 : (1 - c.b1) * g i / (1 - c.b1) = g i := by
    rw [mul_comm, mul_div_assoc, div_self (sub_ne_zero.mpr (Ne.symm h1)), mul_one]
  have e2 : (1 - c.b2) * g i ^ 2 / (1 - c.b2) = g i ^ 2 := by
    rw [mul_comm, mul_div_assoc, div_self (sub_pos.mpr h2).ne', mul_one]
  simp only [applyGradients, createTrainState, clipped, hclip, newMu, newNu, adamDirection, mul_zero, add_zero, zero_add, pow_one, e1, e2,
    Real.sqrt_sq_eq_abs, Nat.cast_zero]
  ring

/-- With the optimizer of train.py every other scale of the loss leads to other weights in the first step: all weights with a gradient
change. -/
theorem C159_violated (lr : ℝ → ℝ) (hlr : lr 0 ≠ 0) (wd : ℝ) {κ : ℝ} (hκ : 0 < κ) (hne : κ ≠ 1) (θ g : ι → ℝ) (i : ι) (hg : g i ≠ 0) :
    (descend (createTx lr wd none) (fun _ _ => κ • g) (createTrainState θ) 1).params i ≠
      (descend (createTx lr wd none) (fun _ _ => g) (createTrainState θ) 1).params i := by
  simp only [descend]
  have hb1 : (createTx lr wd none).b1 ≠ 1 := by norm_num [createTx]
  have hb2 : (createTx lr wd none).b2 < 1 := by norm_num [createTx]
  rw [first_step _ hb1 hb2 rfl, first_step _ hb1 hb2 rfl]
  intro h
  have h' : lr 0 * ((κ • g) i / (|(κ • g) i| + 1 / 10 ^ 6)) = lr 0 * (g i / (|g i| + 1 / 10 ^ 6)) := by
    simp only [createTx] at h
    linarith
  have h2 := mul_left_cancel₀ hlr h'
  have hp : 0 < |g i| := abs_pos.mpr hg
  rw [Pi.smul_apply, smul_eq_mul, abs_mul, abs_of_pos hκ, div_eq_div_iff (by positivity) (by positivity)] at h2
  have h3 : g i * (κ - 1) = 0 := by linarith
  rcases mul_eq_zero.mp h3 with h4 | h4
  · exact hg h4
  · exact hne (by linarith)

/-- For a small scale training comes to a halt: the first step moves a weight without decay by at most `10 ^ 6 * κ * lr * |g|`. -/
theorem C159_small (lr : ℝ → ℝ) {κ : ℝ} (hκ : 0 < κ) (θ g : ι → ℝ) (i : ι) :
    |(descend (createTx lr 0 none) (fun _ _ => κ • g) (createTrainState θ) 1).params i - θ i| ≤ 10 ^ 6 * (κ * (|lr 0| * |g i|)) := by
  simp only [descend]
  rw [first_step _ (by norm_num [createTx]) (by norm_num [createTx]) rfl]
  simp only [createTx, zero_mul, add_zero, Pi.smul_apply, smul_eq_mul, sub_sub_cancel_left, abs_neg, abs_mul, abs_div, abs_of_pos hκ]
  rw [abs_of_nonneg (by positivity : (0 : ℝ) ≤ κ * |g i| + 1 / 10 ^ 6)]
  have h1 : κ * |g i| / (κ * |g i| + 1 / 10 ^ 6) ≤ κ * |g i| / (1 / 10 ^ 6) :=
    div_le_div_of_nonneg_left (by positivity) (by norm_num) (le_add_of_nonneg_left (by positivity))
  refine (mul_le_mul_of_nonneg_left h1 (abs_nonneg _)).trans (le_of_eq ?_)
  ring

/-- Two weights and a loss that depends on them. -/
example (n : ℕ) : (descend { createTx (fun _ => 1 / 1000) (1 / 10) (some 1) with eps := 7 * (1 / 10 ^ 6), clip := some (7 * 1) }
      (fun k (w : Fin 2 → ℝ) => (7 : ℝ) • fun i => 2 * (w i - k)) (createTrainState ![1, 2]) n).params =
    (descend (createTx (fun _ => 1 / 1000) (1 / 10) (some 1)) (fun k (w : Fin 2 → ℝ) i => 2 * (w i - k)) (createTrainState ![1, 2]) n).params :=
  C159_partial (createTx (fun _ => 1 / 1000) (1 / 10) (some 1)) (by norm_num) _ _ n

/-- Gradients that are always clipped. -/
example (k : ℕ) (w : Fin 1 → ℝ) : (1 : ℝ) ≤ globalNorm (fun _ : Fin 1 => |w 0| + k + 2) ∧
    (1 : ℝ) ≤ 1 / 2 * globalNorm (fun _ : Fin 1 => |w 0| + k + 2) := by
  have h : globalNorm (fun _ : Fin 1 => |w 0| + k + 2) = |w 0| + k + 2 := by
    unfold globalNorm
    rw [Fin.sum_univ_one, Real.sqrt_sq (by positivity)]
  have h0 : (0 : ℝ) ≤ |w 0| + k := by positivity
  rw [h]
  constructor <;> linarith

end Verif.Niles
