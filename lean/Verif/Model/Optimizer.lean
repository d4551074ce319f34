import Mathlib.Analysis.SpecialFunctions.Pow.NNReal
import Mathlib.Analysis.SpecialFunctions.Sqrt

/-!
# Model of the optimizer of niles/train.py

Numbers are real. `optax.adamw`, `optax.clip_by_global_norm`, `optax.chain` and `TrainState.apply_gradients` are written out from
the documented behaviour of optax and flax. Parameters are a vector; the tree is not modelled.
-/

namespace Verif.Niles

/-- The arguments of the optimizer in `create_train_state` (train.py 525-528). -/
structure OptConfig where
  b1 : ℝ
  b2 : ℝ
  eps : ℝ
  weightDecay : ℝ
  clip : Option ℝ
  lr : ℝ → ℝ

/-- `tx` of `create_train_state` (train.py 525-528) for the values of the configuration. -/
noncomputable def createTx (learningRateFn : ℝ → ℝ) (weightDecay : ℝ) (gradClipNorm : Option ℝ) : OptConfig where
  b1 := 9 / 10
  b2 := 95 / 100
  eps := 1 / 10 ^ 6
  weightDecay := weightDecay
  clip := gradClipNorm
  lr := learningRateFn

/-- The training state: parameters, the moments and the counter of `scale_by_adam`, the counter of `scale_by_schedule`, the step. -/
structure OptState (ι : Type*) where
  params : ι → ℝ
  mu : ι → ℝ
  nu : ι → ℝ
  count : ℕ
  schedule : ℕ
  step : ℕ

/-- `TrainState.create` (train.py 530-533). -/
def createTrainState {ι : Type*} (params : ι → ℝ) : OptState ι := ⟨params, fun _ => 0, fun _ => 0, 0, 0, 0⟩

variable {ι : Type*} [Fintype ι]

/-- `optax.global_norm`. -/
noncomputable def globalNorm (g : ι → ℝ) : ℝ := Real.sqrt (∑ i, g i ^ 2)

/-- `optax.clip_by_global_norm(max_norm)` (train.py 528). -/
noncomputable def clipByGlobalNorm (maxNorm : ℝ) (g : ι → ℝ) : ι → ℝ :=
  if globalNorm g < maxNorm then g else fun i => g i / globalNorm g * maxNorm

/-- The first transformation of the chain, if there is one (train.py 527-528). -/
noncomputable def clipped (c : OptConfig) (g : ι → ℝ) : ι → ℝ :=
  match c.clip with
  | none => g
  | some maxNorm => clipByGlobalNorm maxNorm g

/-- The new first moment of `optax.scale_by_adam`. -/
noncomputable def newMu (c : OptConfig) (mu g : ι → ℝ) : ι → ℝ := fun i => (1 - c.b1) * g i + c.b1 * mu i

/-- The new second moment of `optax.scale_by_adam`. -/
noncomputable def newNu (c : OptConfig) (nu g : ι → ℝ) : ι → ℝ := fun i => (1 - c.b2) * g i ^ 2 + c.b2 * nu i

/-- The direction of `optax.scale_by_adam`: the corrected moments, with the counter after this step. -/
noncomputable def adamDirection (c : OptConfig) (mu nu : ι → ℝ) (count : ℕ) : ι → ℝ := fun i =>
  (mu i / (1 - c.b1 ^ count)) / (Real.sqrt (nu i / (1 - c.b2 ^ count)) + c.eps)

/-- `state.apply_gradients(grads=grads)` (train.py 459): `tx.update`, `optax.apply_updates`. -/
noncomputable def applyGradients (c : OptConfig) (s : OptState ι) (grads : ι → ℝ) : OptState ι :=
  let g := clipped c grads
  let mu := newMu c s.mu g
  let nu := newNu c s.nu g
  let update := fun i => -1 * c.lr s.schedule * (adamDirection c mu nu (s.count + 1) i + c.weightDecay * s.params i)
  ⟨fun i => s.params i + update i, mu, nu, s.count + 1, s.schedule + 1, s.step + 1⟩

/-- Training with a given history of averaged gradients. -/
noncomputable def trainWith (c : OptConfig) (s : OptState ι) (grads : List (ι → ℝ)) : OptState ι := grads.foldl (applyGradients c) s

end Verif.Niles
