import Mathlib.Analysis.SpecialFunctions.Trigonometric.Basic

/-!
# Model of the schedules of niles/train.py

Numbers are real. `optax.linear_schedule`, `optax.cosine_decay_schedule` (with `alpha = 0`, `exponent = 1`),
`optax.constant_schedule` and `optax.join_schedules` are written out from the documented behaviour of optax.
-/

namespace Verif.Niles

/-- `optax.linear_schedule(init_value, end_value, transition_steps)`: constant `init_value` if `transition_steps <= 0`. -/
noncomputable def linearSchedule (init end_ T count : ℝ) : ℝ :=
  if T ≤ 0 then init
  else
    let c := max 0 (min count T)
    (init - end_) * (1 - c / T) + end_

/-- `optax.cosine_decay_schedule(init_value, decay_steps)` for positive `decay_steps`. -/
noncomputable def cosineSchedule (init T count : ℝ) : ℝ :=
  init * (0.5 * (1 + Real.cos (Real.pi * min count T / T)))

/-- `optax.join_schedules([f, g], [boundary])`. -/
noncomputable def joinSchedules (f g : ℝ → ℝ) (boundary step : ℝ) : ℝ :=
  if step < boundary then f step else g (step - boundary)

/-- The fields of the configuration used by the schedules. -/
structure ScheduleConfig where
  numEpochs : ℝ
  warmupEpochs : ℝ
  klPenalty : ℝ
  klTransitionEpochs : ℝ
  klZeroEpochs : ℝ

/-- `create_learning_rate_fn` (train.py 395-410); `none` is the `ValueError` of `cosine_decay_schedule` for a
non-positive number of decay steps. -/
noncomputable def learningRateFn (config : ScheduleConfig) (base stepsPerEpoch : ℝ) : Option (ℝ → ℝ) :=
  let warmup := linearSchedule 0 base (config.warmupEpochs * stepsPerEpoch)
  let cosineEpochs := max (config.numEpochs - config.warmupEpochs) 1
  if cosineEpochs * stepsPerEpoch > 0 then
    some (joinSchedules warmup (cosineSchedule base (cosineEpochs * stepsPerEpoch))
      (config.warmupEpochs * stepsPerEpoch))
  else none

/-- `create_updown_learning_rate_fn` (train.py 378-392). -/
noncomputable def updownLearningRateFn (config : ScheduleConfig) (base stepsPerEpoch : ℝ) : ℝ → ℝ :=
  joinSchedules (linearSchedule 0 base (config.warmupEpochs * stepsPerEpoch))
    (linearSchedule base 0 (config.warmupEpochs * stepsPerEpoch)) (config.warmupEpochs * stepsPerEpoch)

/-- `create_kl_penalty_fn` (train.py 413-426). -/
noncomputable def klPenaltyFn (config : ScheduleConfig) (stepsPerEpoch : ℝ) : ℝ → ℝ :=
  joinSchedules (fun _ => 0) (linearSchedule 0 config.klPenalty (config.klTransitionEpochs * stepsPerEpoch))
    (config.klZeroEpochs * stepsPerEpoch)

end Verif.Niles
