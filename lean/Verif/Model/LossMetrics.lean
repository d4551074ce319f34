import Mathlib.Data.Real.Basic
import Mathlib.Algebra.BigOperators.Fin

/-!
# Model of the auxiliary values of the network and of the logged training metrics

niles/transformer.py 564-568, 956-978 and niles/train.py 269-315, 338-349, 352-376, 638-648. Exact real arithmetic. The latent
states, the divergences and the predictions are given; what is modelled is how they are collected over the solver steps, the
examples, the devices and the training steps between two summaries. Batches, devices and training steps are not empty: their
numbers are `b + 1`, `d + 1` and `w + 1`.
-/

namespace Verif.Niles

/-- The keys of `aux`. -/
inductive AuxKey
  | klPath
  | klQ0
  | z0Means
  | z1Means
  | z1Stds
  deriving DecidableEq

/-- What the latent SDE computes for one example: the states `z0` (all latent coordinates) and `z1` (samples and
coordinates), the divergence of the initial state and those of the paths of the samples. -/
structure LatentValues where
  coords : ℕ
  samples : ℕ
  z0 : Fin (coords + 1) → ℝ
  z1 : Fin (samples + 1) → Fin (coords + 1) → ℝ
  klQ0 : ℝ
  klPath : Fin (samples + 1) → ℝ

/-- `aux` of `LatentSDE.__call__` (transformer.py 962-976), per example. The entry `z1_stds` is commented out. -/
noncomputable def latentAux {b : ℕ} (v : Fin (b + 1) → LatentValues) : AuxKey → Option (Fin (b + 1) → ℝ)
  | .klQ0 => some fun e => (v e).klQ0
  | .klPath => some fun e => (∑ s, (v e).klPath s) / ((v e).samples + 1)
  | .z0Means => some fun e => (∑ c, (v e).z0 c) / ((v e).coords + 1)
  | .z1Means => some fun e => (∑ s, ∑ c, (v e).z1 s c) / (((v e).samples + 1) * ((v e).coords + 1))
  | .z1Stds => none

/-- `Model.__call__` fills the missing entries with zeros (transformer.py 564-566). -/
def fillAux {b : ℕ} (aux : AuxKey → Option (Fin (b + 1) → ℝ)) : AuxKey → Fin (b + 1) → ℝ := fun k => (aux k).getD fun _ => 0

/-- `updated_aux` (train.py 269-274): the divergences are added, the other entries replaced. -/
def updateAux {b : ℕ} (prev aux : AuxKey → Fin (b + 1) → ℝ) : AuxKey → Fin (b + 1) → ℝ
  | .klPath => fun e => aux .klPath e + prev .klPath e
  | .klQ0 => fun e => aux .klQ0 e + prev .klQ0 e
  | k => aux k

/-- `aux` after the scan over the solver steps (train.py 283-294), one list entry per solver step. -/
noncomputable def scanAux {b : ℕ} (steps : List (Fin (b + 1) → LatentValues)) : AuxKey → Fin (b + 1) → ℝ :=
  steps.foldl (fun prev v => updateAux prev (fillAux (latentAux v))) fun _ _ => 0

/-- Mean over the examples of the batch of a device. -/
noncomputable def batchMean {b : ℕ} (f : Fin (b + 1) → ℝ) : ℝ := (∑ e, f e) / (b + 1)

/-- What a device sees in a training step: the latent values of each solver step, the predictions and targets by example,
solver step, node and coordinate, and the weight of the divergence. -/
structure DeviceStep (b t nodes dim : ℕ) where
  latent : Fin (t + 1) → Fin (b + 1) → LatentValues
  preds : Fin (b + 1) → Fin (t + 1) → Fin nodes → Fin dim → ℝ
  targets : Fin (b + 1) → Fin (t + 1) → Fin nodes → Fin dim → ℝ
  penalty : ℝ

/-- The metrics (train.py 352-363). -/
structure LossMetrics where
  loss : ℝ
  klQ0 : ℝ
  klPath : ℝ
  kl : ℝ
  mse : ℝ
  z0Means : ℝ
  z1Means : ℝ
  z1Stds : ℝ
  klPenalty : ℝ

variable {b t nodes dim : ℕ}

/-- `mse` by solver step (train.py 308-310): `optax.l2_loss` is half the square of the difference. -/
noncomputable def stepMse (s : DeviceStep b t nodes dim) (i : Fin (t + 1)) : ℝ :=
  batchMean fun e => ∑ n, ∑ k, (1 / 2) * (s.preds e i n k - s.targets e i n k) ^ 2

/-- `compute_mse_loss` (train.py 308-349) and `compute_metrics` before the mean over the devices (352-363). -/
noncomputable def deviceMetrics (s : DeviceStep b t nodes dim) : LossMetrics :=
  let aux := scanAux (List.ofFn s.latent)
  let klQ0 := batchMean (aux .klQ0)
  let klPath := batchMean (aux .klPath)
  let kl := klQ0 + klPath
  { loss := (∑ i, stepMse s i) + s.penalty * kl
    klQ0 := klQ0
    klPath := klPath
    kl := s.penalty * kl
    mse := (∑ i, stepMse s i) / (t + 1)
    z0Means := batchMean fun e => |aux .z0Means e|
    z1Means := batchMean fun e => |aux .z1Means e|
    z1Stds := batchMean fun e => |aux .z1Stds e|
    klPenalty := s.penalty }

/-- The mean of a field of the metrics over the devices (`lax.pmean`, train.py 375) and over the training steps since the
last summary (train.py 638-646). -/
noncomputable def logged {d w : ℕ} (run : Fin (w + 1) → Fin (d + 1) → DeviceStep b t nodes dim) (field : LossMetrics → ℝ) : ℝ :=
  (∑ j, (∑ p, field (deviceMetrics (run j p))) / (d + 1)) / (w + 1)

end Verif.Niles
