import Verif.Model.Premesh
import Verif.Model.Train
import Verif.Model.MultiscalePerm
import Verif.Model.ExchangeFloat

/-! # Integers that are computed in floating point

Sizes and numbers of steps that go through `float` before `int` or `round` is applied: core/premesh.py 91, core/mesh.py 110,
niles/train.py 64, 80, 188, 569, 582, 584. -/

namespace Verif.Core

/-- `Premesh.create` (premesh.py 85-109, the same in mesh.py 104-118) with the functions `flog` and `fexp` that `np.log` and
`np.exp` compute and a rounded division. -/
noncomputable def premeshCreateFl (flog fexp fl : ℝ → ℝ) (nodesPerElement ndim : ℕ) (order : Option ℤ)
    (gridpoints : Option ℕ) : Except String (ℕ × ℤ) :=
  let numPoints : ℕ := match gridpoints with
    | some m => m
    | none => (pyRound (fexp (fl (flog nodesPerElement / ndim)))).toNat
  if nodesPerElement ≠ numPoints ^ ndim then .error "ValueError"
  else .ok (numPoints, match order with
    | some o => o
    | none => (numPoints : ℤ) - 1)

end Verif.Core

namespace Verif.Niles

open Verif.Core

/-- `int(math.sqrt(config.num_nodes))` (train.py 64, 80). -/
noncomputable def gridSizeFl (fl : ℝ → ℝ) (numNodes : ℕ) : ℕ := ⌊fl (Real.sqrt numNodes)⌋₊

/-- `int(size / np.prod(patch_sizes))` (train.py 188): a true division. -/
def patchCountFl (fl : ℚ → ℚ) (size : ℕ) (patchSizes : List ℕ) : ℕ := ⌊fl ((size : ℚ) / (patchSizes.prod : ℕ))⌋₊

/-- `int(steps_per_epoch * epochs)` (train.py 569, 582, 584), where `epochs` is the number written in the configuration. -/
def stepsFl (fl : ℚ → ℚ) (stepsPerEpoch : ℤ) (epochs : ℚ) : ℕ := ⌊fl ((stepsPerEpoch : ℚ) * fl epochs)⌋.toNat

/-- `num_steps`, `steps_per_checkpoint`, `eval_every_steps` (train.py 568-571, 582-584) as they are computed. -/
def TrainConfig.loopFl (fl : ℚ → ℚ) (c : TrainConfig) : LoopConfig where
  numSteps := if c.numTrainSteps ≤ 0 then stepsFl fl c.stepsPerEpoch c.numEpochs else c.numTrainSteps.toNat
  stepsPerCheckpoint := stepsFl fl c.stepsPerEpoch c.checkpointEpochs
  evalEverySteps := stepsFl fl c.stepsPerEpoch c.evalEveryEpochs
  stepsPerEval := c.evalSteps.toNat

end Verif.Niles
