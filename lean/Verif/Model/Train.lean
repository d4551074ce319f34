import Verif.Model.InputPipeline
import Mathlib.Data.Rat.Floor

/-!
# Model of the training loop of niles/train.py

The loop (train.py 645-684) is a transition system: a process starts by restoring the latest checkpoint, executes the
phases train, evaluate, save of every iteration, and may be killed between any two phases; the next process starts again.
Files survive a crash, everything else is lost. The training state is the step counter and the rest (`S`: parameters and
optimizer state); `update step s batch` is `train_step` (train.py 429-461), which depends on the step through the random
key and the schedules. The input iterator yields `stream 0`, `stream 1`, ... in every process: the pipeline is created
anew, with seed 0 (train.py 558, input_pipeline.py 154). Evaluation does not change the state. `flax`'s
`save_checkpoint` is atomic, refuses a step not larger than the latest one, and keeps the newest 50 (train.py 503-507);
`restore_checkpoint` reads the checkpoint with the largest step (train.py 499-500).
-/

namespace Verif.Niles

/-- The settings of the loop (train.py 561-585). -/
structure LoopConfig where
  numSteps : ℕ
  stepsPerCheckpoint : ℕ
  evalEverySteps : ℕ
  stepsPerEval : ℕ
deriving DecidableEq, Repr

/-- The configuration fields from which they are computed. -/
structure TrainConfig where
  batchSize : ℕ
  windowSize : ℕ
  windowStride : ℕ
  debug : Bool
  numTrainSteps : ℤ
  numEpochs : ℚ
  checkpointEpochs : ℚ
  evalEveryEpochs : ℚ
  stepsPerEval : ℤ

/-- `steps_per_epoch` (train.py 561-567), for a positive batch size. -/
def TrainConfig.stepsPerEpoch (c : TrainConfig) : ℤ :=
  getNumExamples .train c.windowSize c.windowStride c.debug / (c.batchSize : ℤ)

/-- `steps_per_eval` (train.py 573-580). -/
def TrainConfig.evalSteps (c : TrainConfig) : ℤ :=
  if c.stepsPerEval = -1 then
    let numValidationExamples : ℤ := (numSplitExamples .validation : ℤ) / (c.batchSize : ℤ)
    numValidationExamples / (c.batchSize : ℤ)
  else c.stepsPerEval

/-- `num_steps`, `steps_per_checkpoint`, `eval_every_steps` (train.py 568-571, 582-584); `int()` of a non-negative number is its
integral part, `range` of a negative number is empty. -/
def TrainConfig.loop (c : TrainConfig) : LoopConfig where
  numSteps := if c.numTrainSteps ≤ 0 then ⌊(c.stepsPerEpoch : ℚ) * c.numEpochs⌋.toNat else c.numTrainSteps.toNat
  stepsPerCheckpoint := ⌊(c.stepsPerEpoch : ℚ) * c.checkpointEpochs⌋.toNat
  evalEverySteps := ⌊(c.stepsPerEpoch : ℚ) * c.evalEveryEpochs⌋.toNat
  stepsPerEval := c.evalSteps.toNat

/-- `TrainState`: `state.step` and the rest. -/
structure TState (S : Type*) where
  step : ℕ
  params : S
deriving DecidableEq, Repr

/-- Where a process is: about to train, to evaluate, to save; finished; or stopped by an exception. -/
inductive Phase
  | train
  | eval
  | save
  | done
  | failed
deriving DecidableEq, Repr

/-- A running process: the loop variable `step`, the number of batches drawn so far, the training state and the loop
variables of the steps executed by this process. -/
structure Proc (S : Type*) where
  phase : Phase
  step : ℕ
  drawn : ℕ
  state : TState S
  executed : List ℕ
deriving DecidableEq, Repr

/-- The checkpoints on disk, newest first, and the process, if one is running. -/
structure Sys (S : Type*) where
  disk : List (TState S)
  proc : Option (Proc S)
deriving DecidableEq, Repr

variable {S B : Type*}

/-- The head of the loop `for step, batch in zip(range(step_offset, num_steps), train_iter)` (train.py 645). -/
def nextPhase (cfg : LoopConfig) (step : ℕ) : Phase := if step < cfg.numSteps then .train else .done

/-- Start of a process (train.py 598-605): restore, or the initial state, then the loop head. -/
def startProc (cfg : LoopConfig) (init : TState S) (disk : List (TState S)) : Proc S :=
  let state := disk.headD init
  ⟨nextPhase cfg state.step, state.step, 0, state, []⟩

/-- `save_checkpoint` (train.py 503-507). `none` is the error of `flax` for a step that is not the newest. -/
def saveCheckpoint (disk : List (TState S)) (state : TState S) : Option (List (TState S)) :=
  match disk with
  | [] => some [state]
  | c :: cs => if state.step ≤ c.step then none else some ((state :: c :: cs).take 50)

/-- One phase of the loop body (train.py 646-684). `%` by zero raises `ZeroDivisionError`; an evaluation without batches
raises `TypeError` (`get_metrics([])`, train.py 677: `tree_map` without a tree). -/
def tick (cfg : LoopConfig) (update : ℕ → S → B → S) (stream : ℕ → B) (disk : List (TState S)) (p : Proc S) :
    List (TState S) × Proc S :=
  match p.phase with
  | .train =>
    (disk, { p with
      phase := .eval
      drawn := p.drawn + 1
      state := ⟨p.state.step + 1, update p.state.step p.state.params (stream p.drawn)⟩
      executed := p.executed ++ [p.step] })
  | .eval =>
    if cfg.evalEverySteps = 0 then (disk, { p with phase := .failed })
    else if (p.step + 1) % cfg.evalEverySteps = 0 ∧ cfg.stepsPerEval = 0 then (disk, { p with phase := .failed })
    else (disk, { p with phase := .save })
  | .save =>
    if cfg.stepsPerCheckpoint = 0 then (disk, { p with phase := .failed })
    else if (p.step + 1) % cfg.stepsPerCheckpoint = 0 ∨ p.step + 1 = cfg.numSteps then
      match saveCheckpoint disk p.state with
      | none => (disk, { p with phase := .failed })
      | some disk' => (disk', { p with phase := nextPhase cfg (p.step + 1), step := p.step + 1 })
    else (disk, { p with phase := nextPhase cfg (p.step + 1), step := p.step + 1 })
  | .done => (disk, p)
  | .failed => (disk, p)

/-- The executions: start of a process, one phase, a crash at any moment. -/
inductive SysStep (cfg : LoopConfig) (update : ℕ → S → B → S) (stream : ℕ → B) (init : TState S) :
    Sys S → Sys S → Prop
  | start (disk) : SysStep cfg update stream init ⟨disk, none⟩ ⟨disk, some (startProc cfg init disk)⟩
  | tick (disk p) : SysStep cfg update stream init ⟨disk, some p⟩
      ⟨(tick cfg update stream disk p).1, some (tick cfg update stream disk p).2⟩
  | crash (disk p) : SysStep cfg update stream init ⟨disk, some p⟩ ⟨disk, none⟩

/-- `n` phases without a crash. -/
def ticks (cfg : LoopConfig) (update : ℕ → S → B → S) (stream : ℕ → B) : ℕ → List (TState S) × Proc S →
    List (TState S) × Proc S
  | 0, s => s
  | n + 1, s => ticks cfg update stream n (tick cfg update stream s.1 s.2)

end Verif.Niles
