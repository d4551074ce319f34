import Mathlib.Algebra.Field.Defs
import Mathlib.Algebra.BigOperators.Group.List.Basic
import Mathlib.Data.Nat.Cast.Defs

/-!
# Model of the logging of niles/train.py (635-668)

The metrics of a step are one number per name; the model is for one name. `get_metrics` stacks the dictionaries of the steps and
keeps the first device (`pmean` has made the devices equal, C89). The clock is exact: `now step` is the value of `time.time()` in
line 665 and `after step` the value in line 668, after the summary has been written.
-/

namespace Verif.Niles

variable {K : Type*} [Field K]

/-- One call of `writer.write_scalars` with a training summary (train.py 657-666). -/
structure LogEntry (K : Type*) where
  step : ℕ
  mean : K
  stepsPerSecond : K
deriving DecidableEq, Repr

/-- `train_metrics`, `train_metrics_last_t` (train.py 635, 639) and the summaries written so far. -/
structure LogState (K : Type*) where
  metrics : List K
  lastT : K
  written : List (LogEntry K)

/-- The logging part of the loop body (train.py 653-668); `every` is `config.log_every_steps`, 0 when it is missing. -/
def logStep (every : ℕ) (metric now after : ℕ → K) (step : ℕ) (s : LogState K) : LogState K :=
  if every = 0 then s
  else
    let metrics := s.metrics ++ [metric step]
    if (step + 1) % every = 0 then
      ⟨[], after step, s.written ++ [⟨step + 1, metrics.sum / metrics.length, every / (now step - s.lastT)⟩]⟩
    else ⟨metrics, s.lastT, s.written⟩

/-- The summaries of a process that starts at the time `start` with `step_offset = offset` and executes `n` steps (train.py 635-645). -/
def logRun (every : ℕ) (metric now after : ℕ → K) (start : K) (offset : ℕ) : ℕ → LogState K
  | 0 => ⟨[], start, []⟩
  | n + 1 => logStep every metric now after (offset + n) (logRun every metric now after start offset n)

end Verif.Niles
