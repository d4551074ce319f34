import Verif.Model.Rollout

/-!
# Model of the pushforward steps of niles/train.py (243-249)

`jax.lax.stop_gradient` keeps the value of its argument and makes it a constant for `jax.grad`. The gradient of the training
loss at the weights `θ₀` is the derivative at `θ₀` of a function of `θ` in which every argument of `stop_gradient` has its value
from the run with `θ₀`. Only the network outputs are stopped; the KL terms of the same call are not.
-/

namespace Verif.Niles

open Verif.Core Verif.NS

variable {K : Type*} [Field K] [LinearOrder K]

/-- The network as `jax.grad` sees it (train.py 242-249): in the first `k` steps its tokens are constants. With `k = 0` the
branch with `stop_gradient` is left out. -/
def stopNet (k : ℕ) (frozen : ℕ → List (List K)) (net : Closure K) : Closure K :=
  fun i ts => if i < k then (frozen i, (net i ts).2) else net i ts

/-- The tokens that the network returns in each step of `lax.scan(body_fn, ...)` (train.py 227-249, 292-293). -/
def scanOutputs (low : Nodes1D K) (wave : K → K) (c : SolverConfig K) (sem : StokesSEM K 2) (net : Closure K) :
    ℕ → Carry K → List (List (List K))
  | 0, _ => []
  | n + 1, s =>
    match s.us.getLast? with
    | none => []
    | some ul =>
      match permuteIf c.permuteElements elementPerm (tokens sem.vspace.mesh ul) with
      | .error _ => []
      | .ok inputs =>
        (net s.i inputs).1 ::
          match bodyFn low wave c sem net s with
          | .error _ => []
          | .ok (s', _) => scanOutputs low wave c sem net n s'

/-- The outputs of a rollout (train.py 208-217, 282-293). -/
def rolloutOutputs (low : Nodes1D K) (wave : K → K) (c : SolverConfig K) (sem : StokesSEM K 2) (net : Closure K) (n : ℕ)
    (ex : Example K) : List (List (List K)) :=
  scanOutputs low wave c sem net n
    ⟨0, ex.u.take c.timeOrder, ex.p.take c.timeOrder, (ex.u.take c.timeOrder).map sem.C, 0, 0⟩

/-- The example with number `b`. -/
def exampleAt (batch : List (Example K)) (b : ℕ) : Example K := batch.getD b ⟨[], []⟩

/-- `compute_mse_loss` with `train=True` (train.py 196-349) as `jax.value_and_grad` at the weights `θ₀` sees it, as a function
of the weights `θ` (train.py 444-447); `k` is `config.num_pushforward_steps`. -/
def trainLoss {Θ : Type*} (low : Nodes1D K) (wave : K → K) (c : SolverConfig K) (sem : StokesSEM K 2) (nets : Θ → ℕ → Closure K)
    (klPenalty : K) (n k : ℕ) (batch : List (Example K)) (θ₀ θ : Θ) : Except String (K × List K) :=
  computeLoss low wave c sem
    (fun b => stopNet k (fun i => (rolloutOutputs low wave c sem (nets θ₀ b) n (exampleAt batch b)).getD i []) (nets θ b))
    klPenalty n batch

end Verif.Niles
