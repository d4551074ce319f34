import Verif.Model.SDE
import Mathlib.Algebra.BigOperators.Fin
import Mathlib.Analysis.SpecialFunctions.Log.Basic

/-!
# Model of the latent SDE of niles/transformer.py

The networks for the drifts and the diffusion are arbitrary functions; the state of one trajectory is the latent vector
(all tokens, `n` numbers) and the accumulated KL term. The random numbers are arguments.
-/

namespace Verif.SDE

variable {K : Type*} [Field K] [LinearOrder K] {n : ℕ}

/-- `_divide_no_nan` (transformer.py 571-573); `jnp.isclose(y, 0)` is `|y| <= 1e-8`. -/
def divideNoNan (x y : K) : K := if |y| ≤ 1 / 10 ^ 8 then 0 else x / y

/-- The three networks of `Dynamics` (transformer.py 745-761) and `VariationalDriftDiffusion` (685-689), with the context
of the trajectory inserted. -/
structure Nets (K : Type*) (n : ℕ) where
  post : (Fin n → K) → K → Fin n → K
  prior : (Fin n → K) → K → Fin n → K
  sigma : (Fin n → K) → Fin n → K

/-- The KL rate `logqp` (transformer.py 691-693, 763-764). -/
def logqp (N : Nets K n) (z : Fin n → K) (t : K) : K :=
  (1 / 2) * ∑ i, divideNoNan (N.post z t i - N.prior z t i) (N.sigma z i) ^ 2

/-- `Dynamics.__call__` (transformer.py 725-778): drift and diffusion of the state and the KL term. -/
def dynamics (N : Nets K n) (s : (Fin n → K) × K) (t : K) (dw : Fin n → K) :
    ((Fin n → K) × K) × ((Fin n → K) × K) :=
  ((N.post s.1 t, logqp N s.1 t), (fun i => dw i * N.sigma s.1 i, 0))

/-- `VariationalDriftDiffusion.__call__` (transformer.py 676-701): the diffusion is computed and then replaced by zeros
(700). -/
def variational (N : Nets K n) (s : (Fin n → K) × K) (t : K) (dw : Fin n → K) :
    ((Fin n → K) × K) × ((Fin n → K) × K) :=
  let aug := dynamics N s t dw
  (aug.1, 0 * aug.2.1, 0 * aug.2.2)

/-- One trajectory of `sample_sde` (transformer.py 914-930) and of `sample` (840-860): the latent state at time one and
the KL term of the path. -/
def samplePath (f : (Fin n → K) × K → K → (Fin n → K) → ((Fin n → K) × K) × ((Fin n → K) × K)) (z0 : Fin n → K)
    (dw : List (Fin n → K)) : Except SDEError ((Fin n → K) × K) :=
  match sdeint f (z0, 0) [0, 1] dw with
  | .error e => .error e
  | .ok ys => match ys with
    | [y] => .ok y
    | _ => .error .index

/-- `distrax.MultivariateNormalDiag(mq, sq).kl_divergence(MultivariateNormalDiag(mp, sp))` by its formula
(transformer.py 908, 1000). -/
noncomputable def klDiag (mq sq mp sp : Fin n → ℝ) : ℝ :=
  ∑ i, (Real.log (sp i / sq i) + (sq i ^ 2 + (mq i - mp i) ^ 2) / (2 * sp i ^ 2) - 1 / 2)

/-- `kl_q0` of `sample_sde` (transformer.py 894-908). -/
noncomputable def klQ0 (z0 : Fin n → ℝ) (priorScale : ℝ) : ℝ :=
  klDiag z0 (fun _ => priorScale * 1) (fun _ => 0) (fun _ => priorScale * 1)

end Verif.SDE
