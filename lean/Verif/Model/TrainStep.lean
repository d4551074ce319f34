import Verif.Model.Rollout

/-!
# Model of one training step on several devices (niles/train.py 352-375, 429-488, 609-611) and of its random keys

`jax.pmap` runs the step on every device; `lax.pmean` is the mean over the devices. The optimizer is an arbitrary function
of the state and the averaged gradient. Keys are terms: `split` and `fold_in` are taken to be free, so that keys are equal
here only when the code forces it.
-/

namespace Verif.Niles

open Verif.Core Verif.NS Verif.Comm

/-- A random key: `PRNGKey(seed)`, entry `i` of `random.split(k, n)`, `random.fold_in(k, i)`. -/
inductive Key
  | root (seed : ℕ)
  | split (k : Key) (n i : ℕ)
  | foldIn (k : Key) (i : ℕ)
deriving DecidableEq, Repr

/-- The key `rng` of `train_and_evaluate` (train.py 552). -/
def rngKey : Key := .root 0

/-- The keys of the network parameters and of the first call in `create_train_state` and `initialized` (train.py 519,
120): `init_key, _ = split(rng)`, then `init_key, z_rng = split(key)`. -/
def initKeys : Key × Key :=
  let key := Key.split rngKey 2 0
  (.split key 2 0, .split key 2 1)

/-- `train_rng` of local device `dev` of process `proc` with `local` devices (train.py 609-610). -/
def trainKey («local» : ℕ) (_proc dev : ℕ) : Key := .split (.split rngKey 2 0) «local» dev

/-- `z_key` of solver step `i` in training step `step` (train.py 434, 219, 229). -/
def zKey («local» : ℕ) (proc dev step i : ℕ) : Key :=
  .foldIn (.split (.foldIn (trainKey «local» proc dev) step) 2 1) i

/-- `prepare_tf_data` (train.py 478-488): the batch of a process in equal parts, one per local device. -/
def shards {α : Type*} («local» : ℕ) (batch : List α) : Except String (List (List α)) :=
  if «local» = 0 ∨ batch.length % «local» ≠ 0 then .error "ValueError: cannot reshape array"
  else .ok ((List.range «local»).map fun d =>
    (batch.drop (d * (batch.length / «local»))).take (batch.length / «local»))

/-- `lax.pmean` over `P` devices. -/
def pmean {K V : Type*} [Field K] [AddCommMonoid V] [SMul K V] {P : ℕ} (g : Fin P → V) : V := (1 / (P : K)) • ∑ d, g d

/-- `train_step` under `pmap` (train.py 429-461): every device differentiates its own loss, the gradients are averaged,
every device updates its own copy of the state. `grad d s b` is the gradient of device `d` (its key). -/
def pTrainStep (K : Type*) {V S B : Type*} [Field K] [AddCommMonoid V] [SMul K V] {P : ℕ} (grad : Fin P → S → B → V)
    (apply : S → V → S) (state : Fin P → S) (batch : Fin P → B) : Fin P → S :=
  fun d => apply (state d) (pmean (K := K) fun e => grad e (state e) (batch e))

/-- The loop over the batches. -/
def pTrain (K : Type*) {V S B : Type*} [Field K] [AddCommMonoid V] [SMul K V] {P : ℕ} (grad : Fin P → S → B → V)
    (apply : S → V → S) : List (Fin P → B) → (Fin P → S) → Fin P → S
  | [], s => s
  | b :: bs, s => pTrain K grad apply bs (pTrainStep K grad apply s b)

/-- Reading an entry of an array with a constant index that is too large: JAX clamps it. -/
def clampGet {K : Type*} (l : List K) (i : ℕ) : Option K := l[min i (l.length - 1)]?

/-- The entries `mse...` of `compute_metrics` in evaluation (train.py 359, 366-371), from the errors of the solver steps. -/
def evalMse {K : Type*} [Field K] (mse : List K) : List (String × Option K) :=
  [("mse", some (meanOf mse)), ("mse@1to8", some (meanOf (mse.take 8))), ("mse@8", clampGet mse (8 - 1)),
   ("mse@16", clampGet mse (16 - 1)), ("mse@32", clampGet mse (32 - 1)), ("mse@64", clampGet mse (64 - 1)),
   ("mse@128", clampGet mse (128 - 1))]

/-- The names of the metrics of `compute_metrics` (train.py 354-371). -/
def metricNames (train : Bool) : List String :=
  ["loss", "kl_q0", "kl_path", "kl", "mse", "z0_means", "z1_means", "z1_stds"] ++
  if train then [] else ["tke_err", "mse@1to8", "mse@8", "mse@16", "mse@32", "mse@64", "mse@128"]

/-- The names that the loop writes (train.py 656-664, 677-681); `train_step` adds two (455-456). -/
def writtenNames : List String :=
  ((metricNames true ++ ["learning_rate", "kl_penalty"]).map ("train_" ++ ·)) ++ ["steps_per_second"] ++
  (metricNames false).map ("eval_" ++ ·)

/-- `metrics()` (niles/config/niles.py 115-135). -/
def configMetrics : List String :=
  ["steps_per_second", "train_learning_rate", "train_kl_penalty", "train_loss", "train_mse", "train_z0_means",
   "train_z1_means", "train_z1_stds", "eval_loss", "eval_mse", "eval_mse@1t08", "eval_mse@8", "eval_mse@16", "eval_mse@32",
   "eval_z0_means", "eval_z1_means", "eval_z1_stds", "eval_tke_err"]

/-- The signature of `Model.__call__` without `self` (transformer.py 476-480). -/
def modelSig {V : Type*} (false_ : V) : List (Param V) :=
  [⟨"inputs", .posOrKw, none⟩, ⟨"z_rng", .posOrKw, none⟩, ⟨"debug", .kwOnly, some false_⟩]

/-- The call in `compute_mse_loss` (train.py 243-245, 251-252): `apply` takes `variables` and `rngs` and passes the other
arguments to `__call__`. -/
def modelCall {V : Type*} (false_ inputs zRng train : V) : Except String (List (String × V)) :=
  bindCall (modelSig false_) [inputs] [("z_rng", zRng), ("train", train)]

/-- The call in `initialized` (train.py 124-126). -/
def initCall {V : Type*} (false_ inputs zRng : V) : Except String (List (String × V)) :=
  bindCall (modelSig false_) [inputs, zRng] []

end Verif.Niles
