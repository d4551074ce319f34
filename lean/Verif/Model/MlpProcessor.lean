import Verif.Model.Processor

/-!
# Model of the second version of the processor of niles/transformer.py

`LatentSDE` with `use_transformer=False`: encoder, drifts, diffusion and decoder are `MLP`s. The weights are arbitrary, the layers
enter through their documented formulas as in `Verif.Model.Network`, the random numbers are arguments. One example at a time: all
layers act along the last axis and the trajectories are `vmap`ped (transformer.py 860).
-/

namespace Verif.Niles

open Finset Verif.SDE

/-- A vector as a tensor with one token. -/
noncomputable def vecTensor {n : ℕ} (v : Fin n → ℝ) : Tensor := ⟨⟨1, 1, n⟩, fun _ _ c => entry v c⟩

/-- `MLP` applied to a vector (transformer.py 585-607). -/
noncomputable def mlpVec (act final : ℝ → ℝ) (w : ℕ → DenseW) (features : List ℕ) {n : ℕ} (v : Fin n → ℝ) (c : ℕ) : ℝ :=
  (mlpNet act final w 0 features (vecTensor v)).val 0 0 c

/-- The sizes in `processor_config` (transformer.py 785-812). -/
structure MlpSizes where
  hidden : ℕ
  layers : ℕ
  sdeLayers : ℕ
  latent : ℕ
  context : ℕ
  data : ℕ

/-- The weights of `LatentSDE` with `use_transformer=False`; there is one diffusion network for every latent coordinate. -/
structure MlpSDEW where
  encoder : ℕ → DenseW
  decoder : ℕ → DenseW
  prior : ℕ → DenseW
  post : ℕ → DenseW
  diffusion : ℕ → ℕ → DenseW

/-- `Drift.__call__` (transformer.py 614-627): `gelu` inside, `tanh` at the end. With a context the input is longer. -/
noncomputable def driftNet (w : ℕ → DenseW) (features : List ℕ) {n : ℕ} (v : Fin n → ℝ) : ℕ → ℝ :=
  mlpVec gelu Real.tanh w features v

/-- `Diffusion.__call__` (transformer.py 635-654): coordinate `i` has its own network and its own input. -/
noncomputable def diffusionNet (w : ℕ → ℕ → DenseW) (features : List ℕ) {n : ℕ} (v : Fin n → ℝ) (i : Fin n) : ℝ :=
  mlpVec gelu Real.exp (w i) features (fun _ : Fin 1 => v i) 0

/-- The networks of `VariationalDriftDiffusion` (transformer.py 663-689) with the features of lines 806-812 and the context `ctx`
of the trajectory; the time is not used (677). -/
noncomputable def mlpNets (w : MlpSDEW) (s : MlpSizes) (ctx : Fin s.context → ℝ) : Nets ℝ s.latent where
  post z _ i := driftNet w.post [s.hidden, s.latent] (Fin.append z ctx) i
  prior z _ i := driftNet w.prior (List.replicate s.sdeLayers s.hidden ++ [s.latent]) z i
  sigma z i := diffusionNet w.diffusion (List.replicate s.sdeLayers s.hidden ++ [1]) z i

/-- The output of the encoder network (transformer.py 796-799, 819): `final_activation_fn` is `gelu` too. -/
noncomputable def encoderOut (w : MlpSDEW) (s : MlpSizes) (x : Fin s.data → ℝ) : ℕ → ℝ :=
  mlpVec gelu gelu w.encoder (List.replicate s.layers s.hidden ++ [2 * s.latent + s.context]) x

/-- `q0_mean` (transformer.py 822-823). -/
noncomputable def q0Mean (w : MlpSDEW) (s : MlpSizes) (x : Fin s.data → ℝ) (i : Fin s.latent) : ℝ := encoderOut w s x i

/-- The scale `exp(q0_logstd)` (transformer.py 822-824). -/
noncomputable def q0Std (w : MlpSDEW) (s : MlpSizes) (x : Fin s.data → ℝ) (i : Fin s.latent) : ℝ :=
  Real.exp (encoderOut w s x (s.latent + i))

/-- `context` (transformer.py 822-823). -/
noncomputable def q0Context (w : MlpSDEW) (s : MlpSizes) (x : Fin s.data → ℝ) (i : Fin s.context) : ℝ :=
  encoderOut w s x (2 * s.latent + i)

/-- What `LatentSDE.__call__` returns for one example: the predictions of the samples and the two KL terms. -/
structure MlpOut (data : ℕ) where
  y : List (Fin data → ℝ)
  klQ0 : ℝ
  klPath : ℝ

/-- The exceptions of the second version. -/
inductive MlpErr
  /-- The assertion on the shape of `z0` (transformer.py 991-992). -/
  | assertion
  /-- An exception of `sdeint`. -/
  | sde (e : SDEError)
deriving DecidableEq, Repr

/-- `LatentSDE.__call__` with `use_transformer=False` (transformer.py 980-1009), with `sample` (827-868), for one example and the
increments `dw` of its trajectory: the initial state is the mean (986), and only one sample passes the assertion (991-992). -/
noncomputable def mlpCall (w : MlpSDEW) (s : MlpSizes) (priorScale : ℝ) (numSamples : ℕ) (x : Fin s.data → ℝ)
    (dw : List (Fin s.latent → ℝ)) : Except MlpErr (MlpOut s.data) :=
  if numSamples ≠ 1 then .error .assertion
  else
    match samplePath (variational (mlpNets w s (q0Context w s x))) (q0Mean w s x) dw with
    | .error e => .error (.sde e)
    | .ok (z1, kl) => .ok {
        y := [fun c => mlpVec gelu gelu w.decoder (List.replicate s.layers s.hidden ++ [s.data]) z1 c]
        klQ0 := klDiag (q0Mean w s x) (q0Std w s x) (fun _ => 0) (fun _ => priorScale * 1)
        klPath := kl }

end Verif.Niles
