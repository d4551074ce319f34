import Verif.Model.Network
import Verif.Model.LatentSDE
import Mathlib.Analysis.SpecialFunctions.Trigonometric.DerivHyp

/-!
# Model of the networks of the processor of niles/transformer.py

The transformer version of `LatentSDE` (`use_transformer=True`, the default) with more than one sample: the drifts and the
diffusion of `Dynamics` for arbitrary weights, and the trajectories of `sample_sde`. The layers of flax enter through their
documented formulas, as in `Verif.Model.Network`. The random numbers are arguments.
-/

namespace Verif.Niles

open Finset Verif.SDE

/-- The weights of `Encoder1DBlock`. -/
structure Enc1DW where
  norm1 : NormW
  attn : AttnW
  norm2 : NormW
  mlp : MlpW

/-- `nn.MultiHeadDotProductAttention(num_heads)(x, x)`: queries, keys and values of all heads have as many channels as the
input together. -/
noncomputable def selfAttentionT (w : AttnW) (heads : ℕ) (x : Tensor) : Except Err Tensor :=
  let n := x.shape.chan
  match splitHeadsT (dense w.query n x) heads with
  | .error e => .error e
  | .ok q => match splitHeadsT (dense w.key n x) heads with
    | .error e => .error e
    | .ok k => match splitHeadsT (dense w.value n x) heads with
      | .error e => .error e
      | .ok v => match attentionT q k v with
        | .error e => .error e
        | .ok y => .ok (denseHeads w.out n y)

/-- `Encoder1DBlock.__call__` (transformer.py 1029-1050). -/
noncomputable def enc1DBlockT (act : ℝ → ℝ) (w : Enc1DW) (mlpDim heads : ℕ) (x : Tensor) : Except Err Tensor :=
  match selfAttentionT w.attn heads (layerNorm w.norm1 x) with
  | .error e => .error e
  | .ok y => match addT y x with
    | .error e => .error e
    | .ok z => addT (mlpBlock act w.mlp mlpDim z.shape.chan (layerNorm w.norm2 z)) z

/-- The weights of `Dynamics.transformer_block`. -/
structure TransW where
  blocks : ℕ → Enc1DW
  norm : NormW
  patches : DenseW

/-- The loop over the first `n` blocks (transformer.py 711-717). -/
noncomputable def enc1DLayersT (act : ℝ → ℝ) (w : ℕ → Enc1DW) (mlpDim : ℕ) : ℕ → Tensor → Except Err Tensor
  | 0, x => .ok x
  | n + 1, x => match enc1DLayersT act w mlpDim n x with
    | .error e => .error e
    | .ok y => enc1DBlockT act (w n) mlpDim 2 y

/-- `Dynamics.transformer_block` (transformer.py 710-722). -/
noncomputable def transformerBlockT (act : ℝ → ℝ) (w : TransW) (layers latent : ℕ) (x : Tensor) : Except Err Tensor :=
  match enc1DLayersT act w.blocks latent layers x with
  | .error e => .error e
  | .ok y => .ok (dense w.patches latent (layerNorm w.norm y))

/-- `MLP.__call__` (transformer.py 585-607) with the given features, starting with the layer `l`. Without features
`features[-1]` raises an exception; there is always a last one. -/
noncomputable def mlpNet (act final : ℝ → ℝ) (w : ℕ → DenseW) : ℕ → List ℕ → Tensor → Tensor
  | _, [], x => x
  | l, [out], x =>
    let y := dense (w l) out x
    ⟨y.shape, fun b t c => final (y.val b t c)⟩
  | l, f :: g :: fs, x =>
    let y := dense (w l) f x
    mlpNet act final w (l + 1) (g :: fs) ⟨y.shape, fun b t c => act (y.val b t c)⟩

/-- The weights of `Dynamics`. -/
structure DynW where
  post : TransW
  prior : TransW
  diffusion : ℕ → DenseW

/-- The number at position `i` of a vector; there is nothing behind the end. -/
def entry {n : ℕ} (z : Fin n → ℝ) (i : ℕ) : ℝ := if h : i < n then z ⟨i, h⟩ else 0

/-- The tokens of the state and the token of the time (transformer.py 731-740). -/
noncomputable def withTime (seq latent : ℕ) (z : Fin (seq * latent) → ℝ) (t : ℝ) : Tensor :=
  ⟨⟨1, seq + 1, latent⟩, fun _ s c => if s < seq then entry z (s * latent + c) else t⟩

/-- The tokens of the state, of the time and of the context (transformer.py 743-744). -/
noncomputable def withContext (seq latent : ℕ) (z ctx : Fin (seq * latent) → ℝ) (t : ℝ) : Tensor :=
  ⟨⟨1, seq + 1 + seq, latent⟩, fun _ s c =>
    if s < seq + 1 then (withTime seq latent z t).val 0 s c else entry ctx ((s - (seq + 1)) * latent + c)⟩

/-- `x[0, :seq_len, :].reshape(-1)` (transformer.py 753-754). The exceptions of the blocks are those of `dynamicsCheck`. -/
noncomputable def driftOf {n : ℕ} (latent : ℕ) : Except Err Tensor → Fin n → ℝ
  | .ok y, i => y.val 0 (i / latent) (i % latent)
  | .error _, _ => 0

/-- The networks of `Dynamics.__call__` (transformer.py 725-761) for one trajectory with the context `ctx`. -/
noncomputable def dynNets (act : ℝ → ℝ) (w : DynW) (layers hidden seq latent : ℕ) (ctx : Fin (seq * latent) → ℝ) :
    Nets ℝ (seq * latent) where
  post z t := driftOf latent (transformerBlockT act w.post layers latent (withContext seq latent z ctx t))
  prior z t := driftOf latent (transformerBlockT act w.prior layers latent (withTime seq latent z t))
  sigma z i := (mlpNet Real.tanh Real.exp w.diffusion 0 (List.replicate layers hidden ++ [1])
    ⟨⟨1, seq * latent, 1⟩, fun _ s _ => entry z s⟩).val 0 i 0

/-- The random numbers of one trajectory: of the initial state and of the increments. -/
structure SampleNoise (n : ℕ) where
  start : Fin n → ℝ
  dw : List (Fin n → ℝ)

/-- One trajectory of `sample_sde` (transformer.py 883-937) for the latent state `v`: the initial state is drawn from a normal
distribution around `v` (894-897, 903); it is the context too (918). -/
noncomputable def sampleSDE (act : ℝ → ℝ) (w : DynW) (layers hidden seq latent : ℕ) (scale : ℝ) (v : Fin (seq * latent) → ℝ)
    (ν : SampleNoise (seq * latent)) : Except SDEError ((Fin (seq * latent) → ℝ) × ℝ) :=
  let z0 := fun i => v i + scale * 1 * ν.start i
  samplePath (dynamics (dynNets act w layers hidden seq latent z0)) z0 ν.dw

/-- The samples of `LatentSDE.__call__` (transformer.py 940-963) as a processor of `Verif.Model.Network`, with the random numbers
`ν b i` for sample `i` of example `b`. -/
noncomputable def sdeProcessor (act : ℝ → ℝ) (w : DynW) (layers hidden seq latent : ℕ) (scale : ℝ)
    (ν : ℕ → ℕ → SampleNoise (seq * latent)) : Processor := fun b i v t c =>
  match sampleSDE act w layers hidden seq latent scale (fun j => v (j / latent) (j % latent)) (ν b i) with
  | .ok (z, _) => entry z (t * latent + c)
  | .error _ => 0

end Verif.Niles
