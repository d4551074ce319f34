import Mathlib.Data.Nat.Notation
import Mathlib.Data.List.Basic

/-!
# Model of the array shapes of niles/transformer.py

Every array of the multiscale transformer has the shape `(batch, sequence, channels)`. The layers of flax enter through
their documented shapes: `Dense`, `LayerNorm` and `MlpBlock` change at most the last axis, pooling with padding `'same'`
divides an axis by its stride rounding up, `dot_product_attention` takes the batch, sequence and head axes of the query.
A Python exception is an `Err`. Simplified: the tuples `pooling_kernel`, `pooling_strides_q`,
`initial_kv_pooling_strides` and `qkv_tile_reps` have length two, as in niles/config/niles.py 43-46; then
`flax.linen.pool` gives no batch axis to a rank three input, so the first entry belongs to the batch axis and the second
to the sequence axis, while `jnp.tile` prepends a one, so that the first entry of `qkv_tile_reps` belongs to the sequence
axis and the second to the channels. The generator `(1 for _ in self.qkv_tile_reps)` (transformer.py 399) is exhausted
after its first use and then stands for no repetition, which is the same as ones.
-/

namespace Verif.Niles

/-- Python exceptions met here. -/
inductive Err
  | assertion | shape | zeroDivision | unboundLocal | attribute (name : String) | key | type
deriving DecidableEq, Repr

/-- Shape of a rank three array. -/
structure Shape where
  batch : ℕ
  seq : ℕ
  chan : ℕ
deriving DecidableEq, Repr

/-- Broadcasting of one axis. -/
def bcastDim (a b : ℕ) : Option ℕ :=
  if a = b then some a else if a = 1 then some b else if b = 1 then some a else none

/-- Shape of the sum of two arrays. -/
def addShape (x y : Shape) : Except Err Shape :=
  match bcastDim x.batch y.batch, bcastDim x.seq y.seq, bcastDim x.chan y.chan with
  | some b, some s, some c => .ok ⟨b, s, c⟩
  | _, _, _ => .error .shape

/-- Length of an axis after pooling with padding `'same'`: `ceil(n / stride)`. -/
def sameLen (n stride : ℕ) : ℕ := (n + stride - 1) / stride

/-- Shape `(batch, sequence, heads, head_dim)` after splitting the channels into heads. -/
structure HShape where
  batch : ℕ
  seq : ℕ
  heads : ℕ
  dim : ℕ
deriving DecidableEq, Repr

/-- The modes of pooling that are used. -/
inductive PoolMode
  | avg | max
deriving DecidableEq, Repr

/-- `x.reshape(x.shape[:-1] + (num_heads, x.shape[-1] // num_heads))` (transformer.py 49-51, 62). -/
def splitHeads (x : Shape) (heads : ℕ) : Except Err HShape :=
  if heads = 0 then .error .zeroDivision
  else if heads * (x.chan / heads) = x.chan then .ok ⟨x.batch, x.seq, heads, x.chan / heads⟩
  else .error .shape

/-- `attention_pooling` (transformer.py 33-63) for a window and strides of length two. -/
def attentionPooling (x : Shape) (window strides : ℕ × ℕ) (heads : ℕ) : Except Err HShape :=
  if heads = 0 then .error .zeroDivision
  else if window.1 * window.2 = 1 then splitHeads x heads
  else if strides.1 = 0 ∨ strides.2 = 0 then .error .shape
  else splitHeads ⟨sameLen x.batch strides.1, sameLen x.seq strides.2, x.chan⟩ heads

/-- `nn.dot_product_attention` (shapes of query, key, value). -/
def attention (q k v : HShape) : Except Err HShape :=
  if q.batch = k.batch ∧ k.batch = v.batch ∧ k.seq = v.seq ∧ q.heads = k.heads ∧ k.heads = v.heads ∧ q.dim = k.dim then
    .ok ⟨q.batch, q.seq, q.heads, v.dim⟩
  else .error .assertion

/-- `MultiScaleAttentionDownSample.__call__` (transformer.py 113-146). -/
def downSample (x : Shape) (heads : ℕ) (poolQ poolKv strideQ strideKv : ℕ × ℕ) : Except Err Shape :=
  match attentionPooling x poolQ strideQ heads with
  | .error e => .error e
  | .ok q => match attentionPooling x poolKv strideKv heads with
    | .error e => .error e
    | .ok k => match attentionPooling x poolKv strideKv heads with
      | .error e => .error e
      | .ok v => match attention q k v with
        | .error e => .error e
        | .ok y => .ok ⟨y.batch, y.seq, x.chan⟩

/-- The window of the max pooling of the skip connection (transformer.py 244). -/
def resWindow (s : ℕ) : ℕ := if s > 1 then s + 1 else s

/-- `EncoderBlock.__call__` (transformer.py 219-271). -/
def encoderBlock (x : Shape) (outDim heads : ℕ) (poolQ poolKv strideQ strideKv : ℕ × ℕ) : Except Err Shape :=
  match downSample x heads poolQ poolKv strideQ strideKv with
  | .error e => .error e
  | .ok y =>
    let res : Except Err Shape :=
      if strideQ.1 * strideQ.2 > 1 then
        match attentionPooling x (resWindow strideQ.1, resWindow strideQ.2) strideQ heads with
        | .error e => .error e
        | .ok r => .ok ⟨r.batch, r.seq, r.heads * r.dim⟩
      else .ok x
    match res with
    | .error e => .error e
    | .ok r => match addShape y r with
      | .error e => .error e
      | .ok z => addShape ⟨z.batch, z.seq, outDim⟩
          (if outDim = x.chan then z else ⟨z.batch, z.seq, outDim⟩)

/-- The fields of `MultiscaleEncoder` and `MultiscaleDecoder` (transformer.py 319-331, 377-387). -/
structure MSConfig where
  depth : ℕ
  width : ℕ
  poolingLayers : List ℕ
  poolingKernel : ℕ × ℕ
  poolingStridesQ : ℕ × ℕ
  initialKvStrides : ℕ × ℕ
  tileReps : ℕ × ℕ
  numInitialHeads : ℕ
  poolQEveryLayer : Bool
  useResiduals : Bool
deriving DecidableEq, Repr

/-- The variables of the loop of the encoder. -/
structure EncState where
  x : Shape
  heads : ℕ
  strideKv : ℕ × ℕ
  skips : List (ℕ × Shape)
deriving DecidableEq, Repr

/-- `(x // 2) if x > 1 else 1` (transformer.py 347). -/
def halveStride (s : ℕ) : ℕ := if s > 1 then s / 2 else 1

/-- One iteration of the encoder loop (transformer.py 340-372). -/
def encodeLayer (c : MSConfig) (layer : ℕ) (st : EncState) : Except Err EncState :=
  let pooling := layer ∈ c.poolingLayers
  let heads := if pooling then st.heads * 2 else st.heads
  let strideKv := if pooling then (halveStride st.strideKv.1, halveStride st.strideKv.2) else st.strideKv
  let strideQ := if pooling then c.poolingStridesQ else (1, 1)
  let poolQ := if pooling ∨ c.poolQEveryLayer = true then c.poolingKernel else (1, 1)
  let skips := if pooling then st.skips ++ [(layer, st.x)] else st.skips
  let outDim := if layer + 1 ∈ c.poolingLayers then st.x.chan * 2 else st.x.chan
  match encoderBlock st.x outDim heads poolQ c.poolingKernel strideQ strideKv with
  | .error e => .error e
  | .ok y => .ok ⟨y, heads, strideKv, skips⟩

/-- The loop over a list of layers. -/
def encodeLayers (c : MSConfig) : List ℕ → EncState → Except Err EncState
  | [], st => .ok st
  | l :: ls, st => match encodeLayer c l st with
    | .error e => .error e
    | .ok st' => encodeLayers c ls st'

/-- `MultiscaleEncoder.__call__` (transformer.py 334-374): the output and the skip connections. -/
def encode (c : MSConfig) (x : Shape) : Except Err (Shape × List (ℕ × Shape)) :=
  match encodeLayers c (List.range c.depth) ⟨x, c.numInitialHeads, c.initialKvStrides, []⟩ with
  | .error e => .error e
  | .ok st => .ok (st.x, st.skips)

/-- `MultiScaleAttentionUpsample.__call__` (transformer.py 158-203). -/
def upSample (x : Shape) (heads : ℕ) (reps : ℕ × ℕ) : Except Err Shape :=
  let t : Shape := ⟨x.batch, x.seq * reps.1, x.chan * reps.2⟩
  if heads = 0 ∨ t.chan % heads ≠ 0 then .error .shape
  else match attention ⟨t.batch, t.seq, heads, t.chan / heads⟩ ⟨t.batch, t.seq, heads, t.chan / heads⟩
      ⟨t.batch, t.seq, heads, t.chan / heads⟩ with
    | .error e => .error e
    | .ok y => .ok ⟨y.batch, y.seq, x.chan⟩

/-- `DecoderBlock.__call__` (transformer.py 283-316). -/
def decoderBlock (x : Shape) (outDim heads : ℕ) (reps : ℕ × ℕ) : Except Err Shape :=
  match upSample x heads reps with
  | .error e => .error e
  | .ok y => match addShape y (if reps.1 * reps.2 > 1 then ⟨x.batch, x.seq * reps.1, x.chan * reps.2⟩ else x) with
    | .error e => .error e
    | .ok z => addShape ⟨z.batch, z.seq, outDim⟩ (if outDim = x.chan then z else ⟨z.batch, z.seq, outDim⟩)

/-- One iteration of the decoder loop (transformer.py 393-425). -/
def decodeLayer (c : MSConfig) (skips : List (ℕ × Shape)) (layer : ℕ) (x : Shape) : Except Err Shape :=
  let reps := if layer ∈ c.poolingLayers then c.tileReps else (1, 1)
  let outDim := if layer + 1 ∈ c.poolingLayers then x.chan / 2 else x.chan
  if c.width = 0 then .error .zeroDivision
  else match decoderBlock x outDim (x.chan / c.width) reps with
    | .error e => .error e
    | .ok y =>
      if layer ∈ c.poolingLayers ∧ c.useResiduals = true then
        match skips.lookup layer with
        | none => .error .key
        | some s => match addShape y s with
          | .error e => .error e
          | .ok z => if z = s then .ok z else .error .assertion
      else .ok y

/-- The loop over a list of layers. -/
def decodeLayers (c : MSConfig) (skips : List (ℕ × Shape)) : List ℕ → Shape → Except Err Shape
  | [], x => .ok x
  | l :: ls, x => match decodeLayer c skips l x with
    | .error e => .error e
    | .ok y => decodeLayers c skips ls y

/-- `MultiscaleDecoder.__call__` (transformer.py 390-428). -/
def decode (c : MSConfig) (skips : List (ℕ × Shape)) (x : Shape) : Except Err Shape :=
  decodeLayers c skips (List.range c.depth).reverse x

/-- The fields of `processor_config` that determine the shapes in `LatentSDE` (transformer.py 785-812). -/
structure ProcConfig where
  numSamples : ℕ
  useTransformer : Bool
  latentSize : ℕ
  contextSize : ℕ
  dataSize : ℕ
deriving DecidableEq, Repr

/-- The assertions of `Dynamics.__call__` (transformer.py 725-778) on a state of length `state` and a context of length
`ctx`: the length check, the reshape of the context, and an even number of channels for the two heads of
`Encoder1DBlock`. -/
def dynamicsCheck (latent state ctx : ℕ) : Except Err Unit :=
  if latent = 0 then .error .zeroDivision
  else if state % latent ≠ 1 then .error .assertion
  else if ctx ≠ state - 1 then .error .shape
  else if latent % 2 ≠ 0 then .error .shape
  else .ok ()

/-- The result of `LatentSDE`: `(batch, samples, sequence, channels)` with the transformer, `(batch, samples, data)`
otherwise. -/
inductive ProcShape
  | rank4 (batch samples seq chan : ℕ)
  | rank3 (batch samples data : ℕ)
deriving DecidableEq, Repr

/-- `LatentSDE.__call__` (transformer.py 940-1009) with `sample_sde` (883-937), `sample_transformer` (870-881), `encode`
(814-825) and `sample` (827-868); `x` is the input of the processor before the reshape of transformer.py 516-517. The
transformer branch with one sample would, after the check, use the unbound names `kl_q0` and `kl_path` (982-983). -/
def latentSDE (p : ProcConfig) (x : Shape) : Except Err ProcShape :=
  if p.useTransformer = true then
    if x.chan ≠ p.latentSize then .error .assertion
    else if 1 < p.numSamples then
      match dynamicsCheck p.latentSize (x.seq * p.latentSize + 1) (x.seq * p.latentSize) with
      | .error e => .error e
      | .ok _ => .ok (.rank4 x.batch p.numSamples x.seq p.latentSize)
    else
      match dynamicsCheck p.latentSize (x.seq * p.latentSize) (x.seq * p.latentSize) with
      | .error e => .error e
      | .ok _ => .error .unboundLocal
  else
    if x.seq * x.chan ≠ p.dataSize then .error .assertion
    else if p.numSamples ≠ 1 then .error .assertion
    else .ok (.rank3 x.batch 1 p.dataSize)

/-- `Model.__call__` (transformer.py 476-568): the shape of the returned array. The sum `encoded + x` (544) is computed
and not used. -/
def modelShape (c : MSConfig) (p : ProcConfig) (meanAfterDecoder : Bool) (inputs : Shape) : Except Err Shape :=
  let encoded : Shape := ⟨inputs.batch, inputs.seq, c.width⟩
  if c.depth > 0 then
    match encode c encoded with
    | .error e => .error e
    | .ok (x, skips) =>
      let decoded : Except Err Shape :=
        if p.numSamples > 0 then
          match latentSDE p x with
          | .error e => .error e
          | .ok (.rank4 b _ s ch) => decode c skips ⟨b, s, ch⟩
          | .ok (.rank3 _ _ _) => .error .assertion
        else if meanAfterDecoder = true then .error .assertion
        else decode c skips x
      match decoded with
      | .error e => .error e
      | .ok y => match addShape encoded y with
        | .error e => .error e
        | .ok _ => .ok ⟨y.batch, y.seq, inputs.chan⟩
  else .ok ⟨inputs.batch, inputs.seq, inputs.chan⟩

/-- `jnp.tile` of the tokens of a sequence, `r` times (transformer.py 178-184, 293-294): the whole sequence is repeated. -/
def tileSeq {α : Type*} (r : ℕ) (xs : List α) : List α := (List.replicate r xs).flatten

/-- Padding before the first element in a pooling with padding `'same'`: half of the total padding
`max((out - 1) * stride + window - n, 0)`, rounded down. -/
def padLow (n window stride : ℕ) : ℕ := ((sameLen n stride - 1) * stride + window - n) / 2

/-- The positions of the input that are pooled into output token `i` (transformer.py 53-60). -/
def poolWindow (n window stride i : ℕ) : List ℕ :=
  (List.range n).filter (fun j => i * stride ≤ j + padLow n window stride ∧
    j + padLow n window stride < i * stride + window)

/-- Max or average pooling of a sequence of tokens along the sequence axis: token `i` is computed by `f` from the tokens
in its window. -/
def poolSeq {α β : Type*} (f : List α → β) (window stride : ℕ) (xs : List α) : List β :=
  (List.range (sameLen xs.length stride)).map (fun i => f ((poolWindow xs.length window stride i).filterMap (xs[·]?)))

/-- The names of the fields of `config.model` (niles/config/niles.py 36-52). -/
def defaultModelKeys : List String :=
  ["width", "use_residuals", "depth", "num_initial_heads", "pooling_layers", "pooling_kernel",
   "initial_kv_pooling_strides", "pooling_strides_q", "qkv_tile_reps", "processor_config", "mean_after_decoder"]

/-- The fields that `create_model` reads, in the order of evaluation (train.py 96-115). -/
def createModelReads : List String :=
  ["num_layers", "num_heads", "depth", "width", "use_residuals", "freeze_encoder", "mean_after_decoder",
   "processor_config", "num_initial_heads", "pooling_layers", "pooling_kernel", "pooling_strides_q",
   "initial_kv_pooling_strides", "qkv_tile_reps"]

/-- The fields of `config.model.processor_config` (niles/config/niles.py 49-66). -/
def defaultProcessorKeys : List String :=
  ["num_samples", "use_transformer", "data_size", "latent_size", "num_gridpoints", "num_sde_layers", "context_size",
   "hidden_size", "prior_scale"]

/-- The fields that `LatentSDE.setup` reads (transformer.py 785-812). -/
def latentSetupReads : List String :=
  ["num_gridpoints", "latent_size", "context_size", "data_size", "prior_scale", "use_transformer", "num_layers",
   "hidden_size", "num_samples", "num_sde_layers"]

/-- Reading attributes of a `ConfigDict` one after the other; a missing one raises `AttributeError`. -/
def readKeys (keys : List String) : List String → Except Err Unit
  | [] => .ok ()
  | k :: ks => if k ∈ keys then readKeys keys ks else .error (.attribute k)

/-- `create_model` (train.py 96-115) for a configuration with the given fields. -/
def createModel (name : String) (keys : List String) : Except Err Unit :=
  if name = "multiscale_transformer" then readKeys keys createModelReads else .error .type

end Verif.Niles
