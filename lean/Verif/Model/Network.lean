import Verif.Model.Transformer
import Mathlib.Analysis.SpecialFunctions.Exp
import Mathlib.Analysis.SpecialFunctions.Sqrt
import Mathlib.Analysis.SpecialFunctions.Trigonometric.Basic
import Mathlib.Algebra.BigOperators.Intervals

/-!
# Model of the values computed by niles/transformer.py

Arrays of rank three with real values, for arbitrary weights. Shapes and exceptions are those of `Verif.Model.Transformer`.
The layers of flax enter through their documented formulas: `Dense`, `LayerNorm` (with its default `epsilon = 1e-6`),
`avg_pool` (padded entries count as zeros), `max_pool`, `dot_product_attention` (softmax of the scaled products). The
activation is an arbitrary function `act`; `gelu` is the one of the code. Values outside of the shape are never used. Biases are arbitrary, which
covers `use_bias=False`. Simplified: the trajectories of the processor `LatentSDE` are an arbitrary function of the tokens of
the example and of the numbers of example and sample, which fix the noise (`Verif.Model.LatentSDE` models one trajectory).
-/

namespace Verif.Niles

open Finset

/-- An array of rank three. -/
structure Tensor where
  shape : Shape
  val : ℕ → ℕ → ℕ → ℝ

/-- An array with split channels, `(batch, sequence, heads, head_dim)`. -/
structure HTensor where
  shape : HShape
  val : ℕ → ℕ → ℕ → ℕ → ℝ

/-- Kernel and bias of `nn.Dense`. -/
structure DenseW where
  kernel : ℕ → ℕ → ℝ
  bias : ℕ → ℝ

/-- `nn.Dense(out)`: along the last axis. -/
noncomputable def dense (w : DenseW) (out : ℕ) (x : Tensor) : Tensor :=
  ⟨⟨x.shape.batch, x.shape.seq, out⟩, fun b t o => (∑ c ∈ range x.shape.chan, x.val b t c * w.kernel c o) + w.bias o⟩

/-- Scale and bias of `nn.LayerNorm`. -/
structure NormW where
  scale : ℕ → ℝ
  bias : ℕ → ℝ

/-- The normalisation of one token with `n` channels. -/
noncomputable def normToken (n : ℕ) (v : ℕ → ℝ) (c : ℕ) : ℝ :=
  let mean := (∑ i ∈ range n, v i) / n
  let var := (∑ i ∈ range n, (v i - mean) ^ 2) / n
  (v c - mean) / Real.sqrt (var + 1 / 10 ^ 6)

/-- `nn.LayerNorm`. -/
noncomputable def layerNorm (w : NormW) (x : Tensor) : Tensor :=
  ⟨x.shape, fun b t c => normToken x.shape.chan (x.val b t) c * w.scale c + w.bias c⟩

/-- Index of an axis of length `n` under broadcasting. -/
def bcastIdx (n i : ℕ) : ℕ := if n = 1 then 0 else i

/-- The sum of two arrays. -/
noncomputable def addT (x y : Tensor) : Except Err Tensor :=
  match addShape x.shape y.shape with
  | .error e => .error e
  | .ok s => .ok ⟨s, fun b t c =>
      x.val (bcastIdx x.shape.batch b) (bcastIdx x.shape.seq t) (bcastIdx x.shape.chan c) +
        y.val (bcastIdx y.shape.batch b) (bcastIdx y.shape.seq t) (bcastIdx y.shape.chan c)⟩

/-- `x.reshape(x.shape[:-1] + (num_heads, head_dim))` (transformer.py 49-51, 62, 185-187). -/
def splitHeadsT (x : Tensor) (heads : ℕ) : Except Err HTensor :=
  match splitHeads x.shape heads with
  | .error e => .error e
  | .ok s => .ok ⟨s, fun b t h k => x.val b t (h * s.dim + k)⟩

/-- The largest element of a list. -/
noncomputable def maxList : List ℝ → ℝ
  | [] => 0
  | [a] => a
  | a :: b :: l => max a (maxList (b :: l))

/-- `nn.avg_pool` and `nn.max_pool` with padding `'same'` over the batch and the sequence axis. -/
noncomputable def poolT (mode : PoolMode) (window strides : ℕ × ℕ) (x : Tensor) : Tensor :=
  ⟨⟨sameLen x.shape.batch strides.1, sameLen x.shape.seq strides.2, x.shape.chan⟩, fun b t c =>
    let vals := (poolWindow x.shape.batch window.1 strides.1 b).flatMap fun b' =>
      (poolWindow x.shape.seq window.2 strides.2 t).map fun t' => x.val b' t' c
    match mode with
    | .avg => vals.sum / (window.1 * window.2 : ℕ)
    | .max => maxList vals⟩

/-- `attention_pooling` (transformer.py 33-63). -/
noncomputable def attentionPoolingT (mode : PoolMode) (x : Tensor) (window strides : ℕ × ℕ) (heads : ℕ) : Except Err HTensor :=
  if heads = 0 then .error .zeroDivision
  else if window.1 * window.2 = 1 then splitHeadsT x heads
  else if strides.1 = 0 ∨ strides.2 = 0 then .error .shape
  else splitHeadsT (poolT mode window strides x) heads

/-- The score of a query token and a key token. -/
noncomputable def score (n : ℕ) (q k : ℕ → ℝ) : ℝ := ∑ i ∈ range n, q i / Real.sqrt n * k i

/-- `nn.dot_product_attention`. -/
noncomputable def attentionT (q k v : HTensor) : Except Err HTensor :=
  match attention q.shape k.shape v.shape with
  | .error e => .error e
  | .ok s => .ok ⟨s, fun b t h i =>
      (∑ j ∈ range k.shape.seq, Real.exp (score q.shape.dim (q.val b t h) (k.val b j h)) * v.val b j h i) /
        ∑ j ∈ range k.shape.seq, Real.exp (score q.shape.dim (q.val b t h) (k.val b j h))⟩

/-- `nn.DenseGeneral(features=out, axis=(-2, -1))` (transformer.py 139-145, 196-202). -/
noncomputable def denseHeads (w : DenseW) (out : ℕ) (x : HTensor) : Tensor :=
  ⟨⟨x.shape.batch, x.shape.seq, out⟩, fun b t o =>
    (∑ h ∈ range x.shape.heads, ∑ i ∈ range x.shape.dim, x.val b t h i * w.kernel (h * x.shape.dim + i) o) + w.bias o⟩

/-- The residual `x += q` (transformer.py 135-136, 192-193). -/
noncomputable def addHeads (x q : HTensor) : HTensor := ⟨x.shape, fun b t h i => x.val b t h i + q.val b t h i⟩

/-- The weights of an attention. -/
structure AttnW where
  query : DenseW
  key : DenseW
  value : DenseW
  out : DenseW

/-- `MultiScaleAttentionDownSample.__call__` (transformer.py 113-146). -/
noncomputable def downSampleT (w : AttnW) (x : Tensor) (heads : ℕ) (poolQ poolKv strideQ strideKv : ℕ × ℕ) : Except Err Tensor :=
  let n := x.shape.chan
  match attentionPoolingT .avg (dense w.query n x) poolQ strideQ heads with
  | .error e => .error e
  | .ok q => match attentionPoolingT .avg (dense w.key n x) poolKv strideKv heads with
    | .error e => .error e
    | .ok k => match attentionPoolingT .avg (dense w.value n x) poolKv strideKv heads with
      | .error e => .error e
      | .ok v => match attentionT q k v with
        | .error e => .error e
        | .ok y => .ok (denseHeads w.out n (addHeads y q))

/-- `nn.gelu` with its default `approximate=True`, the activation of `MlpBlock` (transformer.py 74). -/
noncomputable def gelu (x : ℝ) : ℝ := x / 2 * (1 + Real.tanh (Real.sqrt (2 / Real.pi) * (x + 44715 / 10 ^ 6 * x ^ 3)))

/-- The weights of `MlpBlock`. -/
structure MlpW where
  first : DenseW
  second : DenseW

/-- `MlpBlock.__call__` (transformer.py 79-97). -/
noncomputable def mlpBlock (act : ℝ → ℝ) (w : MlpW) (hidden out : ℕ) (x : Tensor) : Tensor :=
  let y := dense w.first hidden x
  dense w.second out ⟨y.shape, fun b t c => act (y.val b t c)⟩

/-- The weights of an encoder or decoder block. -/
structure BlockW where
  norm1 : NormW
  attn : AttnW
  norm2 : NormW
  mlp : MlpW
  proj : DenseW

/-- The second half of `EncoderBlock.__call__` and `DecoderBlock.__call__` (transformer.py 254-271, 299-316); `n` is the number
of channels of the input of the block. -/
noncomputable def mlpPart (act : ℝ → ℝ) (w : BlockW) (n outDim : ℕ) (x : Tensor) : Except Err Tensor :=
  let xNorm := layerNorm w.norm2 x
  let y := mlpBlock act w.mlp (n * 4) outDim xNorm
  addT y (if outDim = n then x else dense w.proj outDim xNorm)

/-- `x.reshape(x.shape[:-2] + (-1,))` (transformer.py 248). -/
def joinHeads (x : HTensor) : Tensor :=
  ⟨⟨x.shape.batch, x.shape.seq, x.shape.heads * x.shape.dim⟩, fun b t c => x.val b t (c / x.shape.dim) (c % x.shape.dim)⟩

/-- `EncoderBlock.__call__` (transformer.py 219-271). -/
noncomputable def encoderBlockT (act : ℝ → ℝ) (w : BlockW) (x : Tensor) (outDim heads : ℕ) (poolQ poolKv strideQ strideKv : ℕ × ℕ) :
    Except Err Tensor :=
  match downSampleT w.attn (layerNorm w.norm1 x) heads poolQ poolKv strideQ strideKv with
  | .error e => .error e
  | .ok y =>
    let res : Except Err Tensor :=
      if strideQ.1 * strideQ.2 > 1 then
        match attentionPoolingT .max x (resWindow strideQ.1, resWindow strideQ.2) strideQ heads with
        | .error e => .error e
        | .ok r => .ok (joinHeads r)
      else .ok x
    match res with
    | .error e => .error e
    | .ok r => match addT y r with
      | .error e => .error e
      | .ok z => mlpPart act w x.shape.chan outDim z

/-- The variables of the loop of the encoder. -/
structure EncStateT where
  x : Tensor
  heads : ℕ
  strideKv : ℕ × ℕ
  skips : List (ℕ × Tensor)

/-- One iteration of the encoder loop (transformer.py 340-372). -/
noncomputable def encodeLayerT (act : ℝ → ℝ) (w : ℕ → BlockW) (c : MSConfig) (layer : ℕ) (st : EncStateT) : Except Err EncStateT :=
  let pooling := layer ∈ c.poolingLayers
  let heads := if pooling then st.heads * 2 else st.heads
  let strideKv := if pooling then (halveStride st.strideKv.1, halveStride st.strideKv.2) else st.strideKv
  let strideQ := if pooling then c.poolingStridesQ else (1, 1)
  let poolQ := if pooling ∨ c.poolQEveryLayer = true then c.poolingKernel else (1, 1)
  let skips := if pooling then st.skips ++ [(layer, st.x)] else st.skips
  let outDim := if layer + 1 ∈ c.poolingLayers then st.x.shape.chan * 2 else st.x.shape.chan
  match encoderBlockT act (w layer) st.x outDim heads poolQ c.poolingKernel strideQ strideKv with
  | .error e => .error e
  | .ok y => .ok ⟨y, heads, strideKv, skips⟩

/-- The loop over a list of layers. -/
noncomputable def encodeLayersT (act : ℝ → ℝ) (w : ℕ → BlockW) (c : MSConfig) : List ℕ → EncStateT → Except Err EncStateT
  | [], st => .ok st
  | l :: ls, st => match encodeLayerT act w c l st with
    | .error e => .error e
    | .ok st' => encodeLayersT act w c ls st'

/-- `MultiscaleEncoder.__call__` (transformer.py 334-374). -/
noncomputable def encodeT (act : ℝ → ℝ) (w : ℕ → BlockW) (norm : NormW) (c : MSConfig) (x : Tensor) :
    Except Err (Tensor × List (ℕ × Tensor)) :=
  match encodeLayersT act w c (List.range c.depth) ⟨x, c.numInitialHeads, c.initialKvStrides, []⟩ with
  | .error e => .error e
  | .ok st => .ok (layerNorm norm st.x, st.skips)

/-- `jnp.tile` (transformer.py 178-184, 293-294): whole sequences and whole tokens are repeated. -/
def tileT (reps : ℕ × ℕ) (x : Tensor) : Tensor :=
  ⟨⟨x.shape.batch, x.shape.seq * reps.1, x.shape.chan * reps.2⟩, fun b t c => x.val b (t % x.shape.seq) (c % x.shape.chan)⟩

/-- `MultiScaleAttentionUpsample.__call__` (transformer.py 158-203). -/
noncomputable def upSampleT (w : AttnW) (x : Tensor) (heads : ℕ) (reps : ℕ × ℕ) : Except Err Tensor :=
  let n := x.shape.chan
  if heads = 0 ∨ (n * reps.2) % heads ≠ 0 then .error .shape
  else match splitHeadsT (tileT reps (dense w.query n x)) heads with
    | .error e => .error e
    | .ok q => match splitHeadsT (tileT reps (dense w.key n x)) heads with
      | .error e => .error e
      | .ok k => match splitHeadsT (tileT reps (dense w.value n x)) heads with
        | .error e => .error e
        | .ok v => match attentionT q k v with
          | .error e => .error e
          | .ok y => .ok (denseHeads w.out n (addHeads y q))

/-- `DecoderBlock.__call__` (transformer.py 283-316). -/
noncomputable def decoderBlockT (act : ℝ → ℝ) (w : BlockW) (x : Tensor) (outDim heads : ℕ) (reps : ℕ × ℕ) : Except Err Tensor :=
  match upSampleT w.attn (layerNorm w.norm1 x) heads reps with
  | .error e => .error e
  | .ok y => match addT y (if reps.1 * reps.2 > 1 then tileT reps x else x) with
    | .error e => .error e
    | .ok z => mlpPart act w x.shape.chan outDim z

/-- One iteration of the decoder loop (transformer.py 393-425). -/
noncomputable def decodeLayerT (act : ℝ → ℝ) (w : ℕ → BlockW) (c : MSConfig) (skips : List (ℕ × Tensor)) (layer : ℕ) (x : Tensor) :
    Except Err Tensor :=
  let reps := if layer ∈ c.poolingLayers then c.tileReps else (1, 1)
  let outDim := if layer + 1 ∈ c.poolingLayers then x.shape.chan / 2 else x.shape.chan
  if c.width = 0 then .error .zeroDivision
  else match decoderBlockT act (w layer) x outDim (x.shape.chan / c.width) reps with
    | .error e => .error e
    | .ok y =>
      if layer ∈ c.poolingLayers ∧ c.useResiduals = true then
        match skips.lookup layer with
        | none => .error .key
        | some s => match addT y s with
          | .error e => .error e
          | .ok z => if z.shape = s.shape then .ok z else .error .assertion
      else .ok y

/-- The loop over a list of layers. -/
noncomputable def decodeLayersT (act : ℝ → ℝ) (w : ℕ → BlockW) (c : MSConfig) (skips : List (ℕ × Tensor)) :
    List ℕ → Tensor → Except Err Tensor
  | [], x => .ok x
  | l :: ls, x => match decodeLayerT act w c skips l x with
    | .error e => .error e
    | .ok y => decodeLayersT act w c skips ls y

/-- `MultiscaleDecoder.__call__` (transformer.py 390-428). -/
noncomputable def decodeT (act : ℝ → ℝ) (w : ℕ → BlockW) (norm : NormW) (c : MSConfig) (skips : List (ℕ × Tensor)) (x : Tensor) :
    Except Err Tensor :=
  match decodeLayersT act w c skips (List.range c.depth).reverse x with
  | .error e => .error e
  | .ok y => .ok (layerNorm norm y)

/-- The weights of `Model`. -/
structure ModelW where
  embedding : DenseW
  posEmbedding : ℕ → ℕ → ℝ
  encoder : ℕ → BlockW
  encoderNorm : NormW
  decoder : ℕ → BlockW
  decoderNorm : NormW
  patches : DenseW

/-- The trajectories of `LatentSDE`: from the number of the example, the number of the sample and the tokens of the example to
the tokens of the sample. -/
abbrev Processor := ℕ → ℕ → (ℕ → ℕ → ℝ) → ℕ → ℕ → ℝ

/-- The tokens of an example as the processor gets them; there is nothing outside of the array. -/
noncomputable def tokensOf (x : Tensor) (b : ℕ) : ℕ → ℕ → ℝ :=
  fun t c => if t < x.shape.seq ∧ c < x.shape.chan then x.val b t c else 0

/-- `AddPosEmbs.__call__` (transformer.py 443-451). -/
noncomputable def addPosEmbs (pos : ℕ → ℕ → ℝ) (x : Tensor) : Tensor := ⟨x.shape, fun b t c => x.val b t c + pos t c⟩

/-- `mapM` over the samples. -/
def samplesT (f : ℕ → Except Err Tensor) : ℕ → Except Err (List Tensor)
  | 0 => .ok []
  | n + 1 => match samplesT f n with
    | .error e => .error e
    | .ok l => match f n with
      | .error e => .error e
      | .ok y => .ok (l ++ [y])

/-- The mean over the sample axis (transformer.py 523, 542). -/
noncomputable def meanT (shape : Shape) (l : List Tensor) : Tensor :=
  ⟨shape, fun b t c => (l.map fun y => y.val b t c).sum / l.length⟩

/-- `x.mean(axis=1)` before or after the decoder (transformer.py 522-542). -/
noncomputable def decodeSamples (dec : Tensor → Except Err Tensor) (meanAfter : Bool) (n : ℕ) (sample : ℕ → Tensor) :
    Except Err Tensor :=
  if meanAfter then
    match samplesT (fun s => dec (sample s)) n with
    | .error e => .error e
    | .ok l => match l with
      | [] => .error .shape
      | y :: _ => .ok (meanT y.shape l)
  else dec (meanT (sample 0).shape ((List.range n).map sample))

/-- The processor and the decoder (transformer.py 513-542). -/
noncomputable def processT (dec : Tensor → Except Err Tensor) (proc : Processor) (p : ProcConfig) (meanAfterDecoder : Bool)
    (x : Tensor) : Except Err Tensor :=
  if p.numSamples > 0 then
    match latentSDE p x.shape with
    | .error e => .error e
    | .ok (.rank4 b n s ch) => decodeSamples dec meanAfterDecoder n fun i => ⟨⟨b, s, ch⟩, fun b => proc b i (tokensOf x b)⟩
    | .ok (.rank3 _ _ _) => .error .assertion
  else if meanAfterDecoder = true then .error .assertion
  else dec x

/-- `Model.__call__` (transformer.py 476-568). The sum `encoded + x` (544) is computed and not used. -/
noncomputable def modelT (act : ℝ → ℝ) (w : ModelW) (proc : Processor) (c : MSConfig) (p : ProcConfig) (meanAfterDecoder : Bool)
    (inputs : Tensor) : Except Err Tensor :=
  let encoded := addPosEmbs w.posEmbedding (dense w.embedding c.width inputs)
  if c.depth > 0 then
    match encodeT act w.encoder w.encoderNorm c encoded with
    | .error e => .error e
    | .ok (x, skips) => match processT (decodeT act w.decoder w.decoderNorm c skips) proc p meanAfterDecoder x with
      | .error e => .error e
      | .ok y => match addShape encoded.shape y.shape with
        | .error e => .error e
        | .ok _ => .ok (dense w.patches inputs.shape.chan y)
  else .ok (dense w.patches inputs.shape.chan encoded)

end Verif.Niles
