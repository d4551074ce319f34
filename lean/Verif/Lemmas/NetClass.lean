import Verif.Lemmas.NetBatch
import Mathlib.Analysis.SpecialFunctions.Log.Basic

/-!
# Functions computed by the network from parameters

A class of functions of a parameter that is closed under the operations of the layers is closed under the network. The parameter
stands for inputs and weights.
-/

namespace Verif.Niles

open Finset

variable {Θ : Type*}

/-- Closed under the operations of the layers. -/
structure NetClass (P : (Θ → ℝ) → Prop) : Prop where
  const : ∀ a : ℝ, P fun _ => a
  add : ∀ {f g}, P f → P g → P fun θ => f θ + g θ
  mul : ∀ {f g}, P f → P g → P fun θ => f θ * g θ
  exp : ∀ {f}, P f → P fun θ => Real.exp (f θ)
  inv : ∀ {f g}, P f → P g → (∀ θ, Real.exp (g θ) ≤ f θ) → P fun θ => (f θ)⁻¹
  sqrt : ∀ {f}, P f → (∀ θ, 0 ≤ f θ) → P fun θ => Real.sqrt (f θ + 1 / 10 ^ 6)

/-- Closed under the maximum. -/
def ClosedMax (P : (Θ → ℝ) → Prop) : Prop := ∀ {f g : Θ → ℝ}, P f → P g → P fun θ => max (f θ) (g θ)

/-- Closed under the activation. -/
def ClosedAct (P : (Θ → ℝ) → Prop) (act : ℝ → ℝ) : Prop := ∀ {f : Θ → ℝ}, P f → P fun θ => act (f θ)

section

variable {P : (Θ → ℝ) → Prop}

theorem NetClass.neg (h : NetClass P) {f : Θ → ℝ} (hf : P f) : P fun θ => -f θ := by
  have := h.mul (h.const (-1)) hf
  simpa using this

theorem NetClass.sub (h : NetClass P) {f g : Θ → ℝ} (hf : P f) (hg : P g) : P fun θ => f θ - g θ := by
  simpa [sub_eq_add_neg] using h.add hf (h.neg hg)

theorem NetClass.divConst (h : NetClass P) {f : Θ → ℝ} (hf : P f) (a : ℝ) : P fun θ => f θ / a := by
  simpa [div_eq_mul_inv] using h.mul hf (h.const a⁻¹)

theorem NetClass.sq (h : NetClass P) {f : Θ → ℝ} (hf : P f) : P fun θ => f θ ^ 2 := by
  simpa [pow_two] using h.mul hf hf

theorem NetClass.sum (h : NetClass P) {f : ℕ → Θ → ℝ} (hf : ∀ i, P (f i)) (n : ℕ) : P fun θ => ∑ i ∈ range n, f i θ := by
  induction n with
  | zero => simpa using h.const 0
  | succ n ih => simpa [sum_range_succ] using h.add ih (hf n)

theorem NetClass.listSum (h : NetClass P) {ι : Type*} (l : List ι) {f : ι → Θ → ℝ} (hf : ∀ i ∈ l, P (f i)) :
    P fun θ => (l.map fun i => f i θ).sum := by
  induction l with
  | nil => simpa using h.const 0
  | cons a l ih => simpa using h.add (hf a (by simp)) (ih fun i hi => hf i (by simp [hi]))

theorem NetClass.listMax (h : NetClass P) (hm : ClosedMax P) {ι : Type*} (l : List ι) {f : ι → Θ → ℝ} (hf : ∀ i ∈ l, P (f i)) :
    P fun θ => maxList (l.map fun i => f i θ) := by
  induction l with
  | nil => simpa [maxList] using h.const 0
  | cons a l ih =>
    cases l with
    | nil => simpa [maxList] using hf a (by simp)
    | cons b l =>
      have := ih fun i hi => hf i (by simp [List.mem_cons.1 hi])
      simpa [maxList] using hm (hf a (by simp)) this

/-- An array of fixed shape, with entries in the class. -/
structure Fam (P : (Θ → ℝ) → Prop) (S : Shape) (x : Θ → Tensor) : Prop where
  shape : ∀ θ, (x θ).shape = S
  val : ∀ b t c, P fun θ => (x θ).val b t c

/-- The same with split channels. -/
structure HFam (P : (Θ → ℝ) → Prop) (S : HShape) (x : Θ → HTensor) : Prop where
  shape : ∀ θ, (x θ).shape = S
  val : ∀ b t h i, P fun θ => (x θ).val b t h i

/-- The same exception for all parameters, or a property of the results. -/
def FamE {α : Type*} (Q : (Θ → α) → Prop) (r : Θ → Except Err α) : Prop :=
  (∃ e, ∀ θ, r θ = .error e) ∨ ∃ x : Θ → α, (∀ θ, r θ = .ok (x θ)) ∧ Q x

/-- Arrays of some shape. -/
def AFam (P : (Θ → ℝ) → Prop) (x : Θ → Tensor) : Prop := ∃ S, Fam P S x

/-- Arrays of some shape, with split channels. -/
def AHFam (P : (Θ → ℝ) → Prop) (x : Θ → HTensor) : Prop := ∃ S, HFam P S x

theorem FamE.error {α : Type*} {Q : (Θ → α) → Prop} (e : Err) : FamE Q fun _ => .error e := Or.inl ⟨e, fun _ => rfl⟩

theorem FamE.ok {α : Type*} {Q : (Θ → α) → Prop} {x : Θ → α} (h : Q x) : FamE Q fun θ => .ok (x θ) :=
  Or.inr ⟨x, fun _ => rfl, h⟩

/-- Kernel and bias in the class. -/
structure DenseFam (P : (Θ → ℝ) → Prop) (w : Θ → DenseW) : Prop where
  kernel : ∀ i o, P fun θ => (w θ).kernel i o
  bias : ∀ o, P fun θ => (w θ).bias o

/-- Scale and bias in the class. -/
structure NormFam (P : (Θ → ℝ) → Prop) (w : Θ → NormW) : Prop where
  scale : ∀ o, P fun θ => (w θ).scale o
  bias : ∀ o, P fun θ => (w θ).bias o

/-- The weights of an attention in the class. -/
structure AttnFam (P : (Θ → ℝ) → Prop) (w : Θ → AttnW) : Prop where
  query : DenseFam P fun θ => (w θ).query
  key : DenseFam P fun θ => (w θ).key
  value : DenseFam P fun θ => (w θ).value
  out : DenseFam P fun θ => (w θ).out

/-- The weights of a block in the class. -/
structure BlockFam (P : (Θ → ℝ) → Prop) (w : Θ → BlockW) : Prop where
  norm1 : NormFam P fun θ => (w θ).norm1
  attn : AttnFam P fun θ => (w θ).attn
  norm2 : NormFam P fun θ => (w θ).norm2
  first : DenseFam P fun θ => (w θ).mlp.first
  second : DenseFam P fun θ => (w θ).mlp.second
  proj : DenseFam P fun θ => (w θ).proj

/-- The weights of the model in the class. -/
structure ModelFam (P : (Θ → ℝ) → Prop) (w : Θ → ModelW) : Prop where
  embedding : DenseFam P fun θ => (w θ).embedding
  posEmbedding : ∀ t c, P fun θ => (w θ).posEmbedding t c
  encoder : ∀ l, BlockFam P fun θ => (w θ).encoder l
  encoderNorm : NormFam P fun θ => (w θ).encoderNorm
  decoder : ∀ l, BlockFam P fun θ => (w θ).decoder l
  decoderNorm : NormFam P fun θ => (w θ).decoderNorm
  patches : DenseFam P fun θ => (w θ).patches

/-- Samples in the class, for `n` tokens of length `k` in the class. -/
def ProcFam (P : (Θ → ℝ) → Prop) (proc : Θ → Processor) : Prop :=
  ∀ (n k : ℕ) (v : Θ → ℕ → ℕ → ℝ), (∀ θ t c, ¬ (t < n ∧ c < k) → v θ t c = 0) → (∀ t c, P fun θ => v θ t c) →
    ∀ b i t c, P fun θ => proc θ b i (v θ) t c

theorem Fam.dense (hP : NetClass P) {S : Shape} {x : Θ → Tensor} (h : Fam P S x) {w : Θ → DenseW} (hw : DenseFam P w) (out : ℕ) :
    Fam P ⟨S.batch, S.seq, out⟩ fun θ => dense (w θ) out (x θ) := by
  refine ⟨fun θ => by simp [Niles.dense, h.shape], fun b t o => ?_⟩
  simp only [Niles.dense, h.shape]
  exact hP.add (hP.sum (fun c => hP.mul (h.val b t c) (hw.kernel c o)) _) (hw.bias o)

theorem normToken_fam (hP : NetClass P) (n : ℕ) {v : Θ → ℕ → ℝ} (hv : ∀ c, P fun θ => v θ c) (c : ℕ) :
    P fun θ => normToken n (v θ) c := by
  have hmean : P fun θ => (∑ i ∈ range n, v θ i) / n := hP.divConst (hP.sum (f := fun i θ => v θ i) hv n) n
  have hvar : P fun θ => (∑ i ∈ range n, (v θ i - (∑ i ∈ range n, v θ i) / n) ^ 2) / n :=
    hP.divConst (hP.sum (f := fun i θ => (v θ i - (∑ i ∈ range n, v θ i) / n) ^ 2)
      (fun i => hP.sq (hP.sub (hv i) hmean)) n) n
  have h0 : ∀ θ, 0 ≤ (∑ i ∈ range n, (v θ i - (∑ i ∈ range n, v θ i) / n) ^ 2) / n := fun θ => by positivity
  have hs := hP.sqrt hvar h0
  have hinv := hP.inv hs (hP.const (Real.log (Real.sqrt (1 / 10 ^ 6)))) fun θ => by
    rw [Real.exp_log (Real.sqrt_pos.2 (by norm_num))]
    exact Real.sqrt_le_sqrt (by linarith [h0 θ])
  simpa [normToken, div_eq_mul_inv] using hP.mul (hP.sub (hv c) hmean) hinv

theorem Fam.layerNorm (hP : NetClass P) {S : Shape} {x : Θ → Tensor} (h : Fam P S x) {w : Θ → NormW} (hw : NormFam P w) :
    Fam P S fun θ => layerNorm (w θ) (x θ) := by
  refine ⟨fun θ => by simp [Niles.layerNorm, h.shape], fun b t c => ?_⟩
  simp only [Niles.layerNorm, h.shape]
  exact hP.add (hP.mul (normToken_fam hP S.chan (v := fun θ => (x θ).val b t) (fun c => h.val b t c) c) (hw.scale c)) (hw.bias c)

theorem Fam.map {S : Shape} {x : Θ → Tensor} (h : Fam P S x) {act : ℝ → ℝ} (ha : ClosedAct P act) :
    Fam P S fun θ => ⟨(x θ).shape, fun b t c => act ((x θ).val b t c)⟩ :=
  ⟨fun θ => h.shape θ, fun b t c => ha (h.val b t c)⟩

theorem Fam.add (hP : NetClass P) {S S' : Shape} {x y : Θ → Tensor} (h : Fam P S x) (g : Fam P S' y) :
    FamE (AFam P) fun θ => addT (x θ) (y θ) := by
  simp only [addT, h.shape, g.shape]
  cases addShape S S' with
  | error e => exact FamE.error e
  | ok s => exact FamE.ok ⟨s, fun _ => rfl, fun b t c => hP.add (h.val _ _ _) (g.val _ _ _)⟩

theorem Fam.splitHeads {S : Shape} {x : Θ → Tensor} (h : Fam P S x) (n : ℕ) :
    FamE (AHFam P) fun θ => splitHeadsT (x θ) n := by
  simp only [splitHeadsT, h.shape]
  cases Niles.splitHeads S n with
  | error e => exact FamE.error e
  | ok s => exact FamE.ok ⟨s, fun _ => rfl, fun b t c i => h.val _ _ _⟩

theorem Fam.pool (hP : NetClass P) {S : Shape} {x : Θ → Tensor} (h : Fam P S x) (m : PoolMode) (hm : m = .max → ClosedMax P)
    (w s : ℕ × ℕ) : AFam P fun θ => poolT m w s (x θ) := by
  refine ⟨_, fun θ => by rw [poolT, h.shape], fun b t c => ?_⟩
  simp only [poolT, h.shape]
  have hl : ∀ θ, ((poolWindow S.batch w.1 s.1 b).flatMap fun b' => (poolWindow S.seq w.2 s.2 t).map fun t' => (x θ).val b' t' c) =
      ((poolWindow S.batch w.1 s.1 b).flatMap fun b' => (poolWindow S.seq w.2 s.2 t).map fun t' => (b', t')).map
        fun p => (x θ).val p.1 p.2 c := by
    intro θ
    rw [List.map_flatMap]
    simp [Function.comp_def]
  simp only [hl]
  cases m with
  | avg => exact hP.divConst (hP.listSum _ (f := fun (p : ℕ × ℕ) θ => (x θ).val p.1 p.2 c) fun p _ => h.val p.1 p.2 c) _
  | max => exact hP.listMax (hm rfl) _ (f := fun (p : ℕ × ℕ) θ => (x θ).val p.1 p.2 c) fun p _ => h.val p.1 p.2 c

theorem Fam.attentionPooling (hP : NetClass P) {S : Shape} {x : Θ → Tensor} (h : Fam P S x) (m : PoolMode)
    (hm : m = .max → ClosedMax P) (w s : ℕ × ℕ) (n : ℕ) : FamE (AHFam P) fun θ => attentionPoolingT m (x θ) w s n := by
  unfold attentionPoolingT
  split_ifs
  · exact FamE.error _
  · exact h.splitHeads n
  · exact FamE.error _
  · obtain ⟨S', h'⟩ := h.pool hP m hm w s
    exact h'.splitHeads n

theorem score_fam (hP : NetClass P) (n : ℕ) {q k : Θ → ℕ → ℝ} (hq : ∀ i, P fun θ => q θ i) (hk : ∀ i, P fun θ => k θ i) :
    P fun θ => score n (q θ) (k θ) :=
  hP.sum (f := fun i θ => q θ i / Real.sqrt n * k θ i) (fun i => hP.mul (hP.divConst (hq i) _) (hk i)) n

theorem HFam.attention (hP : NetClass P) {Sq Sk Sv : HShape} {q k v : Θ → HTensor} (hq : HFam P Sq q) (hk : HFam P Sk k)
    (hv : HFam P Sv v) : FamE (AHFam P) fun θ => attentionT (q θ) (k θ) (v θ) := by
  simp only [attentionT, hq.shape, hk.shape, hv.shape]
  cases Niles.attention Sq Sk Sv with
  | error e => exact FamE.error e
  | ok s =>
    refine FamE.ok ⟨s, fun _ => rfl, fun b t h i => ?_⟩
    have hs : ∀ j, P fun θ => score Sq.dim ((q θ).val b t h) ((k θ).val b j h) :=
      fun j => score_fam hP _ (fun i => hq.val b t h i) fun i => hk.val b j h i
    have hnum : P fun θ => ∑ j ∈ range Sk.seq, Real.exp (score Sq.dim ((q θ).val b t h) ((k θ).val b j h)) * (v θ).val b j h i :=
      hP.sum (f := fun j θ => Real.exp (score Sq.dim ((q θ).val b t h) ((k θ).val b j h)) * (v θ).val b j h i)
        (fun j => hP.mul (hP.exp (hs j)) (hv.val b j h i)) _
    have hden : P fun θ => ∑ j ∈ range Sk.seq, Real.exp (score Sq.dim ((q θ).val b t h) ((k θ).val b j h)) :=
      hP.sum (f := fun j θ => Real.exp (score Sq.dim ((q θ).val b t h) ((k θ).val b j h))) (fun j => hP.exp (hs j)) _
    dsimp only
    by_cases h0 : Sk.seq = 0
    · simpa [h0] using hP.const 0
    · have hinv := hP.inv hden (hs 0) fun θ =>
        single_le_sum (f := fun j => Real.exp (score Sq.dim ((q θ).val b t h) ((k θ).val b j h)))
          (fun j _ => (Real.exp_pos _).le) (mem_range.2 (Nat.pos_of_ne_zero h0))
      simpa [div_eq_mul_inv] using hP.mul hnum hinv

theorem HFam.addHeads (hP : NetClass P) {S S' : HShape} {x q : Θ → HTensor} (h : HFam P S x) (g : HFam P S' q) :
    HFam P S fun θ => addHeads (x θ) (q θ) :=
  ⟨fun θ => h.shape θ, fun b t k i => hP.add (h.val b t k i) (g.val b t k i)⟩

theorem HFam.denseHeads (hP : NetClass P) {S : HShape} {x : Θ → HTensor} (h : HFam P S x) {w : Θ → DenseW} (hw : DenseFam P w)
    (out : ℕ) : Fam P ⟨S.batch, S.seq, out⟩ fun θ => denseHeads (w θ) out (x θ) := by
  refine ⟨fun θ => by simp [Niles.denseHeads, h.shape], fun b t o => ?_⟩
  simp only [Niles.denseHeads, h.shape]
  refine hP.add (hP.sum (f := fun k θ => ∑ i ∈ range S.dim, (x θ).val b t k i * (w θ).kernel (k * S.dim + i) o) (fun k => ?_) _) (hw.bias o)
  exact hP.sum (f := fun i θ => (x θ).val b t k i * (w θ).kernel (k * S.dim + i) o)
    (fun i => hP.mul (h.val b t k i) (hw.kernel _ o)) _

theorem Fam.downSample (hP : NetClass P) {S : Shape} {x : Θ → Tensor} (h : Fam P S x) {w : Θ → AttnW} (hw : AttnFam P w) (n : ℕ)
    (pq pk sq sk : ℕ × ℕ) : FamE (AFam P) fun θ => downSampleT (w θ) (x θ) n pq pk sq sk := by
  simp only [downSampleT, h.shape]
  rcases (h.dense hP hw.query S.chan).attentionPooling hP .avg (by simp) pq sq n with ⟨e, he⟩ | ⟨q, eq, Sq, hq⟩
  · simp only [he]; exact FamE.error e
  rcases (h.dense hP hw.key S.chan).attentionPooling hP .avg (by simp) pk sk n with ⟨e, he⟩ | ⟨k, ek, Sk, hk⟩
  · simp only [eq, he]; exact FamE.error e
  rcases (h.dense hP hw.value S.chan).attentionPooling hP .avg (by simp) pk sk n with ⟨e, he⟩ | ⟨v, ev, Sv, hv⟩
  · simp only [eq, ek, he]; exact FamE.error e
  rcases hq.attention hP hk hv with ⟨e, he⟩ | ⟨y, ey, Sy, hy⟩
  · simp only [eq, ek, ev, he]; exact FamE.error e
  simp only [eq, ek, ev, ey]
  exact FamE.ok ⟨_, (hy.addHeads hP hq).denseHeads hP hw.out S.chan⟩

theorem Fam.mlpPart (hP : NetClass P) {S : Shape} {x : Θ → Tensor} (h : Fam P S x) {w : Θ → BlockW} (hw : BlockFam P w)
    {act : ℝ → ℝ} (ha : ClosedAct P act) (n o : ℕ) : FamE (AFam P) fun θ => mlpPart act (w θ) n o (x θ) := by
  have hn := h.layerNorm hP hw.norm2
  have hy := ((hn.dense hP hw.first (n * 4)).map ha).dense hP hw.second o
  unfold Niles.mlpPart
  dsimp only
  split_ifs
  · exact hy.add hP h
  · exact hy.add hP (hn.dense hP hw.proj o)

theorem HFam.joinHeads {S : HShape} {x : Θ → HTensor} (h : HFam P S x) : AFam P fun θ => joinHeads (x θ) :=
  ⟨⟨S.batch, S.seq, S.heads * S.dim⟩, fun θ => by simp [Niles.joinHeads, h.shape], fun b t c => by
    simp only [Niles.joinHeads, h.shape]; exact h.val _ _ _ _⟩

theorem Fam.encoderBlock (hP : NetClass P) {S : Shape} {x : Θ → Tensor} (h : Fam P S x) {w : Θ → BlockW} (hw : BlockFam P w)
    {act : ℝ → ℝ} (ha : ClosedAct P act) (o n : ℕ) (pq pk sq sk : ℕ × ℕ) (hm : sq.1 * sq.2 > 1 → ClosedMax P) :
    FamE (AFam P) fun θ => encoderBlockT act (w θ) (x θ) o n pq pk sq sk := by
  simp only [encoderBlockT, h.shape]
  rcases (h.layerNorm hP hw.norm1).downSample hP hw.attn n pq pk sq sk with ⟨e, he⟩ | ⟨y, ey, Sy, hy⟩
  · simp only [he]; exact FamE.error e
  simp only [ey]
  have fin : ∀ {S' : Shape} {r : Θ → Tensor}, Fam P S' r → FamE (AFam P) fun θ => match addT (y θ) (r θ) with
      | .error e => .error e
      | .ok z => Niles.mlpPart act (w θ) S.chan o z := by
    intro S' r hr
    rcases hy.add hP hr with ⟨e, he⟩ | ⟨z, ez, Sz, hz⟩
    · simp only [he]; exact FamE.error e
    · simp only [ez]; exact hz.mlpPart hP hw ha S.chan o
  by_cases hs : sq.1 * sq.2 > 1
  · simp only [if_pos hs]
    rcases h.attentionPooling hP .max (fun _ => hm hs) (resWindow sq.1, resWindow sq.2) sq n with ⟨e, he⟩ | ⟨r, er, Sr, hr⟩
    · simp only [he]; exact FamE.error e
    · simp only [er]
      obtain ⟨Sj, hj⟩ := hr.joinHeads
      exact fin hj
  · simp only [if_neg hs]
    exact fin h

/-- Skip connections of fixed layers, with entries in the class. -/
def SkipFam (P : (Θ → ℝ) → Prop) (s : Θ → List (ℕ × Tensor)) : Prop :=
  ∃ l : List (ℕ × (Θ → Tensor)), (∀ θ, s θ = l.map fun p => (p.1, p.2 θ)) ∧ ∀ p ∈ l, AFam P p.2

/-- The state of the encoder loop. -/
structure StateFam (P : (Θ → ℝ) → Prop) (s : Θ → EncStateT) : Prop where
  x : AFam P fun θ => (s θ).x
  rest : ∃ h k, ∀ θ, (s θ).heads = h ∧ (s θ).strideKv = k
  skips : SkipFam P fun θ => (s θ).skips

theorem StateFam.layer (hP : NetClass P) {s : Θ → EncStateT} (h : StateFam P s) {w : Θ → ℕ → BlockW}
    (hw : ∀ l, BlockFam P fun θ => w θ l) {act : ℝ → ℝ} (ha : ClosedAct P act) (c : MSConfig) (l : ℕ)
    (hm : l ∈ c.poolingLayers → c.poolingStridesQ.1 * c.poolingStridesQ.2 > 1 → ClosedMax P) :
    FamE (StateFam P) fun θ => encodeLayerT act (w θ) c l (s θ) := by
  obtain ⟨S, hx⟩ := h.x
  obtain ⟨hh, kk, hr⟩ := h.rest
  have h1 : ∀ θ, (s θ).heads = hh := fun θ => (hr θ).1
  have h2 : ∀ θ, (s θ).strideKv = kk := fun θ => (hr θ).2
  have h3 : ∀ θ, (s θ).x.shape = S := hx.shape
  simp only [encodeLayerT, h1, h2, h3]
  rcases hx.encoderBlock hP (hw l) ha (if l + 1 ∈ c.poolingLayers then S.chan * 2 else S.chan)
    (if l ∈ c.poolingLayers then hh * 2 else hh) (if l ∈ c.poolingLayers ∨ c.poolQEveryLayer = true then c.poolingKernel else (1, 1))
    c.poolingKernel (if l ∈ c.poolingLayers then c.poolingStridesQ else (1, 1))
    (if l ∈ c.poolingLayers then (halveStride kk.1, halveStride kk.2) else kk) (by
      by_cases hl : l ∈ c.poolingLayers
      · simp only [if_pos hl]; exact hm hl
      · simp [if_neg hl]) with ⟨e, he⟩ | ⟨y, ey, hy⟩
  · simp only [he]; exact FamE.error e
  · simp only [ey]
    refine FamE.ok ⟨hy, ⟨_, _, fun θ => ⟨rfl, rfl⟩⟩, ?_⟩
    dsimp only
    obtain ⟨sl, hsl, hsP⟩ := h.skips
    by_cases hl : l ∈ c.poolingLayers
    · simp only [if_pos hl]
      refine ⟨sl ++ [(l, fun θ => (s θ).x)], fun θ => by have := hsl θ; dsimp only at this ⊢; rw [this]; simp, fun p hp => ?_⟩
      rw [List.mem_append, List.mem_singleton] at hp
      rcases hp with hp | rfl
      · exact hsP p hp
      · exact ⟨S, hx⟩
    · simp only [if_neg hl]
      exact ⟨sl, hsl, hsP⟩

theorem StateFam.layers (hP : NetClass P) {w : Θ → ℕ → BlockW} (hw : ∀ l, BlockFam P fun θ => w θ l) {act : ℝ → ℝ}
    (ha : ClosedAct P act) (c : MSConfig) (ls : List ℕ)
    (hm : ∀ l ∈ ls, l ∈ c.poolingLayers → c.poolingStridesQ.1 * c.poolingStridesQ.2 > 1 → ClosedMax P)
    {s : Θ → EncStateT} (h : StateFam P s) : FamE (StateFam P) fun θ => encodeLayersT act (w θ) c ls (s θ) := by
  induction ls generalizing s with
  | nil => exact FamE.ok h
  | cons l ls ih =>
    unfold encodeLayersT
    rcases h.layer hP hw ha c l (hm l (by simp)) with ⟨e, he⟩ | ⟨y, ey, hy⟩
    · simp only [he]; exact FamE.error e
    · simp only [ey]; exact ih (fun l hl => hm l (by simp [hl])) hy

theorem Fam.encode (hP : NetClass P) {S : Shape} {x : Θ → Tensor} (h : Fam P S x) {w : Θ → ℕ → BlockW}
    (hw : ∀ l, BlockFam P fun θ => w θ l) {norm : Θ → NormW} (hn : NormFam P norm) {act : ℝ → ℝ} (ha : ClosedAct P act) (c : MSConfig)
    (hm : (∃ l < c.depth, l ∈ c.poolingLayers) → c.poolingStridesQ.1 * c.poolingStridesQ.2 > 1 → ClosedMax P) :
    FamE (fun r => AFam P (fun θ => (r θ).1) ∧ SkipFam P fun θ => (r θ).2) fun θ => encodeT act (w θ) (norm θ) c (x θ) := by
  unfold encodeT
  have hs : StateFam P fun θ => ⟨x θ, c.numInitialHeads, c.initialKvStrides, []⟩ :=
    ⟨⟨S, h⟩, ⟨_, _, fun _ => ⟨rfl, rfl⟩⟩, ⟨[], fun _ => rfl, by simp⟩⟩
  rcases StateFam.layers hP hw ha c (List.range c.depth) (fun l hl hp => hm ⟨l, List.mem_range.1 hl, hp⟩) hs with
    ⟨e, he⟩ | ⟨y, ey, hy⟩
  · simp only [he]; exact FamE.error e
  · simp only [ey]
    obtain ⟨S', hx⟩ := hy.x
    exact Or.inr ⟨_, fun θ => rfl, ⟨S', hx.layerNorm hP hn⟩, hy.skips⟩

theorem Fam.tile {S : Shape} {x : Θ → Tensor} (h : Fam P S x) (reps : ℕ × ℕ) :
    Fam P ⟨S.batch, S.seq * reps.1, S.chan * reps.2⟩ fun θ => tileT reps (x θ) :=
  ⟨fun θ => by simp [tileT, h.shape], fun b t c => by simp only [tileT, h.shape]; exact h.val _ _ _⟩

theorem Fam.upSample (hP : NetClass P) {S : Shape} {x : Θ → Tensor} (h : Fam P S x) {w : Θ → AttnW} (hw : AttnFam P w) (n : ℕ)
    (reps : ℕ × ℕ) : FamE (AFam P) fun θ => upSampleT (w θ) (x θ) n reps := by
  simp only [upSampleT, h.shape]
  by_cases h0 : n = 0 ∨ S.chan * reps.2 % n ≠ 0
  · simp only [if_pos h0]; exact FamE.error _
  simp only [if_neg h0]
  rcases ((h.dense hP hw.query S.chan).tile reps).splitHeads n with ⟨e, he⟩ | ⟨q, eq, Sq, hq⟩
  · simp only [he]; exact FamE.error e
  rcases ((h.dense hP hw.key S.chan).tile reps).splitHeads n with ⟨e, he⟩ | ⟨k, ek, Sk, hk⟩
  · simp only [eq, he]; exact FamE.error e
  rcases ((h.dense hP hw.value S.chan).tile reps).splitHeads n with ⟨e, he⟩ | ⟨v, ev, Sv, hv⟩
  · simp only [eq, ek, he]; exact FamE.error e
  rcases hq.attention hP hk hv with ⟨e, he⟩ | ⟨y, ey, Sy, hy⟩
  · simp only [eq, ek, ev, he]; exact FamE.error e
  simp only [eq, ek, ev, ey]
  exact FamE.ok ⟨_, (hy.addHeads hP hq).denseHeads hP hw.out S.chan⟩

theorem Fam.decoderBlock (hP : NetClass P) {S : Shape} {x : Θ → Tensor} (h : Fam P S x) {w : Θ → BlockW} (hw : BlockFam P w)
    {act : ℝ → ℝ} (ha : ClosedAct P act) (o n : ℕ) (reps : ℕ × ℕ) :
    FamE (AFam P) fun θ => decoderBlockT act (w θ) (x θ) o n reps := by
  simp only [decoderBlockT, h.shape]
  rcases (h.layerNorm hP hw.norm1).upSample hP hw.attn n reps with ⟨e, he⟩ | ⟨y, ey, Sy, hy⟩
  · simp only [he]; exact FamE.error e
  simp only [ey]
  have hr : AFam P fun θ => if reps.1 * reps.2 > 1 then tileT reps (x θ) else x θ := by
    by_cases hs : reps.1 * reps.2 > 1
    · simp only [if_pos hs]; exact ⟨_, h.tile reps⟩
    · simp only [if_neg hs]; exact ⟨_, h⟩
  obtain ⟨S', hr⟩ := hr
  rcases hy.add hP hr with ⟨e, he⟩ | ⟨z, ez, Sz, hz⟩
  · simp only [he]; exact FamE.error e
  · simp only [ez]; exact hz.mlpPart hP hw ha S.chan o

theorem lookup_map (l : List (ℕ × (Θ → Tensor))) (θ : Θ) (i : ℕ) :
    (l.map fun p => (p.1, p.2 θ)).lookup i = (l.lookup i).map fun x => x θ := by
  induction l with
  | nil => rfl
  | cons p l ih =>
    obtain ⟨j, x⟩ := p
    simp only [List.map_cons, List.lookup_cons]
    cases i == j <;> simp [ih]

theorem lookup_mem {β : Type*} {l : List (ℕ × β)} {i : ℕ} {x : β} (h : l.lookup i = some x) : (i, x) ∈ l := by
  induction l with
  | nil => simp at h
  | cons p l ih =>
    obtain ⟨j, y⟩ := p
    simp only [List.lookup_cons] at h
    by_cases hj : i = j
    · subst hj; simp at h; simp [h]
    · have : (i == j) = false := by simpa using hj
      rw [this] at h
      exact List.mem_cons_of_mem _ (ih h)

theorem Fam.decodeLayer (hP : NetClass P) {S : Shape} {x : Θ → Tensor} (h : Fam P S x) {w : Θ → ℕ → BlockW}
    (hw : ∀ l, BlockFam P fun θ => w θ l) {act : ℝ → ℝ} (ha : ClosedAct P act) (c : MSConfig) {s : Θ → List (ℕ × Tensor)}
    (hs : SkipFam P s) (l : ℕ) : FamE (AFam P) fun θ => decodeLayerT act (w θ) c (s θ) l (x θ) := by
  simp only [decodeLayerT, h.shape]
  by_cases h0 : c.width = 0
  · simp only [if_pos h0]; exact FamE.error _
  simp only [if_neg h0]
  rcases h.decoderBlock hP (hw l) ha (if l + 1 ∈ c.poolingLayers then S.chan / 2 else S.chan) (S.chan / c.width)
    (if l ∈ c.poolingLayers then c.tileReps else (1, 1)) with ⟨e, he⟩ | ⟨y, ey, Sy, hy⟩
  · simp only [he]; exact FamE.error e
  simp only [ey]
  by_cases h1 : l ∈ c.poolingLayers ∧ c.useResiduals = true
  swap
  · simp only [if_neg h1]; exact FamE.ok ⟨Sy, hy⟩
  simp only [if_pos h1]
  obtain ⟨sl, hsl, hsP⟩ := hs
  simp only [hsl, lookup_map]
  cases hlk : sl.lookup l with
  | none => exact FamE.error _
  | some u =>
    obtain ⟨Su, hu⟩ := hsP _ (lookup_mem hlk)
    simp only [Option.map_some]
    rcases hy.add hP hu with ⟨e, he⟩ | ⟨z, ez, Sz, hz⟩
    · simp only [he]; exact FamE.error e
    · simp only [ez, hz.shape]
      have hu' : ∀ θ, (u θ).shape = Su := hu.shape
      simp only [hu']
      by_cases hh : Sz = Su
      · simp only [if_pos hh]; exact FamE.ok ⟨Sz, hz⟩
      · simp only [if_neg hh]; exact FamE.error _

theorem Fam.decodeLayers (hP : NetClass P) {w : Θ → ℕ → BlockW} (hw : ∀ l, BlockFam P fun θ => w θ l) {act : ℝ → ℝ}
    (ha : ClosedAct P act) (c : MSConfig) {s : Θ → List (ℕ × Tensor)} (hs : SkipFam P s) (ls : List ℕ) {S : Shape} {x : Θ → Tensor}
    (h : Fam P S x) : FamE (AFam P) fun θ => decodeLayersT act (w θ) c (s θ) ls (x θ) := by
  induction ls generalizing S x with
  | nil => exact FamE.ok ⟨S, h⟩
  | cons l ls ih =>
    unfold decodeLayersT
    rcases h.decodeLayer hP hw ha c hs l with ⟨e, he⟩ | ⟨y, ey, Sy, hy⟩
    · simp only [he]; exact FamE.error e
    · simp only [ey]; exact ih hy

theorem Fam.decode (hP : NetClass P) {S : Shape} {x : Θ → Tensor} (h : Fam P S x) {w : Θ → ℕ → BlockW}
    (hw : ∀ l, BlockFam P fun θ => w θ l) {norm : Θ → NormW} (hn : NormFam P norm) {act : ℝ → ℝ} (ha : ClosedAct P act) (c : MSConfig)
    {s : Θ → List (ℕ × Tensor)} (hs : SkipFam P s) : FamE (AFam P) fun θ => decodeT act (w θ) (norm θ) c (s θ) (x θ) := by
  unfold decodeT
  rcases Fam.decodeLayers hP hw ha c hs (List.range c.depth).reverse h with ⟨e, he⟩ | ⟨y, ey, Sy, hy⟩
  · simp only [he]; exact FamE.error e
  · simp only [ey]; exact FamE.ok ⟨Sy, hy.layerNorm hP hn⟩

theorem samplesT_fam {f : Θ → ℕ → Except Err Tensor} (h : ∀ i, FamE (AFam P) fun θ => f θ i) (n : ℕ) :
    FamE (fun r => ∃ l : List (Θ → Tensor), (∀ θ, r θ = l.map fun x => x θ) ∧ ∀ x ∈ l, AFam P x) fun θ => samplesT (f θ) n := by
  induction n with
  | zero => exact FamE.ok (x := fun _ => []) ⟨[], fun _ => rfl, by simp⟩
  | succ n ih =>
    unfold samplesT
    rcases ih with ⟨e, he⟩ | ⟨r, er, l, hl, hlP⟩
    · simp only [he]; exact FamE.error e
    · simp only [er]
      rcases h n with ⟨e, he⟩ | ⟨y, ey, hy⟩
      · simp only [he]; exact FamE.error e
      · simp only [ey]
        refine FamE.ok (x := fun θ => r θ ++ [y θ]) ⟨l ++ [y], fun θ => by dsimp only; rw [hl]; simp, fun x hx => ?_⟩
        rw [List.mem_append, List.mem_singleton] at hx
        rcases hx with hx | rfl
        · exact hlP x hx
        · exact hy

theorem meanT_fam (hP : NetClass P) (l : List (Θ → Tensor)) (hl : ∀ x ∈ l, AFam P x) {S : Θ → Shape} {S0 : Shape}
    (hS : ∀ θ, S θ = S0) : Fam P S0 fun θ => meanT (S θ) (l.map fun x => x θ) := by
  refine ⟨fun θ => hS θ, fun b t c => ?_⟩
  simp only [meanT, List.map_map, List.length_map]
  refine hP.divConst ?_ _
  have := hP.listSum l (f := fun x θ => (x θ).val b t c) fun x hx => by obtain ⟨_, h⟩ := hl x hx; exact h.val b t c
  simpa [Function.comp_def] using this

theorem decodeSamples_fam (hP : NetClass P) {dec : Θ → Tensor → Except Err Tensor}
    (hd : ∀ {S : Shape} {x : Θ → Tensor}, Fam P S x → FamE (AFam P) fun θ => dec θ (x θ)) (m : Bool) (n : ℕ) {S : Shape}
    {sample : Θ → ℕ → Tensor} (hs : ∀ i, Fam P S fun θ => sample θ i) : FamE (AFam P) fun θ => decodeSamples (dec θ) m n (sample θ) := by
  unfold decodeSamples
  cases m with
  | false =>
    simp only [Bool.false_eq_true, if_false]
    have hm : Fam P S fun θ => meanT (sample θ 0).shape ((List.range n).map (sample θ)) := by
      have := meanT_fam hP ((List.range n).map fun i θ => sample θ i) (fun x hx => by
        obtain ⟨i, -, rfl⟩ := List.mem_map.1 hx; exact ⟨S, hs i⟩) (S := fun θ => (sample θ 0).shape) (fun θ => (hs 0).shape θ)
      simpa [List.map_map, Function.comp_def] using this
    exact hd hm
  | true =>
    simp only [if_true]
    rcases samplesT_fam (P := P) (fun i => hd (hs i)) n with ⟨e, he⟩ | ⟨r, er, l, hl, hlP⟩
    · simp only [he]; exact FamE.error e
    · simp only [er, hl]
      cases l with
      | nil => exact FamE.error _
      | cons y l =>
        obtain ⟨Sy, hy⟩ := hlP y (by simp)
        exact FamE.ok ⟨Sy, meanT_fam hP (y :: l) hlP fun θ => hy.shape θ⟩

theorem tokensOf_fam (hP : NetClass P) {S : Shape} {x : Θ → Tensor} (h : Fam P S x) (b t c : ℕ) :
    P fun θ => tokensOf (x θ) b t c := by
  simp only [tokensOf, h.shape]
  by_cases hc : t < S.seq ∧ c < S.chan
  · simp only [if_pos hc]; exact h.val b t c
  · simp only [if_neg hc]; exact hP.const 0

theorem processT_fam (hP : NetClass P) {dec : Θ → Tensor → Except Err Tensor}
    (hd : ∀ {S : Shape} {x : Θ → Tensor}, Fam P S x → FamE (AFam P) fun θ => dec θ (x θ)) {proc : Θ → Processor} (hp : ProcFam P proc)
    (p : ProcConfig) (m : Bool) {S : Shape} {x : Θ → Tensor} (h : Fam P S x) :
    FamE (AFam P) fun θ => processT (dec θ) (proc θ) p m (x θ) := by
  simp only [processT, h.shape]
  by_cases h1 : p.numSamples > 0
  · simp only [if_pos h1]
    cases latentSDE p S with
    | error e => exact FamE.error e
    | ok ps =>
      cases ps with
      | rank3 a b d => exact FamE.error _
      | rank4 b n s ch =>
        refine decodeSamples_fam hP hd m n (S := ⟨b, s, ch⟩) fun i => ⟨fun _ => rfl, fun b t c => ?_⟩
        exact hp S.seq S.chan (fun θ => tokensOf (x θ) b)
          (fun θ t c hc => by unfold tokensOf; rw [h.shape, if_neg hc]) (fun t c => tokensOf_fam hP h b t c) b i t c
  · simp only [if_neg h1]
    by_cases h2 : m = true
    · simp only [if_pos h2]; exact FamE.error _
    · simp only [if_neg h2]; exact hd h

/-- Outputs of the network are in the class when inputs, weights and samples are. -/
theorem modelT_fam (hP : NetClass P) {w : Θ → ModelW} (hw : ModelFam P w) {proc : Θ → Processor} (hp : ProcFam P proc)
    {act : ℝ → ℝ} (ha : ClosedAct P act) (c : MSConfig)
    (hm : (∃ l < c.depth, l ∈ c.poolingLayers) → c.poolingStridesQ.1 * c.poolingStridesQ.2 > 1 → ClosedMax P) (p : ProcConfig)
    (m : Bool) {S : Shape} {x : Θ → Tensor} (h : Fam P S x) :
    FamE (AFam P) fun θ => modelT act (w θ) (proc θ) c p m (x θ) := by
  have he : Fam P ⟨S.batch, S.seq, c.width⟩ fun θ => addPosEmbs (w θ).posEmbedding (dense (w θ).embedding c.width (x θ)) := by
    have := h.dense hP hw.embedding c.width
    exact ⟨fun θ => this.shape θ, fun b t i => hP.add (this.val b t i) (hw.posEmbedding t i)⟩
  simp only [modelT]
  by_cases h0 : c.depth > 0
  · simp only [if_pos h0]
    rcases he.encode hP hw.encoder hw.encoderNorm ha c hm with ⟨e, h1⟩ | ⟨r, er, ⟨Sr, hr⟩, hsk⟩
    · simp only [h1]; exact FamE.error e
    · simp only [er]
      rcases processT_fam hP (dec := fun θ => decodeT act (w θ).decoder (w θ).decoderNorm c (r θ).2)
        (fun hx => hx.decode hP hw.decoder hw.decoderNorm ha c hsk) hp p m hr with ⟨e, h1⟩ | ⟨y, ey, Sy, hy⟩
      · simp only [h1]; exact FamE.error e
      · simp only [ey, he.shape, hy.shape, h.shape]
        cases addShape ⟨S.batch, S.seq, c.width⟩ Sy with
        | error e => exact FamE.error e
        | ok _ => exact FamE.ok ⟨_, hy.dense hP hw.patches S.chan⟩
  · simp only [if_neg h0, h.shape]
    exact FamE.ok ⟨_, he.dense hP hw.patches S.chan⟩

end

end Verif.Niles
