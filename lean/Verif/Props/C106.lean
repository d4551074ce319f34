import Verif.Lemmas.NetSimple
import Verif.Props.C66_C70

/-!
# C106: the closure of an example depends on that example

Full statement: the closure that the network computes for an example of a batch depends on the example and its noise, not on
the other examples, their number or their order. It holds when the first entries of the pooling kernel and of the strides are
one (`C106_partial`), as in the default configuration. It fails for other kernels: `flax.linen.pool` treats the first axis of
the array as a spatial axis when the window has two entries, and pools over the batch (`C106_violated`).
-/

namespace Verif.Niles

open Finset

/-- Two batches whose examples `b` and `b'` have the same embedded tokens. -/
theorem modelT_rel_encoded {c : MSConfig} (hk : c.poolingKernel.1 = 1) (hq : c.poolingStridesQ.1 = 1)
    (hi : c.initialKvStrides.1 = 1) (act : ℝ → ℝ) (w : ModelW) (proc proc' : Processor) (p : ProcConfig) (m : Bool)
    (x x' : Tensor) {B B' b b' : ℕ} (hb : b < B) (hb' : b' < B') (hc : x'.shape.chan = x.shape.chan)
    (hE : SameEx B B' b b' (addPosEmbs w.posEmbedding (dense w.embedding c.width x))
      (addPosEmbs w.posEmbedding (dense w.embedding c.width x'))) (hp : ∀ i, proc b i = proc' b' i) :
    RelE (SameEx B B' b b') (modelT act w proc c p m x) (modelT act w proc' c p m x') := by
  unfold modelT
  dsimp only
  rw [hc]
  by_cases hd : c.depth > 0
  swap
  · rw [if_neg hd, if_neg hd]; exact hE.dense w.patches _
  rw [if_pos hd, if_pos hd]
  rcases (hE.encode hb hb' act w.encoder w.encoderNorm c hk hq hi).cases with ⟨⟨u, s⟩, ⟨u', s'⟩, e, e', hu, hss⟩ | ⟨e, he, he'⟩
  swap
  · rw [he, he']; rfl
  rw [e, e']
  dsimp only at hu hss ⊢
  have hproc : RelE (SameEx B B' b b') (processT (decodeT act w.decoder w.decoderNorm c s) proc p m u)
      (processT (decodeT act w.decoder w.decoderNorm c s') proc' p m u') := by
    unfold processT
    by_cases h1 : p.numSamples > 0
    · rw [if_pos h1, if_pos h1]
      have hl : (∃ e, latentSDE p u.shape = .error e ∧ latentSDE p u'.shape = .error e) ∨
          (∃ n, latentSDE p u.shape = .ok (.rank4 B n u.shape.seq u.shape.chan) ∧
            latentSDE p u'.shape = .ok (.rank4 B' n u.shape.seq u.shape.chan)) ∨
          ∃ d, latentSDE p u.shape = .ok (.rank3 B 1 d) ∧ latentSDE p u'.shape = .ok (.rank3 B' 1 d) := by
        unfold latentSDE
        rw [hu.seq, hu.chan, hu.batch, hu.batch']
        by_cases g1 : p.useTransformer = true
        · rw [if_pos g1, if_pos g1]
          by_cases g2 : u.shape.chan ≠ p.latentSize
          · rw [if_pos g2, if_pos g2]; exact Or.inl ⟨_, rfl, rfl⟩
          · rw [if_neg g2, if_neg g2]
            push Not at g2
            by_cases g3 : 1 < p.numSamples
            · rw [if_pos g3, if_pos g3]
              cases dynamicsCheck p.latentSize (u.shape.seq * p.latentSize + 1) (u.shape.seq * p.latentSize) with
              | error e => exact Or.inl ⟨_, rfl, rfl⟩
              | ok _ => exact Or.inr (Or.inl ⟨_, by rw [g2], by rw [g2]⟩)
            · rw [if_neg g3, if_neg g3]
              cases dynamicsCheck p.latentSize (u.shape.seq * p.latentSize) (u.shape.seq * p.latentSize) with
              | error e => exact Or.inl ⟨_, rfl, rfl⟩
              | ok _ => exact Or.inl ⟨_, rfl, rfl⟩
        · rw [if_neg g1, if_neg g1]
          by_cases g2 : u.shape.seq * u.shape.chan ≠ p.dataSize
          · rw [if_pos g2, if_pos g2]; exact Or.inl ⟨_, rfl, rfl⟩
          · rw [if_neg g2, if_neg g2]
            by_cases g3 : p.numSamples ≠ 1
            · rw [if_pos g3, if_pos g3]; exact Or.inl ⟨_, rfl, rfl⟩
            · rw [if_neg g3, if_neg g3]; exact Or.inr (Or.inr ⟨_, rfl, rfl⟩)
      rcases hl with ⟨e, h1, h2⟩ | ⟨n, h1, h2⟩ | ⟨d, h1, h2⟩
      · rw [h1, h2]; rfl
      · rw [h1, h2]
        refine decodeSamples_rel (fun a a' ha => ha.decode hb hb' act w.decoder w.decoderNorm c hss)
          (fun a => decodeT_shape act w.decoder w.decoderNorm c s a) m n (S := ⟨B, u.shape.seq, u.shape.chan⟩)
          (fun i => ⟨rfl, rfl, rfl, rfl, fun t _ k _ => ?_⟩) fun i => rfl
        simp only
        rw [hp i, tokensOf_congr hu]
      · rw [h1, h2]; rfl
    · rw [if_neg h1, if_neg h1]
      by_cases h2 : m = true
      · rw [if_pos h2, if_pos h2]; rfl
      · rw [if_neg h2, if_neg h2]
        exact hu.decode hb hb' act w.decoder w.decoderNorm c hss
  rcases hproc.cases with ⟨z, z', e, e', hz⟩ | ⟨e, he, he'⟩
  swap
  · rw [he, he']; rfl
  rw [e, e']
  dsimp only
  have hadd : (∃ e, addShape (addPosEmbs w.posEmbedding (dense w.embedding c.width x)).shape z.shape = .error e ∧
      addShape (addPosEmbs w.posEmbedding (dense w.embedding c.width x')).shape z'.shape = .error e) ∨
      ∃ S S', addShape (addPosEmbs w.posEmbedding (dense w.embedding c.width x)).shape z.shape = .ok S ∧
      addShape (addPosEmbs w.posEmbedding (dense w.embedding c.width x')).shape z'.shape = .ok S' := by
    rcases (hE.add hb hb' hz).cases with ⟨a, a', e, e', -⟩ | ⟨e, he, he'⟩
    · have h1 := addT_shape (addPosEmbs w.posEmbedding (dense w.embedding c.width x)) z
      have h2 := addT_shape (addPosEmbs w.posEmbedding (dense w.embedding c.width x')) z'
      rw [e] at h1
      rw [e'] at h2
      exact Or.inr ⟨_, _, h1.symm, h2.symm⟩
    · have h1 := addT_shape (addPosEmbs w.posEmbedding (dense w.embedding c.width x)) z
      have h2 := addT_shape (addPosEmbs w.posEmbedding (dense w.embedding c.width x')) z'
      rw [he] at h1
      rw [he'] at h2
      exact Or.inl ⟨e, h1.symm, h2.symm⟩
  rcases hadd with ⟨e, h1, h2⟩ | ⟨S, S', h1, h2⟩
  · rw [h1, h2]; rfl
  · rw [h1, h2]; exact hz.dense w.patches _

/-- **C106, for kernels of length one along the first axis.** Example `b` of one batch and example `b'` of another one with the
same values and the same noise: the network raises the same exception for both batches, or the outputs for the two examples
are equal. -/
theorem C106_partial {c : MSConfig} (hk : c.poolingKernel.1 = 1) (hq : c.poolingStridesQ.1 = 1)
    (hi : c.initialKvStrides.1 = 1) (act : ℝ → ℝ) (w : ModelW) (proc proc' : Processor) (p : ProcConfig) (m : Bool)
    (x x' : Tensor) {b b' : ℕ} (hb : b < x.shape.batch) (hb' : b' < x'.shape.batch) (hs : x'.shape.seq = x.shape.seq)
    (hc : x'.shape.chan = x.shape.chan)
    (hv : ∀ t < x.shape.seq, ∀ k < x.shape.chan, x.val b t k = x'.val b' t k) (hp : ∀ i, proc b i = proc' b' i) :
    (∃ e, modelT act w proc c p m x = .error e ∧ modelT act w proc' c p m x' = .error e) ∨
      ∃ y y', modelT act w proc c p m x = .ok y ∧ modelT act w proc' c p m x' = .ok y' ∧
        y.shape.seq = y'.shape.seq ∧ y.shape.chan = y'.shape.chan ∧
        ∀ t < y.shape.seq, ∀ k < y.shape.chan, y.val b t k = y'.val b' t k := by
  obtain ⟨B, hB⟩ : ∃ B, B = x.shape.batch := ⟨_, rfl⟩
  obtain ⟨B', hB'⟩ : ∃ B', B' = x'.shape.batch := ⟨_, rfl⟩
  rw [← hB] at hb
  rw [← hB'] at hb'
  have hx : SameEx B B' b b' x x' := ⟨hB.symm, hB'.symm, hs, hc, hv⟩
  suffices h : RelE (SameEx B B' b b') (modelT act w proc c p m x) (modelT act w proc' c p m x') by
    rcases h.cases with ⟨y, y', e, e', h⟩ | ⟨e, h, h'⟩
    · exact Or.inr ⟨y, y', e, e', h.seq.symm, h.chan.symm, h.val⟩
    · exact Or.inl ⟨e, h, h'⟩
  have hE : SameEx B B' b b' (addPosEmbs w.posEmbedding (dense w.embedding c.width x))
      (addPosEmbs w.posEmbedding (dense w.embedding c.width x')) := by
    have h1 := hx.dense w.embedding c.width
    exact ⟨h1.batch, h1.batch', h1.seq, h1.chan, fun t ht k hk => by simp only [addPosEmbs]; rw [h1.val t ht k hk]⟩
  exact modelT_rel_encoded hk hq hi act w proc proc' p m x x' hb hb' hc hE hp

/-- The default configuration: the example alone gives what it gives in a batch of 128. -/
example (act : ℝ → ℝ) (w : ModelW) (proc : Processor) (x : Tensor) (hx : x.shape = ⟨128, 144, 50⟩) {b : ℕ} (hb : b < 128) :
    ∃ y y', modelT act w proc defaultMS defaultProc true x = .ok y ∧
      modelT act w (fun _ => proc b) defaultMS defaultProc true ⟨⟨1, 144, 50⟩, fun _ => x.val b⟩ = .ok y' ∧
      ∀ t < 144, ∀ k < 50, y.val b t k = y'.val 0 t k := by
  have hok : modelShape defaultMS defaultProc true ⟨128, 144, 50⟩ = .ok ⟨128, 144, 50⟩ :=
    (C69_partial defaultMS_consistent (k := 4) rfl (by decide) (by decide) (by decide) (by decide) defaultProc true
      ⟨128, 144, 50⟩ (by decide)).2 (Or.inr (by decide))
  have hsh := modelT_shape act w proc defaultMS defaultProc true x
  rw [hx, hok] at hsh
  obtain ⟨y, hy, hys⟩ := shapeE_ok hsh
  rcases C106_partial (c := defaultMS) rfl rfl rfl act w proc (fun _ => proc b) defaultProc true x
    ⟨⟨1, 144, 50⟩, fun _ => x.val b⟩ (b := b) (b' := 0) (by rw [hx]; exact hb) one_pos (by rw [hx]) (by rw [hx])
    (fun t _ k _ => rfl) (fun i => rfl) with ⟨e, h, -⟩ | ⟨z, y', h1, h2, -, -, h3⟩
  · rw [hy] at h; simp at h
  · rw [hy] at h1
    obtain rfl : y = z := by simpa using h1
    exact ⟨y, y', hy, h2, fun t ht k hk => h3 t (by rw [hys]; exact ht) k (by rw [hys]; exact hk)⟩

/-- A network with one layer and a pooling kernel of two entries along the first axis. -/
def batchMS : MSConfig := ⟨1, 2, [], (2, 1), (1, 1), (1, 1), (1, 1), 1, true, true⟩

/-- Its weights: queries are copied, everything else passes its input on. -/
def batchW : ModelW :=
  ⟨⟨fun _ o => if o = 0 then 1 else if o = 1 then -1 else 0, fun _ => 0⟩, fun _ _ => 0,
    fun _ => ⟨unitN, ⟨copyD, zeroD, zeroD, copyD⟩, unitN, ⟨zeroD, zeroD⟩, zeroD⟩, unitN, fun _ => passW copyD, unitN,
    ⟨fun k _ => if k = 0 then 1 else 0, fun _ => 0⟩⟩

/-- Two examples with one element each; the second one has the value `a`, the first one zero. -/
def batchInput (a : ℝ) : Tensor := ⟨⟨2, 1, 1⟩, fun b _ _ => if b = 1 then a else 0⟩

theorem batch_pool (x : Tensor) (hx : x.shape = ⟨2, 1, 2⟩) : attentionPoolingT .avg x (2, 1) (1, 1) 1 =
    .ok ⟨⟨2, 1, 1, 2⟩, fun b t h k => (poolT .avg (2, 1) (1, 1) x).val b t (h * 2 + k)⟩ := by
  have hp : (poolT .avg (2, 1) (1, 1) x).shape = ⟨2, 1, 2⟩ := by simp [poolT, hx, sameLen]
  have hs : splitHeads ⟨2, 1, 2⟩ 1 = .ok ⟨2, 1, 1, 2⟩ := by decide
  unfold attentionPoolingT
  rw [if_neg (by decide), if_neg (by decide), if_neg (by decide)]
  unfold splitHeadsT
  rw [hp, hs]

theorem batch_down (x : Tensor) (hx : x.shape = ⟨2, 1, 2⟩) :
    ∃ y, downSampleT ⟨copyD, zeroD, zeroD, copyD⟩ x 1 (2, 1) (2, 1) (1, 1) (1, 1) = .ok y ∧
      y.shape = ⟨2, 1, 2⟩ ∧ ∀ c < 2, y.val 0 0 c = (x.val 0 0 c + x.val 1 0 c) / 2 := by
  have h1 : poolWindow 2 2 1 0 = [0, 1] := by decide
  have h2 : poolWindow 1 1 1 0 = [0] := by decide
  have hd : ∀ d : DenseW, (dense d x.shape.chan x).shape = ⟨2, 1, 2⟩ := fun d => by simp [dense, hx]
  have ha : attention ⟨2, 1, 1, 2⟩ ⟨2, 1, 1, 2⟩ ⟨2, 1, 1, 2⟩ = .ok ⟨2, 1, 1, 2⟩ := by decide
  unfold downSampleT
  dsimp only
  rw [batch_pool _ (hd _), batch_pool _ (hd _)]
  dsimp only
  unfold attentionT
  dsimp only
  rw [ha]
  refine ⟨_, rfl, by simp [denseHeads, addHeads, hx], fun c hc => ?_⟩
  have hz : ∀ b t k, (poolT .avg (2, 1) (1, 1) (dense zeroD x.shape.chan x)).val b t k = 0 := by
    intro b t k
    simp only [poolT, dense_zero]
    have : ∀ l l' : List ℕ, (l.flatMap fun _ => l'.map fun _ => (0 : ℝ)).sum = 0 := by
      intro l l'
      have h : ∀ y ∈ (l.flatMap fun _ => l'.map fun _ => (0 : ℝ)), y = 0 := by
        intro y hy
        simp at hy
        exact hy.2.2
      exact List.sum_eq_zero h
    rw [this, zero_div]
  have hq : ∀ k < 2, (poolT .avg (2, 1) (1, 1) (dense copyD x.shape.chan x)).val 0 0 k = (x.val 0 0 k + x.val 1 0 k) / 2 := by
    intro k hk
    have hcopy : ∀ b, (dense copyD x.shape.chan x).val b 0 k = x.val b 0 k := by
      intro b
      simp only [dense, copyD, add_zero, hx]
      rw [sum_eq_single k (fun i _ hi => by rw [if_neg hi, mul_zero]) (fun h => absurd (mem_range.2 hk) h), if_pos rfl, mul_one]
    simp only [poolT, hd, h1, h2]
    simp [hcopy]
  simp only [denseHeads, addHeads, copyD, add_zero, hz, mul_zero, sum_const_zero, zero_div, zero_add]
  rw [sum_range_one, sum_eq_single c (fun i _ hi => by rw [if_neg (by omega), mul_zero]) (fun h => absurd (mem_range.2 hc) h)]
  rw [if_pos (by omega), mul_one, zero_mul, zero_add]
  have := hq c hc
  simpa [copyD] using this

/-- The token of the first example is a multiple of `(1, -1)`. -/
def Dir (κ : ℝ) (x : Tensor) : Prop :=
  x.shape = ⟨2, 1, 2⟩ ∧ ∀ c < 2, x.val 0 0 c = κ * (if c = 0 then 1 else if c = 1 then -1 else 0)

theorem Dir.norm {κ : ℝ} (hκ : 0 ≤ κ) : ∃ κ', 0 ≤ κ' ∧ (κ = 0 → κ' = 0) ∧ (0 < κ → 0 < κ') ∧
    ∀ v : ℕ → ℝ, (∀ c < 2, v c = κ * (if c = 0 then 1 else if c = 1 then -1 else 0)) →
      ∀ c < 2, normToken 2 v c = κ' * (if c = 0 then 1 else if c = 1 then -1 else 0) := by
  rcases hκ.eq_or_lt with h | h
  · refine ⟨0, le_rfl, fun _ => rfl, fun h' => absurd h h'.ne, fun v hv c hc => ?_⟩
    rw [zero_mul]
    exact normToken_zero (fun c hc => by rw [hv c hc, ← h, zero_mul]) hc
  · obtain ⟨κ', h1, h2⟩ := normToken_unit le_rfl h
    exact ⟨κ', h1.le, fun h' => absurd h' h.ne', fun _ => h1, h2⟩

theorem Dir.layerNorm {κ : ℝ} (hκ : 0 ≤ κ) {x : Tensor} (hx : Dir κ x) :
    ∃ κ', 0 ≤ κ' ∧ (κ = 0 → κ' = 0) ∧ (0 < κ → 0 < κ') ∧ Dir κ' (layerNorm unitN x) := by
  obtain ⟨κ', h1, h2, h3, h4⟩ := Dir.norm hκ
  refine ⟨κ', h1, h2, h3, hx.1, fun c hc => ?_⟩
  simp only [Niles.layerNorm, unitN, mul_one, add_zero, hx.1]
  exact h4 _ hx.2 c hc

/-- The output of the first example when the second one is `a`. -/
theorem batch_output (act : ℝ → ℝ) (proc : Processor) (a : ℝ) (ha : 0 ≤ a) :
    ∃ y, modelT act batchW proc batchMS ⟨0, true, 2, 2, 2⟩ false (batchInput a) = .ok y ∧
      (a = 0 → y.val 0 0 0 = 0) ∧ (0 < a → 0 < y.val 0 0 0) := by
  obtain ⟨E, hE⟩ : ∃ E, E = addPosEmbs batchW.posEmbedding (dense batchW.embedding batchMS.width (batchInput a)) := ⟨_, rfl⟩
  have hEs : E.shape = ⟨2, 1, 2⟩ := by rw [hE]; rfl
  have hE0 : ∀ c < 2, E.val 0 0 c = 0 := by
    intro c _
    rw [hE]
    simp [addPosEmbs, dense, batchW, batchInput]
  have hE1 : ∀ c < 2, E.val 1 0 c = a * (if c = 0 then 1 else if c = 1 then -1 else 0) := by
    intro c _
    rw [hE]
    simp [addPosEmbs, dense, batchW, batchInput]
  -- the encoder
  obtain ⟨γ, g1, g2, g3, g4⟩ := Dir.norm ha
  have hL0 : ∀ c < 2, (layerNorm unitN E).val 0 0 c = 0 := by
    intro c hc
    simp only [layerNorm, unitN, mul_one, add_zero, hEs]
    exact normToken_zero hE0 hc
  have hL1 : ∀ c < 2, (layerNorm unitN E).val 1 0 c = γ * (if c = 0 then 1 else if c = 1 then -1 else 0) := by
    intro c hc
    simp only [layerNorm, unitN, mul_one, add_zero, hEs]
    exact g4 _ hE1 c hc
  obtain ⟨u, hu, us, uv⟩ := batch_down (layerNorm unitN E) hEs
  obtain ⟨z, hz, zs, zv⟩ := addT_same (x := u) (y := E) (by rw [us, hEs])
  have hzD : Dir (γ / 2) z := by
    refine ⟨by rw [zs, hEs], fun c hc => ?_⟩
    rw [zv 0 (by rw [hEs]; decide) 0 (by rw [hEs]; decide) c (by rw [hEs]; exact hc), uv c hc, hL0 c hc, hL1 c hc, hE0 c hc]
    ring
  obtain ⟨W, hW⟩ : ∃ W, W = batchW.encoder 0 := ⟨_, rfl⟩
  obtain ⟨X, hX, hXD⟩ : ∃ X, encoderBlockT act W E 2 1 (2, 1) (2, 1) (1, 1) (1, 1) = .ok X ∧ Dir (γ / 2) X := by
    have hs := mlpPart_shape act (passW zeroD) 2 2 z
    rw [zs, hEs, if_pos rfl, addShape_self] at hs
    obtain ⟨X, hX, hXs⟩ := shapeE_ok hs
    have hzc : z.shape.chan = 2 := by rw [zs, hEs]
    have hX' : mlpPart act (passW zeroD) z.shape.chan 2 z = .ok X := by rw [hzc]; exact hX
    have hsame := (mlpPart_pass hX').1 hzc.symm
    refine ⟨X, ?_, hXs, fun c hc => ?_⟩
    · unfold encoderBlockT
      rw [hW]
      dsimp only [batchW]
      rw [hu]
      simp only [mul_one, gt_iff_lt, lt_self_iff_false, if_false]
      rw [hz, hEs]
      exact hX
    · rw [hsame.2 0 (by rw [zs, hEs]; decide) 0 (by rw [zs, hEs]; decide) c (by rw [hzc]; exact hc), hzD.2 c hc]
  have henc : encodeT act batchW.encoder unitN batchMS E = .ok (layerNorm unitN X, []) := by
    have h1 : encodeLayerT act batchW.encoder batchMS 0 ⟨E, 1, (1, 1), []⟩ = .ok ⟨X, 1, (1, 1), []⟩ := by
      unfold encodeLayerT
      simp only [batchMS, List.not_mem_nil, if_false, hEs, or_true, if_true, ← hW, hX]
    unfold encodeT
    have h2 : List.range batchMS.depth = [0] := by decide
    rw [h2, encodeLayersT]
    have h3 : encodeLayerT act batchW.encoder batchMS 0 ⟨E, batchMS.numInitialHeads, batchMS.initialKvStrides, []⟩ =
        .ok ⟨X, 1, (1, 1), []⟩ := h1
    rw [h3]
    rfl
  obtain ⟨κ1, k1, k2, k3, k4⟩ := hXD.layerNorm (by linarith)
  -- the decoder
  obtain ⟨Y, hY, hYD⟩ : ∃ Y, decoderBlockT act (passW copyD) (layerNorm unitN X) 2 1 (1, 1) = .ok Y ∧ Dir κ1 Y := by
    have hs := decoderBlockT_shape act (passW copyD) (layerNorm unitN X) 2 1 (1, 1)
    have hb : decoderBlock ⟨2, 1, 2⟩ 2 1 (1, 1) = .ok ⟨2, 1, 2⟩ := by decide
    rw [k4.1, hb] at hs
    obtain ⟨Y, hY, hYs⟩ := shapeE_ok hs
    refine ⟨Y, hY, hYs, fun c hc => ?_⟩
    obtain ⟨v, h1, h2, h3, -⟩ := decoderBlockT_pass one_pos hY
    have h3 := h3 (by rw [k4.1])
    have e1 : v.shape = ⟨2, 1, 2⟩ := by rw [h1.1]; simp [tileT, k4.1]
    have e2 : (tileT (1, 1) (layerNorm unitN X)).shape = ⟨2, 1, 2⟩ := by rw [← h1.1, e1]
    rw [h3.2 0 (by rw [e1]; decide) 0 (by rw [e1]; decide) c (by rw [e1]; exact hc),
      h1.2 0 (by rw [e2]; decide) 0 (by rw [e2]; decide) c (by rw [e2]; exact hc)]
    simp only [tileT, k4.1]
    rw [Nat.mod_eq_of_lt hc, Nat.zero_mod]
    exact k4.2 c hc
  have hdec : decodeT act batchW.decoder unitN batchMS [] (layerNorm unitN X) = .ok (layerNorm unitN Y) := by
    have h1 : decodeLayerT act batchW.decoder batchMS [] 0 (layerNorm unitN X) = .ok Y := by
      unfold decodeLayerT
      have : batchW.decoder 0 = passW copyD := rfl
      simp only [batchMS, List.not_mem_nil, if_false, false_and, k4.1, this]
      rw [if_neg (by decide)]
      have : 2 / 2 = 1 := rfl
      rw [this, hY]
    unfold decodeT
    have h2 : (List.range batchMS.depth).reverse = [0] := by decide
    rw [h2, decodeLayersT, h1]
    rfl
  obtain ⟨κ2, l1, l2, l3, l4⟩ := hYD.layerNorm k1
  have hval : (dense batchW.patches 1 (layerNorm unitN Y)).val 0 0 0 = κ2 := by
    simp only [dense, batchW, add_zero, l4.1]
    rw [sum_eq_single 0 (fun k _ hk => by rw [if_neg hk, mul_zero]) (fun h => absurd (mem_range.2 (by decide)) h), if_pos rfl,
      mul_one, l4.2 0 (by decide)]
    simp
  refine ⟨dense batchW.patches 1 (layerNorm unitN Y), ?_, ?_, ?_⟩
  · unfold modelT
    dsimp only
    rw [if_pos (by decide), ← hE]
    have e1 : batchW.encoderNorm = unitN := rfl
    have e2 : batchW.decoderNorm = unitN := rfl
    rw [e1, e2, henc]
    dsimp only
    unfold processT
    rw [if_neg (by decide), if_neg (by decide), hdec, hEs]
    dsimp only
    rw [l4.1, addShape_self]
    rfl
  · intro h
    rw [hval, l2 (k2 (by rw [g2 h, zero_div]))]
  · intro h
    rw [hval]
    exact l3 (k3 (by linarith [g3 h]))

/-- **C106_violated.** With a pooling kernel of two entries along the first axis the closure of the first example changes when
only the second example is changed. -/
theorem C106_violated (act : ℝ → ℝ) (proc : Processor) :
    ∃ (c : MSConfig) (p : ProcConfig) (w : ModelW) (x x' y y' : Tensor), x.shape = x'.shape ∧ x.val 0 = x'.val 0 ∧
      modelT act w proc c p false x = .ok y ∧ modelT act w proc c p false x' = .ok y' ∧ y.val 0 0 0 ≠ y'.val 0 0 0 := by
  obtain ⟨y, hy, h1, -⟩ := batch_output act proc 0 le_rfl
  obtain ⟨y', hy', -, h2⟩ := batch_output act proc 1 zero_le_one
  refine ⟨batchMS, ⟨0, true, 2, 2, 2⟩, batchW, batchInput 0, batchInput 1, y, y', rfl, ?_, hy, hy', ?_⟩
  · funext t c
    simp [batchInput]
  · rw [h1 rfl]
    exact (h2 one_pos).ne

end Verif.Niles
