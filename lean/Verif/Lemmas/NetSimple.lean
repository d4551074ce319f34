import Verif.Lemmas.NetTile

/-!
# Networks without attention and multilayer perceptrons

With the last layers of attention and multilayer perceptron zero, the blocks pass their input on, or its projection.
-/

namespace Verif.Niles

open Finset

/-- A dense layer with zero weights. -/
def zeroD : DenseW := ⟨fun _ _ => 0, fun _ => 0⟩

/-- The norm with its initial weights. -/
def unitN : NormW := ⟨fun _ => 1, fun _ => 0⟩

/-- A dense layer that copies the channels. -/
def copyD : DenseW := ⟨fun k o => if k = o then 1 else 0, fun _ => 0⟩

/-- A block that only passes its input on; the projection of the channels is `p`. -/
def passW (p : DenseW) : BlockW := ⟨unitN, ⟨zeroD, zeroD, zeroD, zeroD⟩, unitN, ⟨zeroD, zeroD⟩, p⟩

/-- One token is a multiple of `(1, -1, 0, ...)`, the others are zero. -/
def Single (t₀ : ℕ) (x : Tensor) : Prop :=
  ∃ κ : ℝ, 0 < κ ∧ ∀ b < x.shape.batch, ∀ t < x.shape.seq, ∀ c < x.shape.chan,
    x.val b t c = if t = t₀ then κ * (if c = 0 then 1 else if c = 1 then -1 else 0) else 0

/-- All values are zero. -/
def Zero (x : Tensor) : Prop := ∀ b < x.shape.batch, ∀ t < x.shape.seq, ∀ c < x.shape.chan, x.val b t c = 0

/-- Two arrays have the same values. -/
def SameT (x y : Tensor) : Prop :=
  x.shape = y.shape ∧ ∀ b < y.shape.batch, ∀ t < y.shape.seq, ∀ c < y.shape.chan, x.val b t c = y.val b t c

theorem Single.same {t₀ : ℕ} {x y : Tensor} (h : Single t₀ y) (hs : SameT x y) : Single t₀ x := by
  obtain ⟨κ, h0, hv⟩ := h
  refine ⟨κ, h0, fun b hb t ht c hc => ?_⟩
  rw [hs.1] at hb ht hc
  rw [hs.2 b hb t ht c hc, hv b hb t ht c hc]

theorem Zero.same {x y : Tensor} (h : Zero y) (hs : SameT x y) : Zero x := by
  intro b hb t ht c hc
  rw [hs.1] at hb ht hc
  rw [hs.2 b hb t ht c hc, h b hb t ht c hc]

theorem sum_unit {n : ℕ} (hn : 2 ≤ n) : ∑ i ∈ range n, (if i = 0 then (1 : ℝ) else if i = 1 then -1 else 0) = 0 := by
  obtain ⟨m, rfl⟩ : ∃ m, n = 2 + m := ⟨n - 2, by omega⟩
  rw [sum_range_add, sum_range_succ, sum_range_one]
  have : ∑ x ∈ range m, (if 2 + x = 0 then (1 : ℝ) else if 2 + x = 1 then -1 else 0) = 0 :=
    sum_eq_zero fun x _ => by rw [if_neg (by omega), if_neg (by omega)]
  rw [this]
  norm_num

/-- The norm keeps the direction. -/
theorem normToken_unit {n : ℕ} (hn : 2 ≤ n) {κ : ℝ} (hκ : 0 < κ) :
    ∃ κ' : ℝ, 0 < κ' ∧ ∀ v : ℕ → ℝ, (∀ c < n, v c = κ * (if c = 0 then 1 else if c = 1 then -1 else 0)) →
      ∀ c < n, normToken n v c = κ' * (if c = 0 then 1 else if c = 1 then -1 else 0) := by
  obtain ⟨e, he⟩ : ∃ e : ℕ → ℝ, e = fun c => if c = 0 then 1 else if c = 1 then -1 else 0 := ⟨_, rfl⟩
  obtain ⟨V, hV⟩ : ∃ V : ℝ, V = (∑ i ∈ range n, (κ * e i) ^ 2) / n + 1 / 10 ^ 6 := ⟨_, rfl⟩
  have hVp : 0 < V := by
    rw [hV]
    have : 0 ≤ (∑ i ∈ range n, (κ * e i) ^ 2) / (n : ℝ) := div_nonneg (sum_nonneg fun i _ => sq_nonneg _) (Nat.cast_nonneg n)
    positivity
  refine ⟨κ / Real.sqrt V, div_pos hκ (Real.sqrt_pos.2 hVp), fun v hv c hc => ?_⟩
  have hm : (∑ i ∈ range n, v i) = 0 := by
    rw [sum_congr rfl fun i hi => hv i (mem_range.1 hi), ← mul_sum, sum_unit hn, mul_zero]
  have h2 : ∑ i ∈ range n, (v i - 0) ^ 2 = ∑ i ∈ range n, (κ * e i) ^ 2 :=
    sum_congr rfl fun i hi => by rw [sub_zero, hv i (mem_range.1 hi), he]
  unfold normToken
  dsimp only
  rw [hm, zero_div, h2, ← hV, sub_zero, hv c hc]
  ring

theorem normToken_zero {n : ℕ} {v : ℕ → ℝ} (h : ∀ c < n, v c = 0) {c : ℕ} (hc : c < n) : normToken n v c = 0 := by
  have hm : (∑ i ∈ range n, v i) = 0 := sum_eq_zero fun i hi => h i (mem_range.1 hi)
  unfold normToken
  dsimp only
  rw [hm, h c hc]
  simp

theorem Single.norm {t₀ : ℕ} {x : Tensor} (h : Single t₀ x) (hc : 2 ≤ x.shape.chan) : Single t₀ (layerNorm unitN x) := by
  obtain ⟨κ, h0, hv⟩ := h
  obtain ⟨κ', h0', hv'⟩ := normToken_unit hc h0
  refine ⟨κ', h0', fun b hb t ht c hc => ?_⟩
  simp only [layerNorm, unitN, mul_one, add_zero] at hb ht hc ⊢
  by_cases h1 : t = t₀
  · rw [if_pos h1]
    exact hv' _ (fun c hc => by rw [hv b hb t ht c hc, if_pos h1]) c hc
  · rw [if_neg h1]
    exact normToken_zero (fun c hc => by rw [hv b hb t ht c hc, if_neg h1]) hc

/-- Copying channels to a larger or a smaller number of channels. -/
theorem Single.copy {t₀ : ℕ} {x : Tensor} (h : Single t₀ x) (hc : 2 ≤ x.shape.chan) (o : ℕ) :
    Single t₀ (dense copyD o x) := by
  obtain ⟨κ, h0, hv⟩ := h
  refine ⟨κ, h0, fun b hb t ht c _ => ?_⟩
  simp only [dense, copyD, add_zero] at hb ht ⊢
  by_cases h1 : c < x.shape.chan
  · rw [sum_eq_single c (fun k _ hk => by rw [if_neg hk, mul_zero]) (fun h => absurd (mem_range.2 h1) h), if_pos rfl, mul_one,
      hv b hb t ht c h1]
  · rw [sum_eq_zero fun k hk => by rw [if_neg (by have := mem_range.1 hk; omega), mul_zero]]
    rw [if_neg (by omega : ¬ c = 0), if_neg (by omega : ¬ c = 1), mul_zero, ite_self]

theorem dense_zero (o : ℕ) (x : Tensor) (b t c : ℕ) : (dense zeroD o x).val b t c = 0 := by
  simp [dense, zeroD]

theorem denseHeads_zero (o : ℕ) (x : HTensor) (b t c : ℕ) : (denseHeads zeroD o x).val b t c = 0 := by
  simp [denseHeads, zeroD]

theorem addT_zero {x y z : Tensor} (hs : x.shape = y.shape) (h0 : Zero x) (h : addT x y = .ok z) : SameT z y := by
  obtain ⟨z', e, hz, hv⟩ := addT_same hs
  rw [e] at h
  obtain rfl : z' = z := by simpa using h
  refine ⟨hz, fun b hb t ht c hc => ?_⟩
  rw [hv b hb t ht c hc, h0 b (hs ▸ hb) t (hs ▸ ht) c (hs ▸ hc), zero_add]

/-- The second half of a block that passes its input on. -/
theorem mlpPart_pass {act : ℝ → ℝ} {p : DenseW} {o : ℕ} {x y : Tensor} (h : mlpPart act (passW p) x.shape.chan o x = .ok y) :
    (o = x.shape.chan → SameT y x) ∧ (o ≠ x.shape.chan → SameT y (dense p o (layerNorm unitN x))) := by
  unfold mlpPart at h
  dsimp only at h
  have h0 : Zero (mlpBlock act (passW p).mlp (x.shape.chan * 4) o (layerNorm (passW p).norm2 x)) :=
    fun b _ t _ c _ => dense_zero _ _ b t c
  constructor
  · intro ho
    rw [if_pos ho] at h
    exact addT_zero (by rw [ho]; rfl) h0 h
  · intro ho
    rw [if_neg ho] at h
    exact addT_zero (y := dense p o (layerNorm unitN x)) (by rfl) h0 h

theorem upSampleT_ok {w : AttnW} {x y : Tensor} {k : ℕ} {reps : ℕ × ℕ} (h : upSampleT w x k reps = .ok y) :
    y.shape = ⟨x.shape.batch, x.shape.seq * reps.1, x.shape.chan⟩ := by
  have := upSampleT_shape w x k reps
  rw [h] at this
  simp only [shapeE, upSample] at this
  split_ifs at this
  simp only [attention] at this
  simp at this
  exact this

theorem upSampleT_pass {p : DenseW} {x y : Tensor} {k : ℕ} {reps : ℕ × ℕ} (h : upSampleT (passW p).attn x k reps = .ok y) :
    Zero y := by
  unfold upSampleT at h
  dsimp only at h
  split_ifs at h
  cases h1 : splitHeadsT (tileT reps (dense (passW p).attn.query x.shape.chan x)) k with
  | error e => rw [h1] at h; simp at h
  | ok q =>
    rw [h1] at h
    cases h2 : splitHeadsT (tileT reps (dense (passW p).attn.key x.shape.chan x)) k with
    | error e => rw [h2] at h; simp at h
    | ok q2 =>
      rw [h2] at h
      cases h3 : splitHeadsT (tileT reps (dense (passW p).attn.value x.shape.chan x)) k with
      | error e => rw [h3] at h; simp at h
      | ok v =>
        rw [h3] at h
        dsimp only at h
        cases h4 : attentionT q q2 v with
        | error e => rw [h4] at h; simp at h
        | ok z =>
          rw [h4] at h
          obtain rfl : _ = y := by simpa using h
          exact fun b _ t _ c _ => denseHeads_zero _ _ b t c

/-- A decoder block that passes its input on. -/
theorem decoderBlockT_pass {act : ℝ → ℝ} {p : DenseW} {o k s : ℕ} (hs : 0 < s) {x y : Tensor}
    (h : decoderBlockT act (passW p) x o k (s, 1) = .ok y) :
    ∃ z, SameT z (tileT (s, 1) x) ∧ z.shape.chan = x.shape.chan ∧ (o = x.shape.chan → SameT y z) ∧
      (o ≠ x.shape.chan → SameT y (dense p o (layerNorm unitN z))) := by
  unfold decoderBlockT at h
  cases h1 : upSampleT (passW p).attn (layerNorm (passW p).norm1 x) k (s, 1) with
  | error e => rw [h1] at h; simp at h
  | ok u =>
    rw [h1] at h
    dsimp only at h
    have su : u.shape = ⟨x.shape.batch, x.shape.seq * s, x.shape.chan⟩ := upSampleT_ok h1
    have zu := upSampleT_pass h1
    have hr : SameT (if s * 1 > 1 then tileT (s, 1) x else x) (tileT (s, 1) x) := by
      split_ifs with h2
      · exact ⟨rfl, fun _ _ _ _ _ _ => rfl⟩
      · obtain rfl : s = 1 := by omega
        refine ⟨by simp [tileT], fun b _ t ht c hc => ?_⟩
        simp only [tileT, mul_one] at ht hc ⊢
        rw [Nat.mod_eq_of_lt ht, Nat.mod_eq_of_lt hc]
    cases h2 : addT u (if s * 1 > 1 then tileT (s, 1) x else x) with
    | error e => rw [h2] at h; simp at h
    | ok z =>
      rw [h2] at h
      dsimp only at h
      have hz := addT_zero (by rw [su, hr.1]; simp [tileT]) zu h2
      have hz' : SameT z (tileT (s, 1) x) := by
        refine ⟨hz.1.trans hr.1, fun b hb t ht c hc => ?_⟩
        rw [hz.2 b (hr.1 ▸ hb) t (hr.1 ▸ ht) c (hr.1 ▸ hc), hr.2 b hb t ht c hc]
      have hzc : z.shape.chan = x.shape.chan := by rw [hz'.1]; simp [tileT]
      rw [← hzc] at h
      refine ⟨z, hz', hzc, fun ho => (mlpPart_pass h).1 (by rw [hzc]; exact ho), fun ho => (mlpPart_pass h).2 (by rw [hzc]; exact ho)⟩

theorem Zero.tile {x : Tensor} (h : Zero x) (s : ℕ) : Zero (tileT (s, 1) x) := by
  intro b hb t ht c hc
  simp only [tileT, mul_one] at hb ht hc ⊢
  have hp : 0 < x.shape.seq := Nat.pos_of_ne_zero fun h0 => by simp [h0] at ht
  exact h b hb _ (Nat.mod_lt _ hp) _ (by rw [Nat.mod_eq_of_lt hc]; exact hc)

/-- A decoder block that passes its input on keeps a single token. -/
theorem Single.decoderBlock {act : ℝ → ℝ} {t₀ o k : ℕ} {x y : Tensor} (hx : Single t₀ x) (hc : 2 ≤ x.shape.chan)
    (h : decoderBlockT act (passW copyD) x o k (1, 1) = .ok y) :
    Single t₀ y ∧ y.shape = ⟨x.shape.batch, x.shape.seq, o⟩ := by
  obtain ⟨z, hz, hzc, h1, h2⟩ := decoderBlockT_pass one_pos h
  have hz' : SameT z x := by
    have e : (tileT (1, 1) x).shape = x.shape := by simp [tileT]
    refine ⟨hz.1.trans e, fun b hb t ht c hc => ?_⟩
    rw [hz.2 b (e ▸ hb) t (e ▸ ht) c (e ▸ hc)]
    simp only [tileT]
    rw [Nat.mod_eq_of_lt ht, Nat.mod_eq_of_lt hc]
  have sz := hx.same hz'
  by_cases ho : o = x.shape.chan
  · refine ⟨sz.same (h1 ho), ?_⟩
    rw [(h1 ho).1, hz'.1, ho]
  · refine ⟨((sz.norm (hzc ▸ hc)).copy (hzc ▸ hc) o).same (h2 ho), ?_⟩
    rw [(h2 ho).1]
    simp [dense, layerNorm, hz'.1]

theorem downSampleT_pass {p : DenseW} {x y : Tensor} {k : ℕ} {pq pk sq sk : ℕ × ℕ}
    (h : downSampleT (passW p).attn x k pq pk sq sk = .ok y) : Zero y := by
  unfold downSampleT at h
  dsimp only at h
  cases h1 : attentionPoolingT .avg (dense (passW p).attn.query x.shape.chan x) pq sq k with
  | error e => rw [h1] at h; simp at h
  | ok q =>
    rw [h1] at h
    cases h2 : attentionPoolingT .avg (dense (passW p).attn.key x.shape.chan x) pk sk k with
    | error e => rw [h2] at h; simp at h
    | ok q2 =>
      rw [h2] at h
      cases h3 : attentionPoolingT .avg (dense (passW p).attn.value x.shape.chan x) pk sk k with
      | error e => rw [h3] at h; simp at h
      | ok v =>
        rw [h3] at h
        dsimp only at h
        cases h4 : attentionT q q2 v with
        | error e => rw [h4] at h; simp at h
        | ok z =>
          rw [h4] at h
          obtain rfl : _ = y := by simpa using h
          exact fun b _ t _ c _ => denseHeads_zero _ _ b t c

theorem attentionPooling_stride {x : Shape} {w : ℕ × ℕ} {k : ℕ} {q : HShape} (h : attentionPooling x w (1, 1) k = .ok q) :
    q.batch = x.batch ∧ q.seq = x.seq := by
  unfold attentionPooling splitHeads at h
  split_ifs at h <;> simp at h <;> subst h <;> simp [sameLen]

theorem downSampleT_ok {w : AttnW} {x y : Tensor} {k : ℕ} {pq pk sk : ℕ × ℕ}
    (h : downSampleT w x k pq pk (1, 1) sk = .ok y) : y.shape = x.shape := by
  have := downSampleT_shape w x k pq pk (1, 1) sk
  rw [h] at this
  simp only [shapeE, downSample] at this
  cases h1 : attentionPooling x.shape pq (1, 1) k with
  | error e => rw [h1] at this; simp at this
  | ok q =>
    rw [h1] at this
    obtain ⟨e1, e2⟩ := attentionPooling_stride h1
    cases h2 : attentionPooling x.shape pk sk k with
    | error e => rw [h2] at this; simp at this
    | ok v =>
      rw [h2] at this
      dsimp only at this
      unfold attention at this
      split_ifs at this
      · simp at this
        rw [this, e1, e2]

/-- An encoder block without strides that passes its input on keeps a single token. -/
theorem Single.encoderBlock {act : ℝ → ℝ} {t₀ o k : ℕ} {pq pk sk : ℕ × ℕ} {x y : Tensor} (hx : Single t₀ x)
    (hc : 2 ≤ x.shape.chan) (h : encoderBlockT act (passW copyD) x o k pq pk (1, 1) sk = .ok y) :
    Single t₀ y ∧ y.shape = ⟨x.shape.batch, x.shape.seq, o⟩ := by
  unfold encoderBlockT at h
  cases h1 : downSampleT (passW copyD).attn (layerNorm (passW copyD).norm1 x) k pq pk (1, 1) sk with
  | error e => rw [h1] at h; simp at h
  | ok u =>
    rw [h1] at h
    simp only [mul_one, gt_iff_lt, lt_self_iff_false, if_false] at h
    have su := downSampleT_ok h1
    have hl : (layerNorm (passW copyD).norm1 x).shape = x.shape := rfl
    rw [hl] at su
    cases h2 : addT u x with
    | error e => rw [h2] at h; simp at h
    | ok z =>
      rw [h2] at h
      dsimp only at h
      have hz := addT_zero su (downSampleT_pass h1) h2
      have hzc : z.shape.chan = x.shape.chan := by rw [hz.1]
      have sz := hx.same hz
      rw [← hzc] at h
      by_cases ho : o = z.shape.chan
      · have h3 := (mlpPart_pass h).1 ho
        exact ⟨sz.same h3, by rw [h3.1, hz.1, ho, hz.1]⟩
      · have h3 := (mlpPart_pass h).2 ho
        exact ⟨((sz.norm (hzc ▸ hc)).copy (hzc ▸ hc) o).same h3, by rw [h3.1]; simp [dense, layerNorm, hz.1]⟩

theorem encodeLayersT_append {act : ℝ → ℝ} {w : ℕ → BlockW} {c : MSConfig} (l₁ l₂ : List ℕ) {st st' : EncStateT}
    (h : encodeLayersT act w c (l₁ ++ l₂) st = .ok st') :
    ∃ s, encodeLayersT act w c l₁ st = .ok s ∧ encodeLayersT act w c l₂ s = .ok st' := by
  induction l₁ generalizing st with
  | nil => exact ⟨st, rfl, h⟩
  | cons l ls ih =>
    rw [List.cons_append, encodeLayersT] at h
    rw [encodeLayersT]
    cases h1 : encodeLayerT act w c l st with
    | error e => rw [h1] at h; simp at h
    | ok s => rw [h1] at h; exact ih h

theorem decodeLayersT_append {act : ℝ → ℝ} {w : ℕ → BlockW} {c : MSConfig} {skips : List (ℕ × Tensor)} (l₁ l₂ : List ℕ)
    {x y : Tensor} (h : decodeLayersT act w c skips (l₁ ++ l₂) x = .ok y) :
    ∃ z, decodeLayersT act w c skips l₁ x = .ok z ∧ decodeLayersT act w c skips l₂ z = .ok y := by
  induction l₁ generalizing x with
  | nil => exact ⟨x, rfl, h⟩
  | cons l ls ih =>
    rw [List.cons_append, decodeLayersT] at h
    rw [decodeLayersT]
    cases h1 : decodeLayerT act w c skips l x with
    | error e => rw [h1] at h; simp at h
    | ok s => rw [h1] at h; exact ih h

theorem encodeLayersT_skips {act : ℝ → ℝ} {w : ℕ → BlockW} {c : MSConfig} (ls : List ℕ) {st st' : EncStateT}
    (h : encodeLayersT act w c ls st = .ok st') : ∃ tail, st'.skips = st.skips ++ tail := by
  induction ls generalizing st with
  | nil =>
    simp only [encodeLayersT] at h
    obtain rfl : st = st' := by simpa using h
    exact ⟨[], by simp⟩
  | cons l ls ih =>
    rw [encodeLayersT] at h
    cases h1 : encodeLayerT act w c l st with
    | error e => rw [h1] at h; simp at h
    | ok s =>
      rw [h1] at h
      obtain ⟨tail, ht⟩ := ih h
      have : ∃ t, s.skips = st.skips ++ t := by
        unfold encodeLayerT at h1
        dsimp only at h1
        split at h1
        · simp at h1
        · obtain rfl : _ = s := by simpa using h1
          dsimp only
          split_ifs
          · exact ⟨_, rfl⟩
          · exact ⟨[], by simp⟩
      obtain ⟨t, ht'⟩ := this
      exact ⟨t ++ tail, by rw [ht, ht', List.append_assoc]⟩

/-- The number of channels before layer `k`, up to the first pooling layer. -/
def chanAt (c : MSConfig) (k : ℕ) : ℕ := if 0 < k ∧ k ∈ c.poolingLayers then c.width * 2 else c.width

theorem chanAt_two {c : MSConfig} (hw : 2 ≤ c.width) (k : ℕ) : 2 ≤ chanAt c k := by
  unfold chanAt; split_ifs <;> omega

/-- The layers before the first pooling layer keep a single token. -/
theorem Single.encodeLayers {act : ℝ → ℝ} {c : MSConfig} (hw : 2 ≤ c.width) {t₀ l₀ : ℕ} (h0 : ∀ l < l₀, l ∉ c.poolingLayers)
    {k : ℕ} (hk : k ≤ l₀) {st st' : EncStateT} (hx : Single t₀ st.x) (hc : st.x.shape.chan = c.width) (hs : st.skips = [])
    (h : encodeLayersT act (fun _ => passW copyD) c (List.range k) st = .ok st') :
    Single t₀ st'.x ∧ st'.x.shape = ⟨st.x.shape.batch, st.x.shape.seq, chanAt c k⟩ ∧ st'.skips = [] := by
  induction k generalizing st' with
  | zero =>
    simp only [List.range_zero, encodeLayersT] at h
    obtain rfl : st = st' := by simpa using h
    exact ⟨hx, by simp [chanAt, ← hc], hs⟩
  | succ k ih =>
    rw [List.range_succ] at h
    obtain ⟨s, h1, h2⟩ := encodeLayersT_append _ _ h
    obtain ⟨i1, i2, i3⟩ := ih (by omega) h1
    have hkp := h0 k (by omega)
    have e1 : s.x.shape.chan = c.width := by rw [i2]; simp [chanAt, hkp]
    rw [encodeLayersT] at h2
    cases h3 : encodeLayerT act (fun _ => passW copyD) c k s with
    | error e => rw [h3] at h2; simp at h2
    | ok s' =>
      rw [h3] at h2
      simp only [encodeLayersT] at h2
      obtain rfl : s' = st' := by simpa using h2
      unfold encodeLayerT at h3
      simp only [hkp, if_false] at h3
      split at h3
      · simp at h3
      · rename_i y hy
        obtain rfl : _ = s' := by simpa using h3
        obtain ⟨j1, j2⟩ := i1.encoderBlock (by rw [e1]; exact hw) hy
        refine ⟨j1, ?_, i3⟩
        dsimp only
        rw [j2, i2]
        simp only [chanAt, Nat.succ_pos, true_and, hkp, and_false, if_false]

/-- The layers below the first pooling layer keep a single token. -/
theorem Single.decodeLayers {act : ℝ → ℝ} {c : MSConfig} (hw : 2 ≤ c.width) {w : ℕ → BlockW} {t₀ l₀ : ℕ}
    (h0 : ∀ l < l₀, l ∉ c.poolingLayers) (hwt : ∀ l < l₀, w l = passW copyD) {skips : List (ℕ × Tensor)}
    {k : ℕ} (hk : k ≤ l₀) {x y : Tensor} (hx : Single t₀ x) (hc : x.shape.chan = chanAt c k)
    (h : decodeLayersT act w c skips (List.range k).reverse x = .ok y) :
    Single t₀ y ∧ y.shape = ⟨x.shape.batch, x.shape.seq, c.width⟩ := by
  induction k generalizing x with
  | zero =>
    simp only [List.range_zero, List.reverse_nil, decodeLayersT] at h
    obtain rfl : x = y := by simpa using h
    have : x.shape.chan = c.width := by simpa [chanAt] using hc
    exact ⟨hx, by rw [← this]⟩
  | succ k ih =>
    rw [List.range_succ, List.reverse_append, List.reverse_singleton, List.singleton_append, decodeLayersT] at h
    have hkp := h0 k (by omega)
    cases h3 : decodeLayerT act w c skips k x with
    | error e => rw [h3] at h; simp at h
    | ok z =>
      rw [h3] at h
      unfold decodeLayerT at h3
      rw [hwt k (by omega)] at h3
      simp only [hkp, if_false, false_and] at h3
      split at h3
      · simp at h3
      · split at h3
        · simp at h3
        · rename_i z' hz'
          obtain rfl : z' = z := by simpa using h3
          obtain ⟨j1, j2⟩ := hx.decoderBlock (by rw [hc]; exact chanAt_two hw _) hz'
          have e1 : z'.shape.chan = chanAt c k := by
            rw [j2, hc]
            simp only [chanAt, Nat.succ_pos, true_and, hkp, and_false, if_false]
            split_ifs <;> omega
          obtain ⟨i1, i2⟩ := ih (by omega) j1 e1 h
          exact ⟨i1, by rw [i2, j2]⟩

/-- A block that forgets its input. -/
theorem Zero.decoderBlock {act : ℝ → ℝ} {o k s : ℕ} (hs : 0 < s) {x y : Tensor}
    (hx : Zero x ∨ o ≠ x.shape.chan ∨ o = 0) (h : decoderBlockT act (passW zeroD) x o k (s, 1) = .ok y) : Zero y := by
  obtain ⟨z, hz, hzc, h1, h2⟩ := decoderBlockT_pass hs h
  by_cases ho : o = x.shape.chan
  · rcases hx with hx | hx | hx
    · exact ((hx.tile s).same hz).same (h1 ho)
    · exact absurd ho hx
    · intro b _ t _ c hc
      rw [(h1 ho).1, hzc, ← ho, hx] at hc
      omega
  · refine Zero.same (fun b _ t _ c _ => ?_) (h2 ho)
    exact dense_zero _ _ b t c

theorem addT_zero_of_shape {x y z : Tensor} (h0 : Zero x) (h : addT x y = .ok z) (hs : z.shape = y.shape) : SameT z y := by
  refine ⟨hs, fun b hb t ht c hc => ?_⟩
  unfold addT at h
  cases h1 : addShape x.shape y.shape with
  | error e => rw [h1] at h; simp at h
  | ok s =>
    rw [h1] at h
    obtain rfl : _ = z := by simpa using h
    simp only at hs ⊢
    subst hs
    unfold addShape at h1
    split at h1
    · rename_i b1 t1 c1 e1 e2 e3
      have h1 : (⟨b1, t1, c1⟩ : Shape) = y.shape := by simpa using h1
      have := congrArg Shape.batch h1
      have := congrArg Shape.seq h1
      have := congrArg Shape.chan h1
      simp only at *
      rw [h0 _ (bcastIdx_lt e1 (by omega)).1 _ (bcastIdx_lt e2 (by omega)).1 _ (bcastIdx_lt e3 (by omega)).1,
        bcastIdx_self hb, bcastIdx_self ht, bcastIdx_self hc, zero_add]
    · simp at h1

/-- The first pooling layer adds its skip connection to zero. -/
theorem decodeLayerT_skip {act : ℝ → ℝ} {c : MSConfig} {w : ℕ → BlockW} {l₀ s : ℕ} (hs : 0 < s) (ht : c.tileReps = (s, 1))
    (hu : c.useResiduals = true) (hl : l₀ ∈ c.poolingLayers) (hw : w l₀ = passW zeroD) {skips : List (ℕ × Tensor)} {X : Tensor}
    (hX : skips.lookup l₀ = some X) {x y : Tensor} (hx : Zero x ∨ l₀ + 1 ∈ c.poolingLayers)
    (h : decodeLayerT act w c skips l₀ x = .ok y) : SameT y X := by
  unfold decodeLayerT at h
  rw [hw] at h
  simp only [hl, if_true, hu, and_self, ht, hX] at h
  split at h
  · simp at h
  · split at h
    · simp at h
    · rename_i z hz
      have hz0 : Zero z := by
        refine Zero.decoderBlock hs ?_ hz
        rcases hx with hx | hx
        · exact Or.inl hx
        · rw [if_pos hx]; omega
      split at h
      · simp at h
      · rename_i u hu
        split_ifs at h with hsh
        · obtain rfl : u = y := by simpa using h
          exact addT_zero_of_shape hz0 hu hsh

/-- Between the first two pooling layers zeros stay zeros. -/
theorem decodeLayersT_zero {act : ℝ → ℝ} {c : MSConfig} {w : ℕ → BlockW} {l₀ : ℕ} (hw : ∀ l, l₀ < l → w l = passW zeroD)
    {skips : List (ℕ × Tensor)} (j : ℕ) (hn : ∀ l, l₀ < l → l ≤ l₀ + j → l ∉ c.poolingLayers) {x y : Tensor} (hx : Zero x)
    (h : decodeLayersT act w c skips (List.range (l₀ + 1 + j)).reverse x = .ok y) :
    ∃ z, Zero z ∧ decodeLayersT act w c skips (List.range (l₀ + 1)).reverse z = .ok y := by
  induction j generalizing x with
  | zero => exact ⟨x, hx, h⟩
  | succ j ih =>
    rw [← Nat.add_assoc, List.range_succ, List.reverse_append, List.reverse_singleton, List.singleton_append, decodeLayersT] at h
    have hkp := hn (l₀ + 1 + j) (by omega) (by omega)
    cases h3 : decodeLayerT act w c skips (l₀ + 1 + j) x with
    | error e => rw [h3] at h; simp at h
    | ok z =>
      rw [h3] at h
      refine ih (fun l h1 h2 => hn l h1 (by omega)) ?_ h
      unfold decodeLayerT at h3
      rw [hw _ (by omega)] at h3
      simp only [hkp, if_false, false_and] at h3
      split at h3
      · simp at h3
      · split at h3
        · simp at h3
        · rename_i z' hz'
          obtain rfl : z' = z := by simpa using h3
          exact Zero.decoderBlock one_pos (Or.inl hx) hz'

/-- The decoder returns the skip connection of the first pooling layer. -/
theorem decodeT_single {act : ℝ → ℝ} {c : MSConfig} (hw : 2 ≤ c.width) {w : ℕ → BlockW} {t₀ l₀ l₁ s : ℕ} (hs : 0 < s)
    (ht : c.tileReps = (s, 1)) (hu : c.useResiduals = true) (h0 : ∀ l < l₀, l ∉ c.poolingLayers) (hl₀ : l₀ ∈ c.poolingLayers)
    (h01 : l₀ < l₁) (hn : ∀ l, l₀ < l → l < l₁ → l ∉ c.poolingLayers) (hl₁ : l₁ ∈ c.poolingLayers) (hd : l₁ ≤ c.depth)
    (hwt : ∀ l < l₀, w l = passW copyD) (hwt' : ∀ l, l₀ ≤ l → w l = passW zeroD) {skips : List (ℕ × Tensor)} {X : Tensor}
    (hX : skips.lookup l₀ = some X) (hS : Single t₀ X) (hXc : X.shape.chan = chanAt c l₀) {x y : Tensor}
    (h : decodeT act w unitN c skips x = .ok y) : Single t₀ y ∧ y.shape = ⟨X.shape.batch, X.shape.seq, c.width⟩ := by
  unfold decodeT at h
  cases h1 : decodeLayersT act w c skips (List.range c.depth).reverse x with
  | error e => rw [h1] at h; simp at h
  | ok y' =>
    rw [h1] at h
    obtain rfl : _ = y := by simpa using h
    have hsplit : (List.range c.depth).reverse =
        ((List.range (c.depth - l₁)).map (l₁ + ·)).reverse ++ (List.range l₁).reverse := by
      rw [← List.reverse_append, ← List.range_add]
      congr 2
      omega
    rw [hsplit] at h1
    obtain ⟨z, -, h2⟩ := decodeLayersT_append _ _ h1
    have key : ∃ z', (Zero z' ∨ l₀ + 1 ∈ c.poolingLayers) ∧
        decodeLayersT act w c skips (List.range (l₀ + 1)).reverse z' = .ok y' := by
      by_cases hc : l₁ = l₀ + 1
      · exact ⟨z, Or.inr (hc ▸ hl₁), hc ▸ h2⟩
      · obtain ⟨j, hj⟩ : ∃ j, l₁ = l₀ + 1 + j + 1 := ⟨l₁ - l₀ - 2, by omega⟩
        rw [hj, List.range_succ, List.reverse_append, List.reverse_singleton, List.singleton_append, decodeLayersT] at h2
        cases h3 : decodeLayerT act w c skips (l₀ + 1 + j) z with
        | error e => rw [h3] at h2; simp at h2
        | ok u =>
          rw [h3] at h2
          have hkp := hn (l₀ + 1 + j) (by omega) (by omega)
          have hu0 : Zero u := by
            unfold decodeLayerT at h3
            rw [hwt' _ (by omega)] at h3
            simp only [hkp, if_false, false_and] at h3
            split at h3
            · simp at h3
            · split at h3
              · simp at h3
              · rename_i z' hz'
                obtain rfl : z' = u := by simpa using h3
                refine Zero.decoderBlock one_pos ?_ hz'
                have : l₀ + 1 + j + 1 ∈ c.poolingLayers := hj ▸ hl₁
                rw [if_pos this]
                omega
          obtain ⟨z', hz', h4⟩ := decodeLayersT_zero (fun l hl => hwt' l hl.le) j (fun l h1 h2 => hn l h1 (by omega)) hu0 h2
          exact ⟨z', Or.inl hz', h4⟩
    obtain ⟨z', hz', h4⟩ := key
    rw [List.range_succ, List.reverse_append, List.reverse_singleton, List.singleton_append, decodeLayersT] at h4
    cases h5 : decodeLayerT act w c skips l₀ z' with
    | error e => rw [h5] at h4; simp at h4
    | ok u =>
      rw [h5] at h4
      have hu' := decodeLayerT_skip hs ht hu hl₀ (hwt' _ le_rfl) hX hz' h5
      obtain ⟨i1, i2⟩ := Single.decodeLayers hw h0 hwt le_rfl (hS.same hu') (by rw [hu'.1, hXc]) h4
      refine ⟨i1.norm (by rw [i2]; exact hw), ?_⟩
      have : (layerNorm unitN y').shape = y'.shape := rfl
      rw [this, i2, hu'.1]

theorem Single.mean {t₀ : ℕ} {S : Shape} {l : List Tensor} (hl : l ≠ []) (h : ∀ y ∈ l, Single t₀ y ∧ y.shape = S) :
    Single t₀ (meanT S l) := by
  have key : ∀ l : List Tensor, (∀ y ∈ l, Single t₀ y ∧ y.shape = S) → ∃ κ : ℝ, (0 ≤ κ ∧ (l ≠ [] → 0 < κ)) ∧
      ∀ b < S.batch, ∀ t < S.seq, ∀ c < S.chan, (l.map fun y => y.val b t c).sum =
        if t = t₀ then κ * (if c = 0 then 1 else if c = 1 then -1 else 0) else 0 := by
    intro l
    induction l with
    | nil => exact fun _ => ⟨0, ⟨le_rfl, fun h => absurd rfl h⟩, fun b _ t _ c _ => by simp⟩
    | cons y l ih =>
      intro h
      obtain ⟨κ, ⟨h1, -⟩, h2⟩ := ih fun y hy => h y (by simp [hy])
      obtain ⟨⟨κ', h3, h4⟩, h5⟩ := h y (by simp)
      refine ⟨κ' + κ, ⟨by linarith, fun _ => by linarith⟩, fun b hb t ht c hc => ?_⟩
      rw [List.map_cons, List.sum_cons, h2 b hb t ht c hc, h4 b (h5 ▸ hb) t (h5 ▸ ht) c (h5 ▸ hc)]
      split_ifs <;> ring
  obtain ⟨κ, ⟨-, h1⟩, h2⟩ := key l h
  have hlen : 0 < (l.length : ℝ) := by exact_mod_cast List.length_pos_iff.2 hl
  refine ⟨κ / l.length, div_pos (h1 hl) hlen, fun b hb t ht c hc => ?_⟩
  simp only [meanT] at hb ht hc ⊢
  rw [h2 b hb t ht c hc]
  split_ifs <;> ring

/-- Weights that single out a token. -/
def singleW (l₀ t₀ : ℕ) : ModelW :=
  ⟨zeroD, fun t c => if t = t₀ then (if c = 0 then 1 else if c = 1 then -1 else 0) else 0, fun _ => passW copyD, unitN,
    fun l => if l < l₀ then passW copyD else passW zeroD, unitN, ⟨fun k _ => if k = 0 then 1 else 0, fun _ => 0⟩⟩

theorem decodeSamples_single {dec : Tensor → Except Err Tensor} {t₀ : ℕ} {S : Shape}
    (hdec : ∀ x y, dec x = .ok y → Single t₀ y ∧ y.shape = S) {m : Bool} {n : ℕ} {sample : ℕ → Tensor} {y : Tensor}
    (h : decodeSamples dec m n sample = .ok y) : Single t₀ y ∧ y.shape = S := by
  unfold decodeSamples at h
  cases m with
  | false => simp only [Bool.false_eq_true, if_false] at h; exact hdec _ _ h
  | true =>
    simp only [if_true] at h
    cases h1 : samplesT (fun s => dec (sample s)) n with
    | error e => rw [h1] at h; simp at h
    | ok l =>
      rw [h1] at h
      have hmem : ∀ (n : ℕ) (l : List Tensor), samplesT (fun s => dec (sample s)) n = .ok l →
          ∀ y ∈ l, Single t₀ y ∧ y.shape = S := by
        intro n
        induction n with
        | zero => intro l hl; simp only [samplesT] at hl; simp at hl; subst hl; simp
        | succ n ih =>
          intro l hl
          unfold samplesT at hl
          cases h1 : samplesT (fun s => dec (sample s)) n with
          | error e => rw [h1] at hl; simp at hl
          | ok l1 =>
            rw [h1] at hl
            cases h2 : dec (sample n) with
            | error e => simp [h2] at hl
            | ok y1 =>
              simp [h2] at hl
              subst hl
              intro y hy
              rw [List.mem_append, List.mem_singleton] at hy
              rcases hy with hy | hy
              · exact ih l1 h1 y hy
              · subst hy; exact hdec _ _ h2
      have hl := hmem n l h1
      cases l with
      | nil => simp at h
      | cons z l =>
        obtain rfl : _ = y := by simpa using h
        refine ⟨?_, (hl z (by simp)).2⟩
        rw [(hl z (by simp)).2]
        exact Single.mean (by simp) hl

/-- The mean of samples that repeat `n` tokens repeats `n` tokens. -/
theorem decodeSamples_repeats {dec : Tensor → Except Err Tensor} {d : Shape → Except Err Shape} {n : ℕ}
    (hdec : ∀ a {z}, a.shape.seq = n → dec a = .ok z →
      ∀ b < z.shape.batch, ∀ t < z.shape.seq, ∀ t' < z.shape.seq, t % n = t' % n → ∀ k < z.shape.chan, z.val b t k = z.val b t' k)
    (hsh : ∀ x, shapeE (dec x) = d x.shape) {m : Bool} {N : ℕ} {sample : ℕ → Tensor} {S : Shape} (hS : ∀ i, (sample i).shape = S)
    (hn : S.seq = n) {z : Tensor} (h : decodeSamples dec m N sample = .ok z) :
    ∀ b < z.shape.batch, ∀ t < z.shape.seq, ∀ t' < z.shape.seq, t % n = t' % n → ∀ k < z.shape.chan,
      z.val b t k = z.val b t' k := by
  unfold decodeSamples at h
  cases m with
  | false =>
    simp only [Bool.false_eq_true, if_false] at h
    exact hdec _ (by simp only [meanT]; rw [hS, hn]) h
  | true =>
    simp only [if_true] at h
    cases h1 : samplesT (fun s => dec (sample s)) N with
    | error e => rw [h1] at h; simp at h
    | ok l =>
      rw [h1] at h
      cases l with
      | nil => simp at h
      | cons z0 l0 =>
        obtain rfl : _ = z := by simpa using h
        have hmem : ∀ (N : ℕ) (l : List Tensor), samplesT (fun s => dec (sample s)) N = .ok l →
            ∀ y ∈ l, ∃ i, dec (sample i) = .ok y := by
          intro N
          induction N with
          | zero => intro l hl; simp only [samplesT] at hl; simp at hl; subst hl; simp
          | succ N ih =>
            intro l hl
            unfold samplesT at hl
            cases h1 : samplesT (fun s => dec (sample s)) N with
            | error e => rw [h1] at hl; simp at hl
            | ok l1 =>
              rw [h1] at hl
              cases h2 : dec (sample N) with
              | error e => simp [h2] at hl
              | ok y1 =>
                simp [h2] at hl
                subst hl
                intro y hy
                rw [List.mem_append, List.mem_singleton] at hy
                rcases hy with hy | hy
                · exact ih l1 h1 y hy
                · subst hy; exact ⟨N, h2⟩
        have hshape : ∀ y ∈ z0 :: l0, y.shape = z0.shape := by
          obtain ⟨i0, hi0⟩ := hmem N _ h1 z0 (by simp)
          intro y hy
          obtain ⟨i, hi⟩ := hmem N _ h1 y hy
          have e0 := hsh (sample i0)
          have e1 := hsh (sample i)
          rw [hS, hi0] at e0
          rw [hS, hi, ← e0] at e1
          simpa [shapeE] using e1
        intro b hb t ht t' ht' htt k hk
        simp only [meanT] at hb ht ht' hk ⊢
        congr 2
        refine List.map_congr_left fun y hy => ?_
        obtain ⟨i, hi⟩ := hmem N _ h1 y hy
        have hy := hshape y hy
        exact hdec _ (by rw [hS, hn]) hi b (hy ▸ hb) t (hy ▸ ht) t' (hy ▸ ht') htt k (hy ▸ hk)

end Verif.Niles
