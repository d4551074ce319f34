import Verif.Model.Network
import Mathlib.Tactic.Ring
import Mathlib.Tactic.Linarith

/-!
# The shapes of the computed arrays are those of the shape model
-/

namespace Verif.Niles

open Finset

/-- The shape of a result. -/
def shapeE : Except Err Tensor → Except Err Shape
  | .ok x => .ok x.shape
  | .error e => .error e

/-- The shape of a result with split channels. -/
def hshapeE : Except Err HTensor → Except Err HShape
  | .ok x => .ok x.shape
  | .error e => .error e

theorem shapeE_ok {r : Except Err Tensor} {s : Shape} (h : shapeE r = .ok s) : ∃ x, r = .ok x ∧ x.shape = s := by
  cases r with
  | error e => simp [shapeE] at h
  | ok x => exact ⟨x, rfl, by simpa [shapeE] using h⟩

theorem addT_shape (x y : Tensor) : shapeE (addT x y) = addShape x.shape y.shape := by
  unfold addT
  cases addShape x.shape y.shape <;> rfl

theorem splitHeadsT_shape (x : Tensor) (h : ℕ) : hshapeE (splitHeadsT x h) = splitHeads x.shape h := by
  unfold splitHeadsT
  cases splitHeads x.shape h <;> rfl

theorem attentionPoolingT_shape (m : PoolMode) (x : Tensor) (w s : ℕ × ℕ) (h : ℕ) :
    hshapeE (attentionPoolingT m x w s h) = attentionPooling x.shape w s h := by
  unfold attentionPoolingT attentionPooling
  split_ifs with h1 h2 h3
  · rfl
  · exact splitHeadsT_shape x h
  · rfl
  · rw [splitHeadsT_shape]; rfl

theorem attentionT_shape (q k v : HTensor) : hshapeE (attentionT q k v) = attention q.shape k.shape v.shape := by
  unfold attentionT
  cases attention q.shape k.shape v.shape <;> rfl

theorem downSampleT_shape (w : AttnW) (x : Tensor) (h : ℕ) (pq pk sq sk : ℕ × ℕ) :
    shapeE (downSampleT w x h pq pk sq sk) = downSample x.shape h pq pk sq sk := by
  unfold downSampleT downSample
  have hd : ∀ d : DenseW, (dense d x.shape.chan x).shape = x.shape := fun d => rfl
  have e1 := attentionPoolingT_shape .avg (dense w.query x.shape.chan x) pq sq h
  have e2 := attentionPoolingT_shape .avg (dense w.key x.shape.chan x) pk sk h
  have e3 := attentionPoolingT_shape .avg (dense w.value x.shape.chan x) pk sk h
  rw [hd] at e1 e2 e3
  rw [← e1]
  dsimp only
  cases attentionPoolingT .avg (dense w.query x.shape.chan x) pq sq h with
  | error e => rfl
  | ok q =>
    dsimp only [hshapeE]
    rw [← e2]
    cases h2 : attentionPoolingT .avg (dense w.key x.shape.chan x) pk sk h with
    | error e => rfl
    | ok k =>
      dsimp only [hshapeE]
      rw [h2] at e2
      cases h3 : attentionPoolingT .avg (dense w.value x.shape.chan x) pk sk h with
      | error e => rw [h3] at e3; rw [← e2] at e3; simp [hshapeE] at e3
      | ok v =>
        rw [h3] at e3
        have e4 := attentionT_shape q k v
        have e5 : v.shape = k.shape := by
          have := e3.trans e2.symm
          simpa [hshapeE] using this
        rw [e5] at e4
        dsimp only
        rw [← e4]
        cases attentionT q k v <;> rfl

theorem mlpPart_shape (act : ℝ → ℝ) (w : BlockW) (n o : ℕ) (x : Tensor) :
    shapeE (mlpPart act w n o x) =
      addShape ⟨x.shape.batch, x.shape.seq, o⟩ (if o = n then x.shape else ⟨x.shape.batch, x.shape.seq, o⟩) := by
  unfold mlpPart
  dsimp only
  rw [addT_shape]
  split_ifs <;> rfl

theorem encoderBlockT_shape (act : ℝ → ℝ) (w : BlockW) (x : Tensor) (o h : ℕ) (pq pk sq sk : ℕ × ℕ) :
    shapeE (encoderBlockT act w x o h pq pk sq sk) = encoderBlock x.shape o h pq pk sq sk := by
  unfold encoderBlockT encoderBlock
  have e1 := downSampleT_shape w.attn (layerNorm w.norm1 x) h pq pk sq sk
  have hl : (layerNorm w.norm1 x).shape = x.shape := rfl
  rw [hl] at e1
  rw [← e1]
  cases downSampleT w.attn (layerNorm w.norm1 x) h pq pk sq sk with
  | error e => rfl
  | ok y =>
    have fin : ∀ r : Tensor, shapeE (match addT y r with
        | .error e => .error e
        | .ok z => mlpPart act w x.shape.chan o z) = match addShape y.shape r.shape with
        | .error e => .error e
        | .ok z => addShape ⟨z.batch, z.seq, o⟩ (if o = x.shape.chan then z else ⟨z.batch, z.seq, o⟩) := by
      intro r
      rw [← addT_shape]
      cases addT y r with
      | error e => rfl
      | ok z => exact mlpPart_shape act w x.shape.chan o z
    simp only [shapeE] at *
    by_cases hs : sq.1 * sq.2 > 1
    · simp only [if_pos hs]
      have e2 := attentionPoolingT_shape .max x (resWindow sq.1, resWindow sq.2) sq h
      rw [← e2]
      cases attentionPoolingT .max x (resWindow sq.1, resWindow sq.2) sq h with
      | error e => rfl
      | ok r => exact fin (joinHeads r)
    · simp only [if_neg hs]
      exact fin x

/-- The state of the encoder loop as the shape model sees it. -/
def EncStateT.shape (st : EncStateT) : EncState :=
  ⟨st.x.shape, st.heads, st.strideKv, st.skips.map fun p => (p.1, p.2.shape)⟩

/-- The shapes of a state. -/
def stateE : Except Err EncStateT → Except Err EncState
  | .ok x => .ok x.shape
  | .error e => .error e

theorem encodeLayerT_shape (act : ℝ → ℝ) (w : ℕ → BlockW) (c : MSConfig) (l : ℕ) (st : EncStateT) :
    stateE (encodeLayerT act w c l st) = encodeLayer c l st.shape := by
  unfold encodeLayerT encodeLayer
  dsimp only [EncStateT.shape]
  rw [← encoderBlockT_shape act (w l)]
  generalize encoderBlockT act (w l) st.x _ _ _ _ _ _ = r
  cases r with
  | error e => rfl
  | ok y =>
    dsimp only [shapeE, stateE, EncStateT.shape]
    congr 2
    split_ifs <;> simp

theorem encodeLayersT_shape (act : ℝ → ℝ) (w : ℕ → BlockW) (c : MSConfig) (ls : List ℕ) (st : EncStateT) :
    stateE (encodeLayersT act w c ls st) = encodeLayers c ls st.shape := by
  induction ls generalizing st with
  | nil => rfl
  | cons l ls ih =>
    unfold encodeLayersT encodeLayers
    rw [← encodeLayerT_shape act w]
    cases encodeLayerT act w c l st with
    | error e => rfl
    | ok st' => exact ih st'

/-- The shapes of output and skip connections. -/
def encE : Except Err (Tensor × List (ℕ × Tensor)) → Except Err (Shape × List (ℕ × Shape))
  | .ok x => .ok (x.1.shape, x.2.map fun p => (p.1, p.2.shape))
  | .error e => .error e

theorem encodeT_shape (act : ℝ → ℝ) (w : ℕ → BlockW) (norm : NormW) (c : MSConfig) (x : Tensor) :
    encE (encodeT act w norm c x) = encode c x.shape := by
  unfold encodeT encode
  have := encodeLayersT_shape act w c (List.range c.depth) ⟨x, c.numInitialHeads, c.initialKvStrides, []⟩
  simp only [EncStateT.shape, List.map_nil] at this
  rw [← this]
  cases encodeLayersT act w c (List.range c.depth) ⟨x, c.numInitialHeads, c.initialKvStrides, []⟩ <;> rfl

theorem upSampleT_shape (w : AttnW) (x : Tensor) (h : ℕ) (reps : ℕ × ℕ) :
    shapeE (upSampleT w x h reps) = upSample x.shape h reps := by
  unfold upSampleT upSample
  dsimp only
  split_ifs with h0
  · rfl
  · push Not at h0
    have hs : splitHeads ⟨x.shape.batch, x.shape.seq * reps.1, x.shape.chan * reps.2⟩ h =
        .ok ⟨x.shape.batch, x.shape.seq * reps.1, h, x.shape.chan * reps.2 / h⟩ := by
      unfold splitHeads
      rw [if_neg h0.1, if_pos (Nat.mul_div_cancel' (Nat.dvd_of_mod_eq_zero h0.2))]
    have hd : ∀ d : DenseW, (tileT reps (dense d x.shape.chan x)).shape =
        ⟨x.shape.batch, x.shape.seq * reps.1, x.shape.chan * reps.2⟩ := fun d => rfl
    have hsplit : ∀ d : DenseW, ∃ q, splitHeadsT (tileT reps (dense d x.shape.chan x)) h = .ok q ∧
        q.shape = ⟨x.shape.batch, x.shape.seq * reps.1, h, x.shape.chan * reps.2 / h⟩ := by
      intro d
      have e := splitHeadsT_shape (tileT reps (dense d x.shape.chan x)) h
      rw [hd, hs] at e
      cases hq : splitHeadsT (tileT reps (dense d x.shape.chan x)) h with
      | error e' => rw [hq] at e; simp [hshapeE] at e
      | ok q => rw [hq] at e; exact ⟨q, rfl, by simpa [hshapeE] using e⟩
    obtain ⟨q, hq, eq⟩ := hsplit w.query
    obtain ⟨k, hk, ek⟩ := hsplit w.key
    obtain ⟨v, hv, ev⟩ := hsplit w.value
    rw [hq, hk, hv]
    dsimp only
    have e4 := attentionT_shape q k v
    rw [eq, ek, ev] at e4
    rw [← e4]
    cases attentionT q k v <;> rfl

theorem decoderBlockT_shape (act : ℝ → ℝ) (w : BlockW) (x : Tensor) (o h : ℕ) (reps : ℕ × ℕ) :
    shapeE (decoderBlockT act w x o h reps) = decoderBlock x.shape o h reps := by
  unfold decoderBlockT decoderBlock
  have e1 := upSampleT_shape w.attn (layerNorm w.norm1 x) h reps
  have hl : (layerNorm w.norm1 x).shape = x.shape := rfl
  rw [hl] at e1
  rw [← e1]
  cases upSampleT w.attn (layerNorm w.norm1 x) h reps with
  | error e => rfl
  | ok y =>
    dsimp only [shapeE]
    have e2 := addT_shape y (if reps.1 * reps.2 > 1 then tileT reps x else x)
    have e3 : (if reps.1 * reps.2 > 1 then tileT reps x else x).shape =
        if reps.1 * reps.2 > 1 then ⟨x.shape.batch, x.shape.seq * reps.1, x.shape.chan * reps.2⟩ else x.shape := by
      split_ifs <;> rfl
    rw [e3] at e2
    rw [← e2]
    cases addT y (if reps.1 * reps.2 > 1 then tileT reps x else x) with
    | error e => rfl
    | ok z => exact mlpPart_shape act w x.shape.chan o z

theorem lookup_map_shape (skips : List (ℕ × Tensor)) (l : ℕ) :
    (skips.map fun p => (p.1, p.2.shape)).lookup l = (skips.lookup l).map Tensor.shape := by
  induction skips with
  | nil => rfl
  | cons p ps ih =>
    obtain ⟨i, x⟩ := p
    simp only [List.map_cons, List.lookup_cons]
    cases l == i <;> simp [ih]

theorem decodeLayerT_shape (act : ℝ → ℝ) (w : ℕ → BlockW) (c : MSConfig) (skips : List (ℕ × Tensor)) (l : ℕ) (x : Tensor) :
    shapeE (decodeLayerT act w c skips l x) = decodeLayer c (skips.map fun p => (p.1, p.2.shape)) l x.shape := by
  unfold decodeLayerT decodeLayer
  dsimp only
  split_ifs with h0 h1 h2 <;> try rfl
  all_goals
    rw [← decoderBlockT_shape act (w l)]
    generalize decoderBlockT act (w l) x _ _ _ = r
    cases r with
    | error e => rfl
    | ok y =>
      dsimp only [shapeE]
      first
        | done
        | rw [lookup_map_shape]
          cases skips.lookup l with
          | none => rfl
          | some s =>
            dsimp only [Option.map_some]
            rw [← addT_shape]
            cases addT y s with
            | error e => rfl
            | ok z =>
              dsimp only [shapeE]
              split_ifs <;> rfl

theorem decodeLayersT_shape (act : ℝ → ℝ) (w : ℕ → BlockW) (c : MSConfig) (skips : List (ℕ × Tensor)) (ls : List ℕ) (x : Tensor) :
    shapeE (decodeLayersT act w c skips ls x) = decodeLayers c (skips.map fun p => (p.1, p.2.shape)) ls x.shape := by
  induction ls generalizing x with
  | nil => rfl
  | cons l ls ih =>
    unfold decodeLayersT decodeLayers
    rw [← decodeLayerT_shape act w]
    cases decodeLayerT act w c skips l x with
    | error e => rfl
    | ok y => exact ih y

theorem decodeT_shape (act : ℝ → ℝ) (w : ℕ → BlockW) (norm : NormW) (c : MSConfig) (skips : List (ℕ × Tensor)) (x : Tensor) :
    shapeE (decodeT act w norm c skips x) = decode c (skips.map fun p => (p.1, p.2.shape)) x.shape := by
  unfold decodeT decode
  rw [← decodeLayersT_shape act w]
  cases decodeLayersT act w c skips (List.range c.depth).reverse x <;> rfl

theorem samplesT_shape {f : ℕ → Except Err Tensor} {s : Except Err Shape} (hf : ∀ i, shapeE (f i) = s) (n : ℕ) :
    (∃ e, s = .error e ∧ samplesT f (n + 1) = .error e) ∨
      ∃ z l, s = .ok z ∧ samplesT f n = .ok l ∧ l.length = n ∧ (∀ y ∈ l, y.shape = z) ∧ ∀ i, (h : i < l.length) → f i = .ok l[i] := by
  cases s with
  | error e =>
    left
    refine ⟨e, rfl, ?_⟩
    induction n with
    | zero =>
      have := hf 0
      unfold samplesT
      simp only [samplesT]
      cases h : f 0 with
      | error e' => rw [h] at this; simpa [shapeE] using this
      | ok y => rw [h] at this; simp [shapeE] at this
    | succ n ih => unfold samplesT; rw [ih]
  | ok z =>
    right
    induction n with
    | zero => exact ⟨z, [], rfl, rfl, rfl, by simp, by simp⟩
    | succ n ih =>
      obtain ⟨z', l, hz, hl, hn, hs, hi⟩ := ih
      obtain ⟨y, hy, hys⟩ := shapeE_ok (hf n)
      refine ⟨z', l ++ [y], hz, ?_, by simp [hn], ?_, ?_⟩
      · unfold samplesT
        rw [hl, hy]
      · intro y' hy'
        rw [List.mem_append, List.mem_singleton] at hy'
        rcases hy' with h | h
        · exact hs _ h
        · rw [h, hys]; simpa using hz
      · intro i h
        by_cases hin : i < l.length
        · rw [List.getElem_append_left hin]; exact hi i hin
        · have : i = n := by simp at h; omega
          subst this
          rw [hy, List.getElem_append_right (by omega)]
          simp

theorem decodeSamples_shape {dec : Tensor → Except Err Tensor} {d : Shape → Except Err Shape}
    (hd : ∀ x, shapeE (dec x) = d x.shape) (m : Bool) {n : ℕ} (hn : 0 < n) {sample : ℕ → Tensor} {s : Shape}
    (hs : ∀ i, (sample i).shape = s) : shapeE (decodeSamples dec m n sample) = d s := by
  unfold decodeSamples
  cases m with
  | false =>
    simp only [Bool.false_eq_true, if_false]
    rw [hd]
    simp [meanT, hs]
  | true =>
    simp only [if_true]
    obtain ⟨n, rfl⟩ := Nat.exists_eq_succ_of_ne_zero hn.ne'
    have hf : ∀ i, shapeE (dec (sample i)) = d s := fun i => by rw [hd, hs]
    rcases samplesT_shape hf n with ⟨e, he, h⟩ | ⟨z, l, hz, -, -, -, -⟩
    · rw [Nat.succ_eq_add_one, h, he]; rfl
    · rcases samplesT_shape hf (n + 1) with ⟨e, he, h⟩ | ⟨z', l', hz', h', hn', hs', -⟩
      · rw [hz] at he; simp at he
      · rw [Nat.succ_eq_add_one, h', hz']
        match l', hn', hs' with
        | y :: l', _, hs' =>
          dsimp only [shapeE, meanT]
          rw [hs' y (by simp)]

/-- The arrays of `Model.__call__` have the shapes computed by the shape model, and the same exceptions are raised. -/
theorem modelT_shape (act : ℝ → ℝ) (w : ModelW) (proc : Processor) (c : MSConfig) (p : ProcConfig) (m : Bool) (x : Tensor) :
    shapeE (modelT act w proc c p m x) = modelShape c p m x.shape := by
  unfold modelT modelShape
  dsimp only
  by_cases h0 : c.depth > 0
  · rw [if_pos h0, if_pos h0]
    have e1 := encodeT_shape act w.encoder w.encoderNorm c (addPosEmbs w.posEmbedding (dense w.embedding c.width x))
    have hs : (addPosEmbs w.posEmbedding (dense w.embedding c.width x)).shape = ⟨x.shape.batch, x.shape.seq, c.width⟩ := rfl
    rw [hs] at e1
    rw [← e1]
    cases encodeT act w.encoder w.encoderNorm c (addPosEmbs w.posEmbedding (dense w.embedding c.width x)) with
    | error e => rfl
    | ok r =>
      obtain ⟨y, skips⟩ := r
      simp only [encE]
      have fin : ∀ {r : Except Err Tensor} {s : Except Err Shape}, shapeE r = s → shapeE (match r with
          | .error e => .error e
          | .ok y => match addShape (addPosEmbs w.posEmbedding (dense w.embedding c.width x)).shape y.shape with
            | .error e => .error e
            | .ok _ => .ok (dense w.patches x.shape.chan y)) = match s with
          | .error e => .error e
          | .ok y => match addShape ⟨x.shape.batch, x.shape.seq, c.width⟩ y with
            | .error e => .error e
            | .ok _ => .ok ⟨y.batch, y.seq, x.shape.chan⟩ := by
        intro r s hr
        subst hr
        cases r with
        | error e => rfl
        | ok y =>
          simp only [shapeE, hs]
          cases addShape ⟨x.shape.batch, x.shape.seq, c.width⟩ y.shape <;> rfl
      apply fin
      unfold processT
      by_cases h1 : p.numSamples > 0
      · rw [if_pos h1, if_pos h1]
        cases hl : latentSDE p y.shape with
        | error e => rfl
        | ok ps =>
          cases ps with
          | rank3 a b d => rfl
          | rank4 a b d e =>
            dsimp only
            have hb : 0 < b := by
              have := hl
              unfold latentSDE at this
              split at this
              · split at this
                · simp at this
                · split at this
                  · split at this
                    · simp at this
                    · simp at this; omega
                  · split at this <;> simp at this
              · split at this
                · simp at this
                · split at this <;> simp at this
            exact decodeSamples_shape (fun z => decodeT_shape act w.decoder w.decoderNorm c skips z) m hb fun i => rfl
      · rw [if_neg h1, if_neg h1]
        by_cases h2 : m = true
        · rw [if_pos h2, if_pos h2]; rfl
        · rw [if_neg h2, if_neg h2]
          exact decodeT_shape act w.decoder w.decoderNorm c skips y
  · rw [if_neg h0, if_neg h0]
    rfl

end Verif.Niles
