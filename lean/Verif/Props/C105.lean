import Verif.Lemmas.NetSimple
import Verif.Props.C66_C70

/-!
# C105: the closure network can tell the elements of a mesh apart

Full statement: for every configuration in which the network runs and every element there are weights for which the closure
of that element differs from the closure of every other element. It holds with skip connections, for two pooling layers or
more (`C105_partial`). Without skip connections it fails for every choice of weights: the decoder upsamples by repeating the
sequence, queries as well as keys and values, so that each pooled token only gets copied (`C105_violated`). Missing from
`C105_partial`: a single pooling layer, where the trajectories of the processor reach the skip connection unchanged.
-/

namespace Verif.Niles

open Finset

/-- **C105, with skip connections.** Let `l₀` and `l₁` be the first two pooling layers. For every element `t₀` there are
weights with which the closure is positive in that element and zero in all others, whatever the inputs and the processor. -/
theorem C105_partial {c : MSConfig} (hw : 2 ≤ c.width) {l₀ l₁ s : ℕ} (hs : 0 < s) (ht : c.tileReps = (s, 1))
    (hu : c.useResiduals = true) (h0 : ∀ l < l₀, l ∉ c.poolingLayers) (hl₀ : l₀ ∈ c.poolingLayers)
    (h01 : l₀ < l₁) (hn : ∀ l, l₀ < l → l < l₁ → l ∉ c.poolingLayers) (hl₁ : l₁ ∈ c.poolingLayers) (hd : l₁ ≤ c.depth)
    (p : ProcConfig) (m : Bool) (S : Shape) (hok : modelShape c p m S = .ok S) (t₀ : ℕ) :
    ∃ w : ModelW, ∀ (act : ℝ → ℝ) (proc : Processor) (inputs : Tensor), inputs.shape = S →
      ∃ y, modelT act w proc c p m inputs = .ok y ∧ y.shape = S ∧
        ∀ b < S.batch, ∀ t < S.seq, ∀ o < S.chan, (t = t₀ → 0 < y.val b t o) ∧ (t ≠ t₀ → y.val b t o = 0) := by
  refine ⟨singleW l₀ t₀, fun act proc inputs hS => ?_⟩
  have hsh := modelT_shape act (singleW l₀ t₀) proc c p m inputs
  rw [hS, hok] at hsh
  obtain ⟨y, hy, hys⟩ := shapeE_ok hsh
  refine ⟨y, hy, hys, ?_⟩
  obtain ⟨E, hE⟩ : ∃ E, E = addPosEmbs (singleW l₀ t₀).posEmbedding (dense (singleW l₀ t₀).embedding c.width inputs) := ⟨_, rfl⟩
  have hEs : E.shape = ⟨S.batch, S.seq, c.width⟩ := by rw [hE, ← hS]; rfl
  have hE1 : Single t₀ E := by
    refine ⟨1, one_pos, fun b _ t _ ch _ => ?_⟩
    rw [hE]
    simp only [addPosEmbs, singleW, dense_zero, zero_add, one_mul]
  unfold modelT at hy
  dsimp only at hy
  rw [if_pos (by omega), ← hE] at hy
  -- the encoder
  cases henc : encodeT act (singleW l₀ t₀).encoder (singleW l₀ t₀).encoderNorm c E with
  | error e => rw [henc] at hy; simp at hy
  | ok r =>
    obtain ⟨x, skips⟩ := r
    rw [henc] at hy
    dsimp only at hy
    have hX : ∃ X, skips.lookup l₀ = some X ∧ Single t₀ X ∧ X.shape = ⟨S.batch, S.seq, chanAt c l₀⟩ := by
      unfold encodeT at henc
      cases h1 : encodeLayersT act (singleW l₀ t₀).encoder c (List.range c.depth)
          ⟨E, c.numInitialHeads, c.initialKvStrides, []⟩ with
      | error e => rw [h1] at henc; simp at henc
      | ok st =>
        rw [h1] at henc
        have hst : st.skips = skips := by
          have : layerNorm (singleW l₀ t₀).encoderNorm st.x = x ∧ st.skips = skips := by simpa using henc
          exact this.2
        have hsplit : List.range c.depth =
            (List.range l₀ ++ [l₀]) ++ (List.range (c.depth - (l₀ + 1))).map (l₀ + 1 + ·) := by
          rw [← List.range_succ, ← List.range_add]
          congr 1
          omega
        rw [hsplit] at h1
        obtain ⟨s2, h2, h3⟩ := encodeLayersT_append _ _ h1
        obtain ⟨s1, h4, h5⟩ := encodeLayersT_append _ _ h2
        obtain ⟨i1, i2, i3⟩ := Single.encodeLayers hw h0 le_rfl (st := ⟨E, c.numInitialHeads, c.initialKvStrides, []⟩) hE1
          (by rw [hEs]) rfl h4
        obtain ⟨tail, htail⟩ := encodeLayersT_skips _ h3
        have hs2 : s2.skips = [(l₀, s1.x)] := by
          rw [encodeLayersT] at h5
          cases h6 : encodeLayerT act (singleW l₀ t₀).encoder c l₀ s1 with
          | error e => rw [h6] at h5; simp at h5
          | ok s2' =>
            rw [h6] at h5
            simp only [encodeLayersT] at h5
            obtain rfl : s2' = s2 := by simpa using h5
            unfold encodeLayerT at h6
            simp only [hl₀, if_true] at h6
            split at h6
            · simp at h6
            · obtain rfl : _ = s2' := by simpa using h6
              simp [i3]
        refine ⟨s1.x, ?_, i1, ?_⟩
        · rw [← hst, htail, hs2]
          simp
        · rw [i2, hEs]
    obtain ⟨X, hX, hX1, hXs⟩ := hX
    -- the decoder
    have hdec : ∀ x y, decodeT act (singleW l₀ t₀).decoder (singleW l₀ t₀).decoderNorm c skips x = .ok y →
        Single t₀ y ∧ y.shape = ⟨S.batch, S.seq, c.width⟩ := by
      intro x y h
      have := decodeT_single hw hs ht hu h0 hl₀ h01 hn hl₁ hd (w := (singleW l₀ t₀).decoder)
        (fun l hl => by simp [singleW, hl]) (fun l hl => by simp [singleW, not_lt.2 hl]) hX hX1 (by rw [hXs]) h
      rwa [hXs] at this
    have fin : ∀ z : Tensor, Single t₀ z ∧ z.shape = ⟨S.batch, S.seq, c.width⟩ →
        (match addShape E.shape z.shape with
          | .error e => .error e
          | .ok _ => .ok (dense (singleW l₀ t₀).patches inputs.shape.chan z)) = Except.ok y →
        ∀ b < S.batch, ∀ t < S.seq, ∀ o < S.chan, (t = t₀ → 0 < y.val b t o) ∧ (t ≠ t₀ → y.val b t o = 0) := by
      rintro z ⟨⟨κ, hκ, hz⟩, hzs⟩ h b hb t ht o ho
      rw [hzs, hEs, addShape_self] at h
      obtain rfl : _ = y := by simpa using h
      have hval : (dense (singleW l₀ t₀).patches inputs.shape.chan z).val b t o = z.val b t 0 := by
        simp only [dense, singleW, add_zero]
        rw [sum_eq_single 0 (fun k _ hk => by rw [if_neg hk, mul_zero])
          (fun h => absurd (mem_range.2 (by rw [hzs]; simp only; omega)) h), if_pos rfl, mul_one]
      rw [hval, hz b (by rw [hzs]; exact hb) t (by rw [hzs]; exact ht) 0 (by rw [hzs]; simp only; omega)]
      exact ⟨fun h => by rw [if_pos h]; simpa using hκ, fun h => by rw [if_neg h]⟩
    cases hd' : processT (decodeT act (singleW l₀ t₀).decoder (singleW l₀ t₀).decoderNorm c skips) proc p m x with
    | error e => rw [hd'] at hy; simp at hy
    | ok z =>
      rw [hd'] at hy
      refine fin z ?_ hy
      unfold processT at hd'
      split_ifs at hd'
      · split at hd'
        · simp at hd'
        · exact decodeSamples_single hdec hd'
        · simp at hd'
      · exact hdec _ _ hd'

/-- The default configuration of niles/config/niles.py 36-66: any of the 144 elements can be singled out. -/
example (t₀ : ℕ) : ∃ w : ModelW, ∀ (act : ℝ → ℝ) (proc : Processor) (inputs : Tensor), inputs.shape = ⟨128, 144, 50⟩ →
    ∃ y, modelT act w proc defaultMS defaultProc true inputs = .ok y ∧ y.shape = ⟨128, 144, 50⟩ ∧
      ∀ b < 128, ∀ t < 144, ∀ o < 50, (t = t₀ → 0 < y.val b t o) ∧ (t ≠ t₀ → y.val b t o = 0) :=
  C105_partial (l₀ := 2) (l₁ := 4) (s := 4) (by decide) (by decide) rfl rfl (by decide) (by decide) (by decide)
    (fun l h1 h2 => by obtain rfl : l = 3 := by omega
                       decide) (by decide) (by decide) defaultProc true _
    ((C69_partial defaultMS_consistent (k := 4) rfl (by decide) (by decide) (by decide) (by decide) defaultProc true
      ⟨128, 144, 50⟩ (by decide)).2 (Or.inr (by decide))) t₀

/-- **C105_block.** An upsampling block computes nothing that the block without upsampling does not compute: its output is
the repeated output of that block, or both raise the same exception. -/
theorem C105_block (act : ℝ → ℝ) (w : BlockW) (x : Tensor) (outDim heads : ℕ) {s : ℕ} (hs : 0 < s) :
    (∃ e, decoderBlockT act w x outDim heads (s, 1) = .error e ∧ decoderBlockT act w x outDim heads (1, 1) = .error e) ∨
      ∃ y z, decoderBlockT act w x outDim heads (s, 1) = .ok y ∧ decoderBlockT act w x outDim heads (1, 1) = .ok z ∧
        ∀ b < z.shape.batch, ∀ t < y.shape.seq, ∀ c < z.shape.chan, y.val b t c = z.val b (t % x.shape.seq) c := by
  rcases ((TiledOf.refl x).decoderBlock act w outDim heads hs).cases with ⟨y, z, e, e', h⟩ | ⟨e, h, h'⟩
  · exact Or.inr ⟨y, z, e, e', h.val⟩
  · exact Or.inl ⟨e, h, h'⟩

/-- **C105_violated.** Without skip connections the closures of two elements whose positions agree modulo the number `n` of
pooled tokens are equal, for all weights, activations, processors and inputs. -/
theorem C105_violated {c : MSConfig} (hd : 0 < c.depth) {s : ℕ} (hs : 0 < s) (ht : c.tileReps = (s, 1))
    (hu : c.useResiduals = false) (act : ℝ → ℝ) (w : ModelW) (proc : Processor) (p : ProcConfig) (m : Bool) (inputs y : Tensor)
    (h : modelT act w proc c p m inputs = .ok y) {n : ℕ} {S : Shape} {sk : List (ℕ × Shape)}
    (hn : encode c ⟨inputs.shape.batch, inputs.shape.seq, c.width⟩ = .ok (S, sk)) (hS : S.seq = n) {b t t' o : ℕ}
    (hb : b < y.shape.batch) (h1 : t < y.shape.seq) (h2 : t' < y.shape.seq) (h3 : t % n = t' % n) :
    y.val b t o = y.val b t' o := by
  obtain ⟨E, hE⟩ : ∃ E, E = addPosEmbs w.posEmbedding (dense w.embedding c.width inputs) := ⟨_, rfl⟩
  have hEs : E.shape = ⟨inputs.shape.batch, inputs.shape.seq, c.width⟩ := by rw [hE]; rfl
  unfold modelT at h
  dsimp only at h
  rw [if_pos hd, ← hE] at h
  have hes := encodeT_shape act w.encoder w.encoderNorm c E
  rw [hEs, hn] at hes
  cases henc : encodeT act w.encoder w.encoderNorm c E with
  | error e => rw [henc] at h; simp at h
  | ok r =>
    obtain ⟨x, skips⟩ := r
    rw [henc] at h hes
    have hx : x.shape.seq = n := by
      simp only [encE, Except.ok.injEq, Prod.mk.injEq] at hes
      rw [hes.1, hS]
    dsimp only at h
    -- every decoded array repeats `n` tokens
    have hdec : ∀ a z : Tensor, a.shape.seq = n → decodeT act w.decoder w.decoderNorm c skips a = .ok z →
        ∀ b < z.shape.batch, ∀ t < z.shape.seq, ∀ t' < z.shape.seq, t % n = t' % n → ∀ k < z.shape.chan,
          z.val b t k = z.val b t' k := by
      intro a z ha hz b hb t h1 t' h2 h3 k hk
      rcases (TiledOf.decode act w.decoder w.decoderNorm hu hs ht skips a).cases with ⟨y, y', e, e', hy⟩ | ⟨e, he, he'⟩
      · rw [e] at hz
        obtain rfl : y = z := by simpa using hz
        rw [hy.batch] at hb
        rw [hy.chan] at hk
        rw [hy.val b hb t h1 k hk, hy.val b hb t' h2 k hk, ha, h3]
      · rw [he] at hz; simp at hz
    cases hp : processT (decodeT act w.decoder w.decoderNorm c skips) proc p m x with
    | error e => rw [hp] at h; simp at h
    | ok z =>
      rw [hp] at h
      have hz : ∀ b < z.shape.batch, ∀ t < z.shape.seq, ∀ t' < z.shape.seq, t % n = t' % n → ∀ k < z.shape.chan,
          z.val b t k = z.val b t' k := by
        unfold processT at hp
        split_ifs at hp
        · cases hl : latentSDE p x.shape with
          | error e => rw [hl] at hp; simp at hp
          | ok ps =>
            cases ps with
            | rank3 _ _ _ => rw [hl] at hp; simp at hp
            | rank4 b' k s' ch =>
              rw [hl] at hp
              dsimp only at hp
              have hs' : s' = n := by
                unfold latentSDE at hl
                split at hl
                · split at hl
                  · simp at hl
                  · split at hl
                    · split at hl
                      · simp at hl
                      · simp at hl; omega
                    · split at hl <;> simp at hl
                · split at hl
                  · simp at hl
                  · split at hl <;> simp at hl
              refine decodeSamples_repeats (S := ⟨b', s', ch⟩) (fun a z => hdec a z)
                (fun a => decodeT_shape act w.decoder w.decoderNorm c skips a) ?_ hs' hp
              intro i
              rfl
        · exact hdec x z hx hp
      dsimp only at h
      cases ha : addShape E.shape z.shape with
      | error e => rw [ha] at h; simp at h
      | ok _ =>
        rw [ha] at h
        obtain rfl : _ = y := by simpa using h
        simp only [dense] at hb h1 h2 ⊢
        congr 1
        exact sum_congr rfl fun k hk => by rw [hz b hb t h1 t' h2 h3 k (mem_range.1 hk)]

/-- The default configuration without skip connections: the 144 elements get at most nine different closures. -/
example (act : ℝ → ℝ) (w : ModelW) (proc : Processor) (inputs : Tensor) (hi : inputs.shape = ⟨128, 144, 50⟩) :
    ∃ y, modelT act w proc { defaultMS with useResiduals := false } defaultProc true inputs = .ok y ∧
      ∀ b < 128, ∀ t < 135, ∀ o, y.val b t o = y.val b (t + 9) o := by
  have hc : ({ defaultMS with useResiduals := false } : MSConfig).Consistent 4 := ⟨by decide, by decide, by decide, rfl, rfl⟩
  have hok : modelShape { defaultMS with useResiduals := false } defaultProc true ⟨128, 144, 50⟩ = .ok ⟨128, 144, 50⟩ :=
    (C69_partial hc (k := 4) rfl (by decide) (by decide) (by decide) (by decide) defaultProc true ⟨128, 144, 50⟩ (by decide)).2
      (Or.inr (by decide))
  have hsh := modelT_shape act w proc { defaultMS with useResiduals := false } defaultProc true inputs
  rw [hi, hok] at hsh
  obtain ⟨y, hy, hys⟩ := shapeE_ok hsh
  obtain ⟨skips, he, -⟩ := C66_shapes hc (k := 4) rfl (by decide) (by decide) (by decide) 128 144 (by decide)
  refine ⟨y, hy, fun b hb t ht o => ?_⟩
  exact C105_violated (by decide) (s := 4) (by decide) rfl rfl act w proc defaultProc true inputs y hy (n := 9)
    (S := ⟨128, 9, 192⟩) (sk := skips) (by rw [hi]; exact he) rfl (by rw [hys]; exact hb) (by rw [hys]; simp only; omega)
    (by rw [hys]; simp only; omega) (by simp)

end Verif.Niles
