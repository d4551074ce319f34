import Verif.Lemmas.Transformer

/-! C66, C67, C69, C70: shapes of the multiscale transformer, upsampling, configurations. -/

namespace Verif.Niles

/-- The pooling layers that are executed. -/
def pools (c : MSConfig) : ℕ := ((List.range c.depth).filter (· ∈ c.poolingLayers)).length

/-- The layers after which the number of channels is doubled. -/
def doublings (c : MSConfig) : ℕ := ((List.range c.depth).filter (· + 1 ∈ c.poolingLayers)).length

theorem poolCount_eq_pools (c : MSConfig) : poolCount c 0 c.depth = pools c := by
  unfold poolCount pools; rw [List.range_eq_range']

theorem poolCount_eq_doublings (c : MSConfig) : poolCount c 1 c.depth = doublings c := by
  unfold poolCount doublings
  rw [List.range'_eq_map_range, List.filter_map, List.length_map]
  congr 2
  funext i
  simp [Nat.add_comm]

theorem encode_decode {c : MSConfig} {s : ℕ} (hc : c.Consistent s) {k : ℕ} (hkv : c.initialKvStrides = (1, k)) (hk : 0 < k)
    (hh : 0 < c.numInitialHeads)
    (hd : (if 0 ∈ c.poolingLayers then c.numInitialHeads * 2 else c.numInitialHeads) ∣ c.width) (N L : ℕ) :
    ∃ skips, encode c ⟨N, L, c.width⟩ = .ok (⟨N, lenAfter c s 0 c.depth L, c.width * 2 ^ doublings c⟩, skips) ∧
      (s ^ pools c ∣ L → decode c skips ⟨N, lenAfter c s 0 c.depth L, c.width * 2 ^ doublings c⟩ = .ok ⟨N, L, c.width⟩) ∧
      (c.useResiduals = true → ∀ y,
        decode c skips ⟨N, lenAfter c s 0 c.depth L, c.width * 2 ^ doublings c⟩ = .ok y → s ^ pools c ∣ L) := by
  obtain ⟨st', h1, h2, h3, h4, h5⟩ := layers_spec hc c.depth 0 ⟨⟨N, L, c.width⟩, c.numInitialHeads, c.initialKvStrides, []⟩
    k hkv hk hh (dvd_refl _) hc.width_pos hd
  rw [← List.range_eq_range'] at h1 h4 h5
  rw [poolCount_eq_pools] at h4 h5
  have h2' : st'.x = ⟨N, lenAfter c s 0 c.depth L, c.width * 2 ^ doublings c⟩ := by
    rw [h2, ← poolCount_eq_doublings]
  rw [h2'] at h4 h5
  simp only [List.nil_append] at h3
  refine ⟨st'.skips, ?_, ?_, ?_⟩
  · unfold encode; rw [h1, ← h2']
  · intro hdiv
    exact h4 st'.skips (by rw [h3]; exact skipsOf_lookup c s 0 c.depth _) hdiv
  · intro hu y hy
    exact (h5 hu st'.skips y (by rw [h3]; exact skipsOf_lookup c s 0 c.depth _) hy).2

/-- C66. For every depth, width, set of pooling layers, stride, number of heads and batch size: if every pooling layer
divides the sequence, the encoder shortens it by the stride once per pooling layer, and the decoder returns exactly the
shape that entered the encoder, with or without residual connections. -/
theorem C66_shapes {c : MSConfig} {s : ℕ} (hc : c.Consistent s) {k : ℕ} (hkv : c.initialKvStrides = (1, k)) (hk : 0 < k)
    (hh : 0 < c.numInitialHeads)
    (hd : (if 0 ∈ c.poolingLayers then c.numInitialHeads * 2 else c.numInitialHeads) ∣ c.width) (N L : ℕ)
    (hL : s ^ pools c ∣ L) :
    ∃ skips, encode c ⟨N, L, c.width⟩ = .ok (⟨N, L / s ^ pools c, c.width * 2 ^ doublings c⟩, skips) ∧
      decode c skips ⟨N, L / s ^ pools c, c.width * 2 ^ doublings c⟩ = .ok ⟨N, L, c.width⟩ := by
  obtain ⟨skips, h1, h2, -⟩ := encode_decode hc hkv hk hh hd N L
  have hlen : lenAfter c s 0 c.depth L = L / s ^ pools c := by
    rw [← poolCount_eq_pools]
    exact lenAfter_dvd c hc.stride_pos 0 c.depth L (by rw [poolCount_eq_pools]; exact hL)
  rw [hlen] at h1 h2
  exact ⟨skips, h1, h2 hL⟩

/-- C66, the condition on the length is necessary: with residual connections the encoder accepts every length, and the
decoder succeeds exactly when each pooling layer divides it. -/
theorem C66_length {c : MSConfig} {s : ℕ} (hc : c.Consistent s) {k : ℕ} (hkv : c.initialKvStrides = (1, k)) (hk : 0 < k)
    (hh : 0 < c.numInitialHeads)
    (hd : (if 0 ∈ c.poolingLayers then c.numInitialHeads * 2 else c.numInitialHeads) ∣ c.width)
    (hu : c.useResiduals = true) (N L : ℕ) :
    ∃ x skips, encode c ⟨N, L, c.width⟩ = .ok (x, skips) ∧ ((∃ y, decode c skips x = .ok y) ↔ s ^ pools c ∣ L) := by
  obtain ⟨skips, h1, h2, h3⟩ := encode_decode hc hkv hk hh hd N L
  exact ⟨_, skips, h1, fun ⟨y, hy⟩ => h3 hu y hy, fun h => ⟨_, h2 h⟩⟩

/-- The default configuration (niles/config/niles.py 36-46). -/
def defaultMS : MSConfig :=
  ⟨6, 48, [2, 4], (1, 5), (1, 4), (1, 4), (4, 1), 1, true, true⟩

theorem defaultMS_consistent : defaultMS.Consistent 4 := ⟨by decide, by decide, by decide, rfl, rfl⟩

example : ∃ skips, encode defaultMS ⟨128, 144, 48⟩ = .ok (⟨128, 9, 192⟩, skips) ∧
    decode defaultMS skips ⟨128, 9, 192⟩ = .ok ⟨128, 144, 48⟩ :=
  C66_shapes defaultMS_consistent (k := 4) rfl (by decide) (by decide) (by decide) 128 144 (by decide)

/-- C67, what the code does: after upsampling `r` times, position `j` holds token `j mod n` of the `n` pooled tokens. -/
theorem C67_source {α : Type*} (r : ℕ) (xs : List α) (j : ℕ) (hj : j < r * xs.length) :
    (tileSeq r xs)[j]? = xs[j % xs.length]? := by
  unfold tileSeq
  induction r generalizing j with
  | zero => omega
  | succ r ih =>
    rw [List.replicate_succ, List.flatten_cons]
    by_cases h : j < xs.length
    · rw [List.getElem?_append_left h, Nat.mod_eq_of_lt h]
    · rw [List.getElem?_append_right (by omega), ih (j - xs.length) (by rw [Nat.add_mul] at hj; omega),
        ← Nat.mod_eq_sub_mod (by omega)]

/-- C67 holds when everything is pooled into one token: every position gets the token that was pooled from it. -/
theorem C67_partial (s : ℕ) (hs : 0 < s) (j : ℕ) (hj : j < s) :
    ∃ i, (tileSeq s (List.range (sameLen s s)))[j]? = some i ∧ j ∈ poolWindow s (s + 1) s i := by
  have h1 : sameLen s s = 1 := by
    have := (mul_sameLen (L := s) hs).2 (dvd_refl s)
    exact Nat.eq_of_mul_eq_mul_left hs (by omega)
  refine ⟨0, ?_, ?_⟩
  · rw [C67_source s _ j (by rw [List.length_range, h1]; omega), h1]; simp [Nat.mod_one]
  · unfold poolWindow padLow
    rw [h1]
    simp only [Nat.sub_self, Nat.zero_mul, List.mem_filter, List.mem_range, decide_eq_true_eq]
    omega

/-- C67 is false whenever two or more tokens remain: position `1` receives token `1`, which was pooled from positions
`stride, stride + 1, ...` only. -/
theorem C67_violated (s n : ℕ) (hs : 2 ≤ s) (hn : 2 ≤ n) :
    sameLen (s * n) s = n ∧ (tileSeq s (List.range n))[1]? = some 1 ∧ 1 ∉ poolWindow (s * n) (s + 1) s 1 ∧
      1 ∈ poolWindow (s * n) (s + 1) s 0 := by
  have h1 : sameLen (s * n) s = n := by
    have := (mul_sameLen (L := s * n) (by omega)).2 (Dvd.intro _ rfl)
    exact Nat.eq_of_mul_eq_mul_left (by omega : 0 < s) this
  have hpad : padLow (s * n) (s + 1) s = 0 := by
    unfold padLow
    rw [h1]
    have : (n - 1) * s + (s + 1) - s * n = 1 := by
      obtain ⟨m, rfl⟩ : ∃ m, n = m + 1 := ⟨n - 1, by omega⟩
      rw [Nat.add_sub_cancel, Nat.mul_comm m s, Nat.mul_add]; omega
    rw [this]
  have hsn : 4 ≤ s * n := Nat.mul_le_mul hs hn
  refine ⟨h1, ?_, ?_, ?_⟩
  · rw [C67_source s _ 1 (by rw [List.length_range]; omega), List.length_range, Nat.mod_eq_of_lt (by omega),
      List.getElem?_range (by omega)]
  · unfold poolWindow; rw [hpad]; simp; omega
  · unfold poolWindow; rw [hpad]; simp; omega

example : sameLen 144 4 = 36 ∧ (tileSeq 4 (List.range 36))[1]? = some 1 ∧ 1 ∉ poolWindow 144 5 4 1 ∧
    1 ∈ poolWindow 144 5 4 0 := C67_violated 4 36 (by decide) (by decide)

/-- C69, exactly which sampling configurations run: none (without averaging after the decoder), or the transformer
processor with at least two samples on latent states of the right, even size. -/
theorem C69_partial {c : MSConfig} {s : ℕ} (hc : c.Consistent s) {k : ℕ} (hkv : c.initialKvStrides = (1, k)) (hk : 0 < k)
    (hh : 0 < c.numInitialHeads)
    (hd : (if 0 ∈ c.poolingLayers then c.numInitialHeads * 2 else c.numInitialHeads) ∣ c.width) (hdepth : 0 < c.depth)
    (p : ProcConfig) (mean : Bool) (inputs : Shape) (hL : s ^ pools c ∣ inputs.seq) :
    modelShape c p mean inputs = .ok inputs ↔
      (p.numSamples = 0 ∧ mean = false) ∨
      (2 ≤ p.numSamples ∧ p.useTransformer = true ∧ p.latentSize = c.width * 2 ^ doublings c ∧ p.latentSize % 2 = 0) := by
  obtain ⟨skips, h1, h2⟩ := C66_shapes hc hkv hk hh hd inputs.batch inputs.seq hL
  set x : Shape := ⟨inputs.batch, inputs.seq / s ^ pools c, c.width * 2 ^ doublings c⟩ with hx
  have hchan : 0 < x.chan := Nat.mul_pos hc.width_pos (by positivity)
  unfold modelShape
  rw [if_pos hdepth]
  simp only [h1]
  by_cases hn : p.numSamples > 0
  · rw [if_pos hn]
    have hn0 : p.numSamples ≠ 0 := by omega
    by_cases ht : p.useTransformer = true
    · by_cases hlat : x.chan = p.latentSize
      · by_cases h2s : 1 < p.numSamples
        · unfold latentSDE dynamicsCheck
          rw [if_pos ht, if_neg (by simpa using hlat), if_pos h2s, if_neg (by omega)]
          by_cases heven : p.latentSize % 2 = 0
          · have h2l : 2 ≤ p.latentSize := by omega
            have hmod : (x.seq * p.latentSize + 1) % p.latentSize = 1 := by
              rw [Nat.mul_add_mod', Nat.mod_eq_of_lt h2l]
            rw [if_neg (by rw [hmod]; simp), if_neg (by simp), if_neg (by simp [heven])]
            simp only [← hlat]
            rw [show (⟨x.batch, x.seq, x.chan⟩ : Shape) = x from rfl]
            simp only [h2, addShape_self, true_iff]
            exact Or.inr ⟨h2s, ht, rfl, by rw [hlat]; exact heven⟩
          · constructor
            · intro h
              by_cases hmod : (x.seq * p.latentSize + 1) % p.latentSize ≠ 1
              · rw [if_pos hmod] at h; cases h
              · rw [if_neg hmod, if_neg (by simp), if_pos heven] at h; cases h
            · rintro (⟨h, -⟩ | ⟨-, -, -, h⟩)
              · omega
              · exact absurd h heven
        · constructor
          · intro h
            unfold latentSDE at h
            rw [if_pos ht, if_neg (by simpa using hlat), if_neg h2s] at h
            cases hdc : dynamicsCheck p.latentSize (x.seq * p.latentSize) (x.seq * p.latentSize) <;>
              rw [hdc] at h <;> cases h
          · rintro (⟨h, -⟩ | ⟨h, -⟩) <;> omega
      · constructor
        · intro h
          unfold latentSDE at h
          rw [if_pos ht, if_pos (by simpa using hlat)] at h
          cases h
        · rintro (⟨h, -⟩ | ⟨-, -, h, -⟩)
          · omega
          · exact absurd h.symm hlat
    · constructor
      · intro h
        unfold latentSDE at h
        rw [if_neg ht] at h
        by_cases ha : x.seq * x.chan ≠ p.dataSize
        · rw [if_pos ha] at h; cases h
        · rw [if_neg ha] at h
          by_cases hb : p.numSamples ≠ 1
          · rw [if_pos hb] at h; cases h
          · rw [if_neg hb] at h; cases h
      · rintro (⟨h, -⟩ | ⟨-, h, -⟩)
        · omega
        · exact absurd h ht
  · rw [if_neg hn]
    have hn0 : p.numSamples = 0 := by omega
    cases mean with
    | true =>
      simp only [if_true]
      constructor
      · intro h; cases h
      · rintro (⟨-, h⟩ | ⟨h, -⟩)
        · cases h
        · omega
    | false =>
      rw [if_neg (by simp)]
      simp [h2, addShape_self, hn0]

/-- C69 is false: with one sample (the setting for the deterministic model) the call raises, whatever the processor and
the sizes. -/
theorem C69_violated {c : MSConfig} {s : ℕ} (hc : c.Consistent s) {k : ℕ} (hkv : c.initialKvStrides = (1, k)) (hk : 0 < k)
    (hh : 0 < c.numInitialHeads)
    (hd : (if 0 ∈ c.poolingLayers then c.numInitialHeads * 2 else c.numInitialHeads) ∣ c.width) (hdepth : 0 < c.depth)
    (p : ProcConfig) (hp : p.numSamples = 1) (mean : Bool) (inputs : Shape) :
    ∃ e, modelShape c p mean inputs = .error e := by
  obtain ⟨skips, h1, -⟩ := encode_decode hc hkv hk hh hd inputs.batch inputs.seq
  unfold modelShape
  rw [if_pos hdepth]
  simp only [h1]
  rw [if_pos (by omega)]
  unfold latentSDE
  by_cases ht : p.useTransformer = true
  · rw [if_pos ht]
    split_ifs with ha hb
    · exact ⟨_, rfl⟩
    · omega
    · cases dynamicsCheck p.latentSize (lenAfter c s 0 c.depth inputs.seq * p.latentSize)
        (lenAfter c s 0 c.depth inputs.seq * p.latentSize) <;> exact ⟨_, rfl⟩
  · rw [if_neg ht]
    split_ifs with ha hb
    · exact ⟨_, rfl⟩
    · exact absurd hp hb
    · exact ⟨_, rfl⟩

/-- The default processor (niles/config/niles.py 54-66). -/
def defaultProc : ProcConfig := ⟨4, true, 192, 32, 48 * 4 * 9⟩

example : modelShape defaultMS defaultProc true ⟨128, 144, 50⟩ = .ok ⟨128, 144, 50⟩ :=
  (C69_partial defaultMS_consistent (k := 4) rfl (by decide) (by decide) (by decide) (by decide) defaultProc true
    ⟨128, 144, 50⟩ (by decide)).2 (Or.inr (by decide))

example : ∃ e, modelShape defaultMS { defaultProc with numSamples := 1 } true ⟨128, 144, 50⟩ = .error e :=
  C69_violated defaultMS_consistent (k := 4) rfl (by decide) (by decide) (by decide) (by decide) _ rfl true _

theorem readKeys_ok (keys ks : List String) : readKeys keys ks = .ok () ↔ ∀ k ∈ ks, k ∈ keys := by
  induction ks with
  | nil => simp [readKeys]
  | cons k ks ih =>
    rw [readKeys]
    by_cases h : k ∈ keys
    · rw [if_pos h, ih]; simp [h]
    · rw [if_neg h]; simp [h]

/-- C70, what a configuration needs: `create_model` returns exactly when every field it reads is present. -/
theorem C70_partial (keys : List String) :
    createModel "multiscale_transformer" keys = .ok () ↔ ∀ k ∈ createModelReads, k ∈ keys := by
  rw [createModel, if_pos rfl, readKeys_ok]

/-- C70 is false: with the default configuration `create_model` raises `AttributeError`, and `LatentSDE.setup` would raise
one too. -/
theorem C70_violated : createModel "multiscale_transformer" defaultModelKeys = .error (.attribute "num_layers") ∧
    readKeys defaultProcessorKeys latentSetupReads = .error (.attribute "num_layers") := by
  decide

example : createModel "multiscale_transformer" (defaultModelKeys ++ ["num_layers", "num_heads", "freeze_encoder"]) = .ok () :=
  (C70_partial _).2 (by decide)

end Verif.Niles
