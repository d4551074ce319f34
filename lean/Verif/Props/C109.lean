import Verif.Props.C108

/-!
# C109: the drift of the processor and time

`Dynamics.__call__` appends the time as a token with the same number in all channels (transformer.py 731-740), so that the
learned drift can depend on time. `C109_violated`: it cannot. Every use of a token goes through a `LayerNorm`, which removes
what all channels have in common: for all weights the drifts are the same at all times, and the trajectories are those of an
autonomous equation. `C109_partial`: the drift can depend on the state and, through the attention, on the context.
-/

namespace Verif.Niles

open Finset Verif.SDE

theorem rfam_time_context (seq latent : ℕ) (z ctx : Fin (seq * latent) → ℝ) :
    RFam (ShiftFn (Θ := ℝ)) ⟨1, seq + 1 + seq, latent⟩ fun t => withContext seq latent z ctx t := by
  refine ⟨fun _ => rfl, fun b s t t' => ?_⟩
  simp only [withContext, withTime]
  split_ifs
  · exact ⟨0, fun c => by simp⟩
  · exact ⟨t - t', fun c => by ring⟩
  · exact ⟨0, fun c => by simp⟩

theorem rfam_time (seq latent : ℕ) (z : Fin (seq * latent) → ℝ) :
    RFam (ShiftFn (Θ := ℝ)) ⟨1, seq + 1, latent⟩ fun t => withTime seq latent z t := by
  refine ⟨fun _ => rfl, fun b s t t' => ?_⟩
  simp only [withTime]
  split_ifs
  · exact ⟨0, fun c => by simp⟩
  · exact ⟨t - t', fun c => by ring⟩

/-- For all weights, states and contexts the drifts of `Dynamics` are the same at all times. -/
theorem C109_violated (act : ℝ → ℝ) (w : DynW) (layers hidden seq : ℕ) {latent : ℕ} (hl : 2 ∣ latent) (ctx z : Fin (seq * latent) → ℝ)
    (t t' : ℝ) :
    (dynNets act w layers hidden seq latent ctx).post z t = (dynNets act w layers hidden seq latent ctx).post z t' ∧
    (dynNets act w layers hidden seq latent ctx).prior z t = (dynNets act w layers hidden seq latent ctx).prior z t' := by
  have hP := netClass_const (Θ := ℝ)
  obtain ⟨y, ey, hy⟩ := (rfam_time_context seq latent z ctx).transformerBlock resClass_shift hl (TransFam.const hP w.post)
    (closedAct_const act) layers latent
  obtain ⟨y', ey', hy'⟩ := (rfam_time seq latent z).transformerBlock resClass_shift hl (TransFam.const hP w.prior)
    (closedAct_const act) layers latent
  constructor
  · funext i
    simp only [dynNets, ey]
    exact hy.val 0 _ _ t t'
  · funext i
    simp only [dynNets, ey']
    exact hy'.val 0 _ _ t t'

/-- The trajectories are those of the equation without time, whatever the weights: evaluating the drifts at arbitrary other
times changes nothing. -/
theorem C109_autonomous (act : ℝ → ℝ) (w : DynW) (layers hidden seq : ℕ) {latent : ℕ} (hl : 2 ∣ latent) (scale : ℝ)
    (v : Fin (seq * latent) → ℝ) (ν : SampleNoise (seq * latent)) (clock : ℝ → ℝ) :
    let N := dynNets act w layers hidden seq latent fun i => v i + scale * 1 * ν.start i
    sampleSDE act w layers hidden seq latent scale v ν =
      samplePath (dynamics ⟨fun z t => N.post z (clock t), fun z t => N.prior z (clock t), N.sigma⟩)
        (fun i => v i + scale * 1 * ν.start i) ν.dw := by
  intro N
  have h := C109_violated act w layers hidden seq hl fun i => v i + scale * 1 * ν.start i
  have e : (⟨fun z t => N.post z (clock t), fun z t => N.prior z (clock t), N.sigma⟩ : Nets ℝ (seq * latent)) = N := by
    have e1 : (fun z t => N.post z (clock t)) = N.post := by
      funext z t
      exact (h z (clock t) t).1
    have e2 : (fun z t => N.prior z (clock t)) = N.prior := by
      funext z t
      exact (h z (clock t) t).2
    rw [e1, e2]
  rw [e]
  rfl

/-! ## What the drift can depend on -/

/-- Copies channel zero. -/
def copyDense : DenseW := ⟨fun i o => if i = 0 ∧ o = 0 then 1 else 0, fun _ => 0⟩

/-- The normalisation without scale and bias. -/
def plainNorm : NormW := ⟨fun _ => 1, fun _ => 0⟩

/-- A block that adds the mean of the normalised tokens in channel zero, or adds nothing. -/
def mixBlock (mix : Bool) : Enc1DW where
  norm1 := plainNorm
  attn := ⟨zeroDense, zeroDense, copyDense, if mix then copyDense else zeroDense⟩
  norm2 := plainNorm
  mlp := ⟨zeroDense, zeroDense⟩

/-- Only the first block mixes the tokens. -/
def mixTrans : TransW where
  blocks l := mixBlock (l = 0)
  norm := plainNorm
  patches := copyDense

theorem addT_plain {n k : ℕ} (hn : n ≠ 1) (hk : k ≠ 1) {x y : Tensor} (hx : x.shape = ⟨1, n, k⟩) (hy : y.shape = ⟨1, n, k⟩) :
    ∃ z, addT y x = .ok z ∧ z.shape = ⟨1, n, k⟩ ∧ ∀ s c, z.val 0 s c = y.val 0 s c + x.val 0 s c := by
  refine ⟨_, by rw [addT, hx, hy, addShape_self], rfl, fun s c => ?_⟩
  simp [bcastIdx, hn, hk]

theorem copy_sum (k : ℕ) (hk : 0 < k) (v : ℕ → ℝ) (o : ℕ) :
    ∑ c ∈ range k, v c * copyDense.kernel c o = if o = 0 then v 0 else 0 := by
  rw [sum_eq_single_of_mem 0 (mem_range.2 hk) fun c _ hc => by simp [copyDense, hc]]
  by_cases h : o = 0 <;> simp [copyDense, h]

theorem mixBlock_val (act : ℝ → ℝ) (mix : Bool) (mlpDim : ℕ) {n k : ℕ} (hn0 : 0 < n) (hn : n ≠ 1) (hk0 : 0 < k) (hk : 2 ∣ k)
    {x : Tensor} (hx : x.shape = ⟨1, n, k⟩) :
    ∃ z, enc1DBlockT act (mixBlock mix) mlpDim 2 x = .ok z ∧ z.shape = ⟨1, n, k⟩ ∧ ∀ s c, z.val 0 s c =
      x.val 0 s c + if mix = true ∧ c = 0 then (∑ j ∈ range n, normToken k (x.val 0 j) 0) / n else 0 := by
  have hk1 : k ≠ 1 := by rintro rfl; omega
  have hd : 2 * (k / 2) = k := Nat.mul_div_cancel' hk
  have hd0 : 0 < k / 2 := by omega
  obtain ⟨y, hy, hys, hyv⟩ : ∃ y, selfAttentionT (mixBlock mix).attn 2 (layerNorm (mixBlock mix).norm1 x) = .ok y ∧
      y.shape = ⟨1, n, k⟩ ∧ ∀ s c, y.val 0 s c =
        if mix = true ∧ c = 0 then (∑ j ∈ range n, normToken k (x.val 0 j) 0) / n else 0 := by
    refine ⟨_, by
      simp only [selfAttentionT, splitHeadsT, splitHeads, dense, layerNorm, hx, hd, attentionT, attention]
      simp only [OfNat.ofNat_ne_zero, if_false, and_self, if_true]
      rfl, rfl, fun s c => ?_⟩
    have hn' : (n : ℝ) ≠ 0 := by exact_mod_cast hn0.ne'
    simp only [denseHeads, mixBlock, zeroDense, score, mul_zero, sum_const_zero, add_zero, zero_div, zero_mul, Real.exp_zero, one_mul,
      sum_const, card_range, nsmul_eq_mul, mul_one, plainNorm]
    simp only [copy_sum k hk0]
    cases mix with
    | false => simp [zeroDense]
    | true =>
      simp only [if_true]
      rw [sum_eq_single_of_mem 0 (by simp) fun h hh h0 => by
        refine sum_eq_zero fun i hi => ?_
        have : h * (k / 2) + i ≠ 0 := by
          have := Nat.mul_pos (Nat.pos_of_ne_zero h0) hd0
          omega
        rw [show copyDense.kernel (h * (k / 2) + i) c = 0 from if_neg fun e => this e.1, mul_zero]]
      simp only [zero_mul, zero_add]
      rw [copy_sum (k / 2) hd0]
      simp [copyDense]
  obtain ⟨u, hu, hus, huv⟩ := addT_plain hn hk1 hx hys
  obtain ⟨z, hz, hzs, hzv⟩ := addT_plain hn hk1 hus
    (y := mlpBlock act (mixBlock mix).mlp mlpDim k (layerNorm (mixBlock mix).norm2 u)) (by simp [mlpBlock, dense, layerNorm, hus])
  refine ⟨z, ?_, hzs, fun s c => ?_⟩
  · simp only [enc1DBlockT, hy, hu, hus, hz]
  · rw [hzv, huv, hyv]
    simp only [mlpBlock, dense, mixBlock, zeroDense, mul_zero, sum_const_zero, add_zero]
    ring

theorem mixLayers_val (act : ℝ → ℝ) (layers mlpDim : ℕ) {n k : ℕ} (hn0 : 0 < n) (hn : n ≠ 1) (hk0 : 0 < k) (hk : 2 ∣ k)
    {x : Tensor} (hx : x.shape = ⟨1, n, k⟩) :
    ∃ z, enc1DLayersT act mixTrans.blocks mlpDim (layers + 1) x = .ok z ∧ z.shape = ⟨1, n, k⟩ ∧ ∀ s c, z.val 0 s c =
      x.val 0 s c + if c = 0 then (∑ j ∈ range n, normToken k (x.val 0 j) 0) / n else 0 := by
  induction layers with
  | zero =>
    obtain ⟨z, h1, h2, h3⟩ := mixBlock_val act true mlpDim hn0 hn hk0 hk hx
    refine ⟨z, by simpa [enc1DLayersT, mixTrans] using h1, h2, fun s c => by simpa using h3 s c⟩
  | succ layers ih =>
    obtain ⟨y, h1, h2, h3⟩ := ih
    obtain ⟨z, k1, k2, k3⟩ := mixBlock_val act false mlpDim hn0 hn hk0 hk h2
    refine ⟨z, ?_, k2, fun s c => by rw [k3, h3]; simp⟩
    rw [enc1DLayersT, h1]
    simpa [mixTrans] using k1

theorem sum_first (k : ℕ) (hk : 0 < k) (a : ℝ) : ∑ i ∈ range k, (if i = 0 then a else 0) = a := by
  rw [sum_ite_eq' (range k) 0 fun _ => a]
  simp [hk]

/-- A token with a positive number in channel zero only stays positive there when it is normalised. -/
theorem normToken_first {k : ℕ} (hk : 2 ≤ k) {v : ℕ → ℝ} {a : ℝ} (hv : ∀ c, v c = if c = 0 then a else 0) :
    (a = 0 → normToken k v 0 = 0) ∧ (0 < a → 0 < normToken k v 0) := by
  have hk0 : (0 : ℝ) < k := by exact_mod_cast (by omega : 0 < k)
  have hk2 : (2 : ℝ) ≤ k := by exact_mod_cast hk
  have hm : (∑ i ∈ range k, v i) / k = a / k := by
    simp only [hv]
    rw [sum_first k (by omega)]
  have hs := spread_ge k v
  have hp : 0 < spread k v := by linarith [show (0 : ℝ) < 1 / 1000 by norm_num]
  rw [normToken_eq, dev, hm, hv 0, if_pos rfl]
  refine ⟨fun h => by rw [h]; simp, fun h => div_pos ?_ hp⟩
  rw [sub_pos, div_lt_iff₀ hk0]
  nlinarith

/-- The first number of the state or of the context. -/
def unitVec (n : ℕ) (a : ℝ) : Fin n → ℝ := fun i => if (i : ℕ) = 0 then a else 0

/-- For every number of blocks, tokens and (even) channels there are weights with which the drift depends on the state and on
the context. -/
theorem C109_partial (act : ℝ → ℝ) (layers hidden : ℕ) {seq latent : ℕ} (hseq : 0 < seq) (hl0 : 0 < latent) (hl : 2 ∣ latent) (t : ℝ)
    (σ : ℕ → DenseW) :
    let drift := fun ctx z => (dynNets act ⟨mixTrans, mixTrans, σ⟩ (layers + 1) hidden seq latent ctx).post z t ⟨0, Nat.mul_pos hseq hl0⟩
    drift 0 0 = 0 ∧ 0 < drift 0 (unitVec _ 1) ∧ 0 < drift (unitVec _ 1) 0 := by
  intro drift
  have h2 : 2 ≤ latent := Nat.le_of_dvd hl0 hl
  -- the drift for a state and a context with one number each
  have key : ∀ a b : ℝ, ∃ m, drift (unitVec _ b) (unitVec _ a) = normToken latent (fun c => if c = 0 then a + m else 0) 0 ∧
      m = (normToken latent (fun c => if c = 0 then a else 0) 0 + normToken latent (fun c => if c = 0 then b else 0) 0) /
        (seq + 1 + seq : ℕ) := by
    intro a b
    have hentry : ∀ (a : ℝ) (s c : ℕ), s < seq → c < latent →
        entry (unitVec (seq * latent) a) (s * latent + c) = if s = 0 ∧ c = 0 then a else 0 := by
      intro a s c hs hc
      have hlt : s * latent + c < seq * latent := by
        have := Nat.mul_le_mul_right latent (Nat.succ_le_of_lt hs)
        rw [Nat.succ_mul] at this
        omega
      rw [entry, dif_pos hlt, unitVec]
      congr 1
      rw [eq_iff_iff]
      constructor
      · intro h
        dsimp only at h
        have h1 : s * latent = 0 := by omega
        exact ⟨(Nat.mul_eq_zero.1 h1).resolve_right hl0.ne', by omega⟩
      · rintro ⟨rfl, rfl⟩
        simp
    have hnorm : ∀ {u v : ℕ → ℝ} (c : ℕ), c < latent → (∀ c < latent, u c = v c) → normToken latent u c = normToken latent v c := by
      intro u v c hc h
      have e1 : ∑ i ∈ range latent, u i = ∑ i ∈ range latent, v i := sum_congr rfl fun i hi => h i (mem_range.1 hi)
      simp only [normToken, e1, h c hc]
      have e2 : ∀ μ : ℝ, ∑ i ∈ range latent, (u i - μ) ^ 2 = ∑ i ∈ range latent, (v i - μ) ^ 2 := fun μ =>
        sum_congr rfl fun i hi => by rw [h i (mem_range.1 hi)]
      rw [e2]
    obtain ⟨z, h1, h2', h3⟩ := mixLayers_val act layers latent (n := seq + 1 + seq) (k := latent) (by omega) (by omega) hl0 hl
      (x := withContext seq latent (unitVec _ a) (unitVec _ b) t) rfl
    have hzero : normToken latent (fun _ => (0 : ℝ)) 0 = 0 := by simp [normToken]
    have htime : normToken latent (fun _ => t) 0 = 0 := by
      rw [← hzero]
      exact normToken_shift (by omega) (a := t) fun c => by simp
    have hsum : ∑ j ∈ range (seq + 1 + seq), normToken latent ((withContext seq latent (unitVec _ a) (unitVec _ b) t).val 0 j) 0 =
        normToken latent (fun c => if c = 0 then a else 0) 0 + normToken latent (fun c => if c = 0 then b else 0) 0 := by
      rw [sum_range_add]
      congr 1
      · rw [sum_range_succ]
        have hlast : normToken latent ((withContext seq latent (unitVec _ a) (unitVec _ b) t).val 0 seq) 0 = 0 := by
          rw [← htime]
          refine hnorm 0 hl0 fun c _ => ?_
          simp [withContext, withTime]
        rw [hlast, add_zero, sum_eq_single_of_mem 0 (mem_range.2 hseq)]
        · refine hnorm 0 hl0 fun c hc => ?_
          simp only [withContext, withTime, if_pos (show 0 < seq + 1 by omega), if_pos hseq]
          rw [hentry a 0 c hseq hc]
          simp
        · intro j hj hj0
          have hj := mem_range.1 hj
          rw [← hzero]
          refine hnorm 0 hl0 fun c hc => ?_
          simp only [withContext, withTime, if_pos (show j < seq + 1 by omega), if_pos hj]
          rw [hentry a j c hj hc]
          simp [hj0]
      · rw [sum_eq_single_of_mem 0 (mem_range.2 hseq)]
        · refine hnorm 0 hl0 fun c hc => ?_
          simp only [withContext, if_neg (show ¬ seq + 1 + 0 < seq + 1 by omega)]
          rw [show seq + 1 + 0 - (seq + 1) = 0 by omega, hentry b 0 c hseq hc]
          simp
        · intro j hj hj0
          have hj := mem_range.1 hj
          rw [← hzero]
          refine hnorm 0 hl0 fun c hc => ?_
          simp only [withContext, if_neg (show ¬ seq + 1 + j < seq + 1 by omega)]
          rw [show seq + 1 + j - (seq + 1) = j by omega, hentry b j c hj hc]
          simp [hj0]
    refine ⟨_, ?_, rfl⟩
    simp only [drift, dynNets, transformerBlockT]
    rw [show mixTrans.blocks = mixTrans.blocks from rfl, h1]
    simp only [driftOf, dense, layerNorm, h2', Nat.zero_div, Nat.zero_mod]
    rw [show mixTrans.patches = copyDense from rfl, copy_sum latent hl0]
    simp only [if_true, mixTrans, plainNorm, copyDense, mul_one, add_zero]
    refine hnorm 0 hl0 fun c hc => ?_
    rw [h3, hsum]
    simp only [withContext, withTime, if_pos (show 0 < seq + 1 by omega), if_pos hseq]
    rw [hentry a 0 c hseq hc]
    by_cases h : c = 0 <;> simp [h]
  have h0 : ∀ k : ℕ, unitVec k 0 = 0 := fun k => by funext i; simp [unitVec]
  have hpos : (0 : ℝ) < (seq + 1 + seq : ℕ) := by exact_mod_cast (by omega : 0 < seq + 1 + seq)
  have n0 := (normToken_first h2 (v := fun c => if c = 0 then (0 : ℝ) else 0) (fun _ => rfl)).1 rfl
  have n1 := (normToken_first h2 (v := fun c => if c = 0 then (1 : ℝ) else 0) (fun _ => rfl)).2 one_pos
  refine ⟨?_, ?_, ?_⟩
  · obtain ⟨m, h1, hm⟩ := key 0 0
    rw [h0] at h1
    rw [n0] at hm
    rw [h1, hm]
    exact (normToken_first h2 (fun _ => rfl)).1 (by simp)
  · obtain ⟨m, h1, hm⟩ := key 1 0
    rw [h0] at h1
    rw [n0] at hm
    rw [h1]
    refine (normToken_first h2 (fun _ => rfl)).2 ?_
    have : 0 < m := by rw [hm]; exact div_pos (by linarith) hpos
    linarith
  · obtain ⟨m, h1, hm⟩ := key 0 1
    rw [h0] at h1
    rw [n0] at hm
    rw [h1]
    refine (normToken_first h2 (fun _ => rfl)).2 ?_
    have : 0 < m := by rw [hm]; exact div_pos (by linarith) hpos
    linarith

/-- Hence no weights represent a drift that changes its sign with time, such as the one of a periodic forcing. -/
example (w : DynW) (ctx : Fin (16 * 192) → ℝ) :
    ¬ ∀ z t i, (dynNets gelu w 4 32 16 192 ctx).post z t i = Real.cos (Real.pi * t) := by
  intro h
  have h1 := h 0 0 0
  have h2 := h 0 1 0
  rw [(C109_violated gelu w 4 32 16 (by norm_num : 2 ∣ 192) ctx 0 0 1).1, h2] at h1
  simp at h1
  norm_num at h1

/-- The default sizes: at time `1/2` the drift is zero for the state and the context zero and positive when the first number
of either is one. -/
example (σ : ℕ → DenseW) :
    (dynNets gelu ⟨mixTrans, mixTrans, σ⟩ 4 32 16 192 0).post 0 (1 / 2) ⟨0, by norm_num⟩ = 0 ∧
      0 < (dynNets gelu ⟨mixTrans, mixTrans, σ⟩ 4 32 16 192 (unitVec _ 1)).post 0 (1 / 2) ⟨0, by norm_num⟩ := by
  have := C109_partial gelu 3 32 (by norm_num : 0 < 16) (by norm_num : 0 < 192) (by norm_num) (1 / 2) σ
  exact ⟨this.1, this.2.2⟩

end Verif.Niles
