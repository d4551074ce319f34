import Verif.Props.C107
import Verif.Props.C104Violated
import Verif.Lemmas.NetTile
import Mathlib.Analysis.Calculus.Deriv.Basic

/-!
# C107 fails: a network with a pooled residual that is not differentiable in its inputs

With the examples of C107.
-/

namespace Verif.Niles

open Finset Verif.Core Verif.NS

/-- A network with one layer, which pools two tokens into one. -/
def maxMS : MSConfig := ⟨1, 2, [0], (1, 3), (1, 2), (1, 1), (2, 1), 1, true, false⟩

/-- Its weights: the attention and the hidden layers are zero, the blocks pass their residuals on. -/
def maxW : ModelW :=
  ⟨⟨fun _ o => if o = 0 then 1 else 0, fun _ => 0⟩, fun _ _ => 0, fun _ => passW zeroD, unitN, fun _ => passW zeroD, unitN,
    ⟨fun k _ => if k = 0 then 1 else 0, fun _ => 0⟩⟩

/-- Two elements with one value each, `a` and zero. -/
def maxInput (a : ℝ) : Tensor := ⟨⟨1, 2, 1⟩, fun _ t _ => if t = 0 then a else 0⟩

/-- The normalised difference of two channels. -/
noncomputable def normTwo (s : ℝ) : ℝ := s / Real.sqrt (s ^ 2 + 1 / 10 ^ 6)

theorem normToken_two (v : ℕ → ℝ) : normToken 2 v 0 = normTwo ((v 0 - v 1) / 2) ∧ normToken 2 v 1 = -normTwo ((v 0 - v 1) / 2) := by
  unfold normToken normTwo
  simp only [sum_range_succ, range_zero, sum_empty, zero_add, Nat.cast_ofNat]
  have e : ((v 0 - (v 0 + v 1) / 2) ^ 2 + (v 1 - (v 0 + v 1) / 2) ^ 2) / 2 = ((v 0 - v 1) / 2) ^ 2 := by ring
  rw [e]
  constructor
  · congr 1; ring
  · rw [← neg_div]; congr 1; ring

theorem normTwo_bounds {s : ℝ} (h0 : 0 ≤ s) (h1 : s ≤ 1) : s / 2 ≤ normTwo s ∧ normTwo s ≤ 1 := by
  unfold normTwo
  have hp : 0 < Real.sqrt (s ^ 2 + 1 / 10 ^ 6) := Real.sqrt_pos.2 (by positivity)
  have h2 : Real.sqrt (s ^ 2 + 1 / 10 ^ 6) ≤ 2 := by
    rw [Real.sqrt_le_left (by norm_num)]
    norm_num
    nlinarith
  have h3 : s ≤ Real.sqrt (s ^ 2 + 1 / 10 ^ 6) := Real.le_sqrt_of_sq_le (by linarith [show (0 : ℝ) < 1 / 10 ^ 6 by norm_num])
  constructor
  · rw [le_div_iff₀ hp]
    have := mul_le_mul_of_nonneg_left h2 h0
    linarith
  · rw [div_le_one hp]
    exact h3

/-- The output of the first element is a function of the maximum of `a` and zero. -/
theorem max_output (act : ℝ → ℝ) (proc : Processor) (a : ℝ) :
    ∃ y, modelT act maxW proc maxMS ⟨0, true, 2, 2, 2⟩ false (maxInput a) = .ok y ∧ y.shape = ⟨1, 2, 1⟩ ∧
      y.val 0 0 0 = normTwo (normTwo (max a 0 / 2)) := by
  have hok : modelShape maxMS ⟨0, true, 2, 2, 2⟩ false ⟨1, 2, 1⟩ = .ok ⟨1, 2, 1⟩ := by decide
  have hsh := modelT_shape act maxW proc maxMS ⟨0, true, 2, 2, 2⟩ false (maxInput a)
  rw [show (maxInput a).shape = ⟨1, 2, 1⟩ from rfl, hok] at hsh
  obtain ⟨y, hy, hys⟩ := shapeE_ok hsh
  refine ⟨y, hy, hys, ?_⟩
  obtain ⟨E, hE⟩ : ∃ E, E = addPosEmbs maxW.posEmbedding (dense maxW.embedding maxMS.width (maxInput a)) := ⟨_, rfl⟩
  have hEs : E.shape = ⟨1, 2, 2⟩ := by rw [hE]; rfl
  have hEv : ∀ b t c, E.val b t c = if c = 0 then (if t = 0 then a else 0) else 0 := by
    intro b t c
    rw [hE]
    simp [addPosEmbs, dense, maxW, maxInput]
  unfold modelT at hy
  dsimp only at hy
  rw [if_pos (by decide), ← hE] at hy
  -- the encoder
  cases henc : encodeT act maxW.encoder maxW.encoderNorm maxMS E with
  | error e => rw [henc] at hy; simp at hy
  | ok r =>
    obtain ⟨x, skips⟩ := r
    rw [henc] at hy
    dsimp only at hy
    obtain ⟨X, hX, hXs, hX0, hX1⟩ : ∃ X, x = layerNorm unitN X ∧ X.shape = ⟨1, 1, 2⟩ ∧ X.val 0 0 0 = max a 0 ∧ X.val 0 0 1 = 0 := by
      unfold encodeT at henc
      have hr : List.range maxMS.depth = [0] := by decide
      rw [hr, encodeLayersT] at henc
      cases h1 : encodeLayerT act maxW.encoder maxMS 0 ⟨E, maxMS.numInitialHeads, maxMS.initialKvStrides, []⟩ with
      | error e => rw [h1] at henc; simp at henc
      | ok st =>
        rw [h1] at henc
        simp only [encodeLayersT] at henc
        have hx : layerNorm maxW.encoderNorm st.x = x ∧ st.skips = skips := by simpa using henc
        refine ⟨st.x, hx.1.symm, ?_⟩
        unfold encodeLayerT at h1
        have hchan : E.shape.chan = 2 := by rw [hEs]
        simp only [maxMS, List.mem_singleton, if_true, hchan, true_or, Nat.reduceAdd, one_ne_zero, if_false, Nat.reduceMul] at h1
        cases h3 : encoderBlockT act (maxW.encoder 0) E 2 2 (1, 3) (1, 3) (1, 2) (halveStride 1, halveStride 1) with
        | error e => rw [h3] at h1; simp at h1
        | ok z =>
          rw [h3] at h1
          obtain rfl : _ = st := by simpa using h1
          dsimp only
          unfold encoderBlockT at h3
          rw [show maxW.encoder 0 = passW zeroD from rfl] at h3
          cases h4 : downSampleT (passW zeroD).attn (layerNorm (passW zeroD).norm1 E) 2 (1, 3) (1, 3) (1, 2)
            (halveStride 1, halveStride 1) with
          | error e => rw [h4] at h3; simp at h3
          | ok u =>
            rw [h4] at h3
            have hu0 : Zero u := downSampleT_pass h4
            have hus : u.shape = ⟨1, 1, 2⟩ := by
              have := downSampleT_shape (passW zeroD).attn (layerNorm (passW zeroD).norm1 E) 2 (1, 3) (1, 3) (1, 2)
                (halveStride 1, halveStride 1)
              rw [h4, show (layerNorm (passW zeroD).norm1 E).shape = ⟨1, 2, 2⟩ from hEs] at this
              have hd : downSample ⟨1, 2, 2⟩ 2 (1, 3) (1, 3) (1, 2) (halveStride 1, halveStride 1) = .ok ⟨1, 1, 2⟩ := by decide
              rw [hd] at this
              simpa [shapeE] using this
            dsimp only at h3
            rw [if_pos (by decide)] at h3
            have hp : attentionPoolingT .max E (resWindow 1, resWindow 2) (1, 2) 2 =
                .ok ⟨⟨1, 1, 2, 1⟩, fun b t h k => (poolT .max (1, 3) (1, 2) E).val b t (h * 1 + k)⟩ := by
              have e1 : (poolT .max (1, 3) (1, 2) E).shape = ⟨1, 1, 2⟩ := by simp [poolT, hEs, sameLen]
              have e2 : splitHeads ⟨1, 1, 2⟩ 2 = .ok ⟨1, 1, 2, 1⟩ := by decide
              have e3 : (resWindow 1, resWindow 2) = (1, 3) := by decide
              rw [e3]
              unfold attentionPoolingT
              rw [if_neg (by decide), if_neg (by decide), if_neg (by decide)]
              unfold splitHeadsT
              rw [e1, e2]
            rw [hp] at h3
            dsimp only at h3
            obtain ⟨r, hr'⟩ : ∃ r, r = joinHeads ⟨⟨1, 1, 2, 1⟩, fun b t h k => (poolT .max (1, 3) (1, 2) E).val b t (h * 1 + k)⟩ := ⟨_, rfl⟩
            rw [← hr'] at h3
            have hrs : r.shape = ⟨1, 1, 2⟩ := by rw [hr']; rfl
            have w1 : poolWindow 1 1 1 0 = [0] := by decide
            have w2 : poolWindow 2 3 2 0 = [0, 1] := by decide
            have hpool : ∀ c, (poolT .max (1, 3) (1, 2) E).val 0 0 c = max (E.val 0 0 c) (E.val 0 1 c) := by
              intro c
              simp only [poolT, hEs, w1, w2]
              simp [maxList]
            have hr0 : r.val 0 0 0 = max a 0 := by
              rw [hr']
              simp only [joinHeads]
              rw [show 0 / 1 * 1 + 0 % 1 = 0 from rfl, hpool, hEv, hEv]
              simp
            have hr1 : r.val 0 0 1 = 0 := by
              rw [hr']
              simp only [joinHeads]
              rw [show 1 / 1 * 1 + 1 % 1 = 1 from rfl, hpool, hEv, hEv]
              simp
            cases h5 : addT u r with
            | error e => rw [h5] at h3; simp at h3
            | ok v =>
              rw [h5] at h3
              dsimp only at h3
              have hv : SameT v r := addT_zero (by rw [hus, hrs]) hu0 h5
              have hvs : v.shape = ⟨1, 1, 2⟩ := by rw [hv.1, hrs]
              have h6 : mlpPart act (passW zeroD) v.shape.chan 2 v = .ok z := by
                rw [hchan] at h3
                rw [hvs]; exact h3
              have hz : SameT z v := (mlpPart_pass h6).1 (by rw [hvs])
              refine ⟨by rw [hz.1, hvs], ?_, ?_⟩
              · rw [hz.2 0 (by rw [hvs]; decide) 0 (by rw [hvs]; decide) 0 (by rw [hvs]; decide),
                  hv.2 0 (by rw [hrs]; decide) 0 (by rw [hrs]; decide) 0 (by rw [hrs]; decide), hr0]
              · rw [hz.2 0 (by rw [hvs]; decide) 0 (by rw [hvs]; decide) 1 (by rw [hvs]; decide),
                  hv.2 0 (by rw [hrs]; decide) 0 (by rw [hrs]; decide) 1 (by rw [hrs]; decide), hr1]
    have hxs : x.shape = ⟨1, 1, 2⟩ := by rw [hX]; exact hXs
    have hx0 : x.val 0 0 0 = normTwo (max a 0 / 2) ∧ x.val 0 0 1 = -normTwo (max a 0 / 2) := by
      rw [hX]
      simp only [layerNorm, unitN, mul_one, add_zero, hXs]
      have := normToken_two (X.val 0 0)
      rwa [hX0, hX1, sub_zero] at this
    -- the decoder
    unfold processT at hy
    rw [if_neg (by decide), if_neg (by decide)] at hy
    cases hdec : decodeT act maxW.decoder maxW.decoderNorm maxMS skips x with
    | error e => rw [hdec] at hy; simp at hy
    | ok z =>
      rw [hdec] at hy
      dsimp only at hy
      obtain ⟨Y, hY, hYs, hY0, hY1⟩ : ∃ Y, z = layerNorm unitN Y ∧ Y.shape = ⟨1, 2, 2⟩ ∧ Y.val 0 0 0 = x.val 0 0 0 ∧
          Y.val 0 0 1 = x.val 0 0 1 := by
        unfold decodeT at hdec
        have hr : (List.range maxMS.depth).reverse = [0] := by decide
        rw [hr, decodeLayersT] at hdec
        cases h1 : decodeLayerT act maxW.decoder maxMS skips 0 x with
        | error e => rw [h1] at hdec; simp at hdec
        | ok Y =>
          rw [h1] at hdec
          simp only [decodeLayersT] at hdec
          have hz : layerNorm maxW.decoderNorm Y = z := by simpa using hdec
          refine ⟨Y, hz.symm, ?_⟩
          unfold decodeLayerT at h1
          have hchan : x.shape.chan = 2 := by rw [hxs]
          simp only [maxMS, List.mem_singleton, if_true, hchan, Nat.reduceAdd, one_ne_zero, if_false, Bool.false_eq_true,
            and_false] at h1
          rw [if_neg (by decide), show maxW.decoder 0 = passW zeroD from rfl] at h1
          cases h2 : decoderBlockT act (passW zeroD) x 2 (2 / 2) (2, 1) with
          | error e => rw [h2] at h1; simp at h1
          | ok Y' =>
            rw [h2] at h1
            obtain rfl : Y' = Y := by simpa using h1
            obtain ⟨v, v1, v2, v3, -⟩ := decoderBlockT_pass (by decide) h2
            have v3 := v3 (by rw [hxs])
            have e1 : (tileT (2, 1) x).shape = ⟨1, 2, 2⟩ := by simp [tileT, hxs]
            have e2 : v.shape = ⟨1, 2, 2⟩ := by rw [v1.1, e1]
            have hval : ∀ c < 2, Y'.val 0 0 c = x.val 0 0 c := by
              intro c hc
              rw [v3.2 0 (by rw [e2]; decide) 0 (by rw [e2]; decide) c (by rw [e2]; exact hc),
                v1.2 0 (by rw [e1]; decide) 0 (by rw [e1]; decide) c (by rw [e1]; exact hc)]
              simp only [tileT, hxs]
              rw [Nat.zero_mod, Nat.mod_eq_of_lt hc]
            exact ⟨by rw [v3.1, e2], hval 0 (by decide), hval 1 (by decide)⟩
      have hzs : z.shape = ⟨1, 2, 2⟩ := by rw [hY]; exact hYs
      rw [hEs, hzs, addShape_self] at hy
      obtain rfl : _ = y := by simpa using hy
      have hz0 : z.val 0 0 0 = normTwo (normTwo (max a 0 / 2)) := by
        rw [hY]
        simp only [layerNorm, unitN, mul_one, add_zero, hYs]
        have := (normToken_two (Y.val 0 0)).1
        rw [this, hY0, hY1, hx0.1, hx0.2]
        congr 1
        ring
      simp only [dense, maxW, add_zero, hzs]
      rw [sum_eq_single 0 (fun k _ hk => by rw [if_neg hk, mul_zero]) (fun h => absurd (mem_range.2 (by decide)) h), if_pos rfl,
        mul_one, hz0]

/-- **C107_violated.** There is a network whose output is not differentiable in its inputs, whatever the activation: with two
elements, the first one with the value `a` and the second one zero, the closure of the first element has no derivative at
`a = 0`. -/
theorem C107_violated (act : ℝ → ℝ) (proc : Processor) :
    ∃ (c : MSConfig) (p : ProcConfig) (w : ModelW) (y : ℝ → Tensor),
      (∀ a, modelT act w proc c p false ⟨⟨1, 2, 1⟩, fun _ t _ => if t = 0 then a else 0⟩ = .ok (y a)) ∧
      ¬ DifferentiableAt ℝ (fun a => (y a).val 0 0 0) 0 := by
  choose y h1 _ h2 using max_output act proc
  refine ⟨maxMS, ⟨0, true, 2, 2, 2⟩, maxW, y, h1, fun hdiff => ?_⟩
  simp only [h2] at hdiff
  obtain ⟨f', hf⟩ := hdiff
  have hd := hf.hasDerivAt
  obtain ⟨g, hg⟩ : ∃ g, g = f' 1 := ⟨_, rfl⟩
  rw [← hg] at hd
  have z0 : normTwo 0 = 0 := by simp [normTwo]
  -- from the left the output is zero
  have hl : HasDerivWithinAt (fun a : ℝ => normTwo (normTwo (max a 0 / 2))) 0 (Set.Iic 0) 0 := by
    refine (hasDerivWithinAt_const (0 : ℝ) (Set.Iic 0) (0 : ℝ)).congr (fun a ha => ?_) ?_
    · rw [max_eq_right ha, zero_div, z0, z0]
    · simp [z0]
  have hg0 : g = 0 := by
    have u : UniqueDiffWithinAt ℝ (Set.Iic (0 : ℝ)) 0 := uniqueDiffWithinAt_Iic 0
    exact u.eq_deriv _ hd.hasDerivWithinAt hl
  -- from the right it grows
  rw [hg0] at hd
  have ho := hd.isLittleO
  rw [Asymptotics.isLittleO_iff] at ho
  have ho' := ho (show (0 : ℝ) < 1 / 16 by norm_num)
  rw [Metric.eventually_nhds_iff] at ho'
  obtain ⟨ε, hε, h⟩ := ho'
  obtain ⟨a, ha⟩ : ∃ a, a = min (ε / 2) 1 := ⟨_, rfl⟩
  have ha0 : 0 < a := by rw [ha]; exact lt_min (by linarith) one_pos
  have ha1 : a ≤ 1 := by rw [ha]; exact min_le_right _ _
  have haε : a < ε := by rw [ha]; exact (min_le_left _ _).trans_lt (by linarith)
  have key := h (y := a) (by rw [Real.dist_eq, sub_zero, abs_of_pos ha0]; exact haε)
  simp only [max_self, zero_div, z0, sub_zero, smul_zero, Real.norm_eq_abs] at key
  rw [max_eq_left ha0.le, abs_of_pos ha0] at key
  obtain ⟨b1, b2⟩ := normTwo_bounds (s := a / 2) (by linarith) (by linarith)
  obtain ⟨b3, -⟩ := normTwo_bounds (s := normTwo (a / 2)) (by linarith) b2
  have := le_abs_self (normTwo (normTwo (a / 2)))
  linarith

/-- The array with the values `θ`. -/
def finTensor {n k : ℕ} (θ : Fin n → Fin k → ℝ) : Tensor :=
  ⟨⟨1, n, k⟩, fun _ t c => if h : t < n ∧ c < k then θ ⟨t, h.1⟩ ⟨c, h.2⟩ else 0⟩

theorem finTensor_lip {n k : ℕ} (b t c : ℕ) : LipBounded fun θ : Fin n → Fin k → ℝ => (finTensor θ).val b t c := by
  intro R
  refine ⟨1, fun x y _ _ => ?_⟩
  rw [one_mul]
  unfold finTensor
  dsimp only
  by_cases h : t < n ∧ c < k
  · simp only [dif_pos h]
    have h1 := norm_le_pi_norm (x - y) ⟨t, h.1⟩
    have h2 := norm_le_pi_norm ((x - y) ⟨t, h.1⟩) ⟨c, h.2⟩
    exact le_trans h2 h1
  · simp only [dif_neg h, sub_self, abs_zero]
    exact norm_nonneg _

theorem id_procLip : ProcLip fun _ _ v => v := fun _ _ _ _ t c _ => ⟨1, zero_le_one, fun _ _ _ _ r hr => by rw [one_mul]; exact hr t c⟩

/-- The default configuration with the activation of the code and arbitrary weights: the outputs of 144 elements with 50 values
each are Lipschitz continuous in the inputs, on bounded sets. -/
example (w : ModelW) : ∃ y : (Fin 144 → Fin 50 → ℝ) → Tensor,
    (∀ θ, modelT gelu w (fun _ _ v => v) defaultMS defaultProc true (finTensor θ) = .ok (y θ)) ∧
      ∀ b t k, LipBounded fun θ => (y θ).val b t k := by
  have hok : modelShape defaultMS defaultProc true ⟨1, 144, 50⟩ = .ok ⟨1, 144, 50⟩ :=
    (C69_partial defaultMS_consistent (k := 4) rfl (by decide) (by decide) (by decide) (by decide) defaultProc true
      ⟨1, 144, 50⟩ (by decide)).2 (Or.inr (by decide))
  rcases C107_lipschitz (Θ := Fin 144 → Fin 50 → ℝ) gelu_lip (modelFam_const netClass_lipBounded w)
    (proc := fun _ _ _ v => v) (fun n k v _ h b i t c => h t c) defaultMS defaultProc true (S := ⟨1, 144, 50⟩) (x := finTensor)
    (fun _ => rfl) (fun b t c => finTensor_lip b t c) with ⟨e, he⟩ | h
  · have := modelT_shape gelu w (fun _ _ v => v) defaultMS defaultProc true (finTensor (n := 144) (k := 50) 0)
    rw [he 0, show (finTensor (n := 144) (k := 50) 0).shape = ⟨1, 144, 50⟩ from rfl, hok] at this
    simp [shapeE] at this
  · exact h

/-- Without pooling layers the outputs are smooth functions of the weights: here of the embedding kernel. -/
example (w : ModelW) : ∃ y : ℝ → Tensor,
    (∀ θ, modelT gelu { w with embedding := ⟨fun _ _ => θ, w.embedding.bias⟩ } (fun _ _ v => v)
      ⟨2, 4, [], (1, 3), (1, 2), (1, 1), (2, 1), 1, true, true⟩ ⟨0, true, 2, 2, 2⟩ false
      ⟨⟨1, 4, 2⟩, fun _ t k => t + k⟩ = .ok (y θ)) ∧
      ∀ b t k, ContDiff ℝ 2 fun θ => (y θ).val b t k := by
  have hok : modelShape ⟨2, 4, [], (1, 3), (1, 2), (1, 1), (2, 1), 1, true, true⟩ ⟨0, true, 2, 2, 2⟩ false ⟨1, 4, 2⟩ =
    .ok ⟨1, 4, 2⟩ := by decide
  have hw := modelFam_const (Θ := ℝ) (netClass_contDiff 2) w
  rcases C107_partial (Θ := ℝ) (n := 2) (gelu_smooth 2) (w := fun θ => { w with embedding := ⟨fun _ _ => θ, w.embedding.bias⟩ })
    { hw with embedding := ⟨fun _ _ => contDiff_id, fun _ => contDiff_const⟩ }
    (proc := fun _ _ _ v => v) (fun n k v _ h b i t c => h t c) ⟨2, 4, [], (1, 3), (1, 2), (1, 1), (2, 1), 1, true, true⟩
    (Or.inl (by simp)) ⟨0, true, 2, 2, 2⟩ false (S := ⟨1, 4, 2⟩) (x := fun _ => ⟨⟨1, 4, 2⟩, fun _ t k => t + k⟩)
    (fun _ => rfl) (fun b t c => contDiff_const) with ⟨e, he⟩ | h
  · have := modelT_shape gelu { w with embedding := ⟨fun _ _ => 0, w.embedding.bias⟩ } (fun _ _ v => v)
      ⟨2, 4, [], (1, 3), (1, 2), (1, 1), (2, 1), 1, true, true⟩ ⟨0, true, 2, 2, 2⟩ false ⟨⟨1, 4, 2⟩, fun _ t k => t + k⟩
    rw [he 0] at this
    simp only [hok, shapeE] at this
    simp at this
  · exact h

/-- With the kernel of the output layer zero, the output is its bias. -/
theorem modelT_start {act : ℝ → ℝ} {w : ModelW} (hw : ∀ i o, w.patches.kernel i o = 0) {proc : Processor} {c : MSConfig}
    {p : ProcConfig} {m : Bool} {x y : Tensor} (h : modelT act w proc c p m x = .ok y) (b t k : ℕ) :
    y.val b t k = w.patches.bias k := by
  have hd : ∀ z : Tensor, (dense w.patches x.shape.chan z).val b t k = w.patches.bias k := fun z => by simp [dense, hw]
  unfold modelT at h
  dsimp only at h
  by_cases hdep : c.depth > 0
  · rw [if_pos hdep] at h
    split at h
    · simp at h
    · split at h
      · simp at h
      · split at h
        · simp at h
        · obtain rfl : _ = y := by simpa using h
          exact hd _
  · rw [if_neg hdep] at h
    obtain rfl : _ = y := by simpa using h
    exact hd _

/-- The hypotheses of `C107_closure` and of `C107_rollout` hold on the periodic square, for a network that pools the elements in
pairs. For the weights at the start of training there is a flow: a constant velocity that decays with the drag. -/
example : ∃ (cs : CubeStokes 2) (cfg : SolverConfig ℝ) (u : ℝ → Vel ℝ 2), cubeStokes 2 2 3 2 0 1 [0, 1] [] = .ok cs ∧
    cfg.timeOrder = 3 ∧ cfg.drag ≠ 0 ∧
    (∀ w kl, ∃ Φ, ClosureIs cfg cs.vmesh (netClosure gelu w (fun _ _ v => v) maxMS ⟨0, true, 2, 2, 2⟩ false kl) Φ ∧
      LipschitzOnBounded cs.vmesh Φ) ∧
    ∀ w kl, w.patches = zeroD → RolloutConvergence cs.vmesh cs.pmesh cs.masks [] cs.sem cs.low (fun _ => 0) cfg
      (netClosure gelu w (fun _ _ v => v) maxMS ⟨0, true, 2, 2, 2⟩ false kl) 1 u (fun _ => 0) 1 := by
  obtain ⟨cs, hcs⟩ := C92_create (over := 2) (n := 2) (d := 2) (p := 3) (a := 0) (b := 1) (by norm_num) (by norm_num)
    (by norm_num) (by norm_num) [0, 1] (bcs := []) (Or.inr rfl)
  obtain ⟨vnode, pnode, l, hc⟩ := cubeStokes_of (n := 2) (d := 2) (p := 3) (by norm_num) (by norm_num) le_rfl one_pos (Or.inr rfl) hcs
  have hM : cs.vmesh.numElements = 4 := hc.vcube.cells.num
  have hM0 : 0 < cs.vmesh.numElements := by omega
  have hN : 0 < cs.vmesh.numNodes := by
    have := hc.vcube.cells.lt 0 (Nat.pow_pos (by norm_num)) 0 (by unfold Mesh.nodesPerElem; exact Nat.pow_pos hc.vcube.cells.numPos)
    omega
  obtain ⟨cfg, hcfg⟩ : ∃ cfg : SolverConfig ℝ,
    cfg = ⟨3, 20000, 1 / 1000, 0, 1 / 25, 0, cs.vmesh.numElements, cs.vmesh.nodesPerElem * 2, false⟩ := ⟨_, rfl⟩
  have hsz : SizesMatch cfg cs.vmesh := by rw [hcfg]; exact ⟨rfl, rfl, by simp⟩
  have hok : modelShape maxMS ⟨0, true, 2, 2, 2⟩ false ⟨1, cs.vmesh.numElements, cs.vmesh.nodesPerElem * 2⟩ =
      .ok ⟨1, cs.vmesh.numElements, cs.vmesh.nodesPerElem * 2⟩ :=
    (C69_partial (c := maxMS) (s := 2) ⟨by decide, by decide, by decide, rfl, rfl⟩ (k := 1) rfl (by decide) (by decide) (by decide)
      (by decide) ⟨0, true, 2, 2, 2⟩ false _ (by rw [hM]; exact (by decide : 2 ^ pools maxMS ∣ 4))).2 (Or.inl ⟨rfl, rfl⟩)
  obtain ⟨S, hflow⟩ := decay_flow hcs cfg 1
  have hu : ∀ n : ℕ, ∀ (j : ℕ) (l : Fin 2), ContDiff ℝ n
      (fun t => nodal cs.vmesh (fun _ : Fin 2 => MvPolynomial.C (Real.exp (-cfg.drag * t))) j l) := by
    intro n j l
    by_cases hj : j < cs.vmesh.numNodes
    · simp only [nodal, hj, if_true, MvPolynomial.eval_C]
      exact (contDiff_const.mul contDiff_id).exp
    · simp only [nodal, hj, if_false]
      exact contDiff_const
  refine ⟨cs, cfg, fun t => nodal cs.vmesh (fun _ : Fin 2 => MvPolynomial.C (Real.exp (-cfg.drag * t))), hcs, by rw [hcfg],
    by rw [hcfg]; norm_num, fun w kl => C107_closure hsz hN hM0 gelu_lip w id_procLip hok kl, fun w kl hw => ?_⟩
  obtain ⟨Φ, h1, h2⟩ := C107_rollout (cfg := cfg) (wave := fun _ => 0) S (K := 2) (by rw [hcfg]) (by norm_num) (by norm_num)
    (by rw [hcfg]; norm_num) (by rw [hcfg]) (by rw [hcfg]) hsz hN hM0 gelu_lip w id_procLip hok kl
  have hΦ : Φ = fun _ => 0 := by
    funext v
    obtain ⟨q, hq⟩ := h1 0 v
    obtain ⟨f, r, hf, hf0⟩ := zeroNet_closure (c := cfg) (mesh := cs.vmesh) (by rw [hcfg]) hsz 0 v
    have htok : (netClosure gelu w (fun _ _ v => v) maxMS ⟨0, true, 2, 2, 2⟩ false kl 0 (tokens cs.vmesh v)).1 =
        (zeroNet 0 (tokens cs.vmesh v)).1 := by
      obtain ⟨t1, t2⟩ := tokens_shape cs.vmesh v
      have hsh : (arrayOf (tokens cs.vmesh v)).shape = ⟨1, cs.vmesh.numElements, cs.vmesh.nodesPerElem * 2⟩ := by
        unfold arrayOf
        dsimp only
        rw [t1]
        congr 1
        cases htk : tokens cs.vmesh v with
        | nil => rw [htk] at t1; simp at t1; omega
        | cons a as => exact t2 a (by rw [htk]; simp)
      have hsh' := modelT_shape gelu w (fun _ _ v => v) maxMS ⟨0, true, 2, 2, 2⟩ false (arrayOf (tokens cs.vmesh v))
      rw [hsh, hok] at hsh'
      obtain ⟨y, hy, hys⟩ := shapeE_ok hsh'
      have hy0 := modelT_start (by rw [hw]; intro _ _; rfl) hy
      simp only [netClosure, hy, zeroNet]
      unfold tokensList
      rw [hys]
      apply List.ext_getElem (by simp [t1])
      intro n h1 h2
      simp only [List.getElem_map, List.getElem_range]
      apply List.ext_getElem (by simp [t2 _ (List.getElem_mem _)])
      intro k h3 h4
      simp only [List.getElem_map, List.getElem_range]
      rw [hy0, hw]; rfl
    have hperm : cfg.permuteElements = false := by rw [hcfg]
    unfold closureTerm permuteIf at hq hf
    simp only [hperm, Bool.false_eq_true, if_false] at hq hf
    rw [htok] at hq
    rw [hf0] at hf
    split at hf
    · simp at hf
    · split at hf
      · simp at hf
      · rename_i h5 _ fl h6
        rw [if_neg h5, h6] at hq
        simp only [Except.ok.injEq, Prod.mk.injEq] at hq hf
        rw [← hq.1, hf.1]
  subst hΦ
  exact h2 1 _ _ one_pos hflow (fun j l => by exact_mod_cast hu 4 j l) (fun j => contDiff_const)

end Verif.Niles
