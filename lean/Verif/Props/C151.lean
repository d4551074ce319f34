import Verif.Lemmas.NetBounded
import Verif.Props.C106
import Mathlib.LinearAlgebra.FiniteDimensional.Lemmas
import Mathlib.LinearAlgebra.Dimension.Constructions

/-!
# C151: the size of the closure

`Model.__call__` computes `decoder_input = encoded + x` (transformer.py 549), the skip connection around the multiscale
transformer, and then applies the output layer to `x` (553-558), the output of the last normalisation. So the closure is bounded
(`C151_bounded`) and no weights let it follow the size of the velocity (`C151_violated`). Without the transformer (`depth = 0`), or
with the skip connection (`skipModelT`), every linear closure `a u` is represented exactly if the width is not smaller than the
number of values of an element. In the default configuration it is smaller (48 and 50), and then the network does not see all of
the velocity (`C151_blind`).
-/

namespace Verif.Niles

open Finset

/-- **C151.** Weights of the last normalisation and of the output layer bound the closure of every network that contains them:
for all other weights, activations, processors, inputs and numbers of tokens. -/
theorem C151_bounded (norm : NormW) (patches : DenseW) {width : ℕ} (hw : width ≠ 1) :
    ∃ B : ℕ → ℝ, ∀ (act : ℝ → ℝ) (w : ModelW) (proc : Processor) (c : MSConfig) (p : ProcConfig) (m : Bool) (inputs out : Tensor),
      w.decoderNorm = norm → w.patches = patches → c.width = width → 0 < c.depth →
      modelT act w proc c p m inputs = .ok out → ∀ b t o, |out.val b t o| ≤ B o := by
  obtain ⟨G, hG⟩ : ∃ G : ℕ → ℕ → ℝ, ∀ n o, G n o =
    (∑ i ∈ range n, (n * |norm.scale i| + |norm.bias i|) * |patches.kernel i o|) + |patches.bias o| := ⟨_, fun _ _ => rfl⟩
  refine ⟨fun o => max (G width o) (G 1 o), ?_⟩
  intro act w proc c p m inputs out h1 h2 h3 h4 h b t o
  subst h1 h2 h3
  unfold modelT at h
  dsimp only at h
  rw [if_pos h4] at h
  split at h
  · simp at h
  · split at h
    · simp at h
    · rename_i y hy
      split at h
      · simp at h
      · rename_i s hs
        simp only [Except.ok.injEq] at h
        have hB := normBound_processT hy
        have hchan := (addShape_ok_chan hs hw).2
        rw [← h]
        have key : |(dense w.patches inputs.shape.chan y).val b t o| ≤ G y.shape.chan o := by
          rw [hG]
          refine (abs_add_le _ _).trans (add_le_add ((abs_sum_le_sum_abs _ _).trans (sum_le_sum fun i hi => ?_)) le_rfl)
          rw [abs_mul]
          exact mul_le_mul_of_nonneg_right (hB b t i (mem_range.1 hi)) (abs_nonneg _)
        rcases hchan with e | e
        · rw [e] at key
          exact key.trans (le_max_left _ _)
        · rw [e] at key
          exact key.trans (le_max_right _ _)

/-- **C151, violated.** No weights of a network with a transformer give a closure `a u`, `a ≠ 0`, not even approximately: for every
velocity, the error exceeds every number if the velocity is scaled up, at every place where it is not zero. -/
theorem C151_violated (act : ℝ → ℝ) (w : ModelW) (proc : Processor) (c : MSConfig) (p : ProcConfig) (m : Bool) (hd : 0 < c.depth)
    (hw : c.width ≠ 1) {a : ℝ} (ha : a ≠ 0) (M : ℝ) (u : Tensor) (b t o : ℕ) (hu : u.val b t o ≠ 0) :
    ∃ L : ℝ, ∀ l ≥ L, ∀ out, modelT act w proc c p m ⟨u.shape, fun b t o => l * u.val b t o⟩ = .ok out →
      M < |out.val b t o - a * (l * u.val b t o)| := by
  obtain ⟨B, hB⟩ := C151_bounded w.decoderNorm w.patches hw
  have hpos : 0 < |a * u.val b t o| := abs_pos.2 (mul_ne_zero ha hu)
  refine ⟨(|M| + B o + 1) / |a * u.val b t o|, fun l hl out hout => ?_⟩
  have h1 := hB act w proc c p m _ out rfl rfl rfl hd hout b t o
  have h2 : |M| + B o + 1 ≤ l * |a * u.val b t o| := (div_le_iff₀ hpos).1 hl
  have h3 : l * |a * u.val b t o| ≤ |a * (l * u.val b t o)| := by
    have e : a * (l * u.val b t o) = l * (a * u.val b t o) := by ring
    rw [e, abs_mul l]
    exact mul_le_mul_of_nonneg_right (le_abs_self l) hpos.le
  have h4 := abs_sub_abs_le_abs_sub (a * (l * u.val b t o)) (out.val b t o)
  rw [abs_sub_comm] at h4
  linarith [le_abs_self M]

/-- The network with the output layer applied to `decoder_input` (transformer.py 549-558 with `decoder_input` in place of `x` in
line 558). -/
noncomputable def skipModelT (act : ℝ → ℝ) (w : ModelW) (proc : Processor) (c : MSConfig) (p : ProcConfig) (meanAfterDecoder : Bool)
    (inputs : Tensor) : Except Err Tensor :=
  let encoded := addPosEmbs w.posEmbedding (dense w.embedding c.width inputs)
  if c.depth > 0 then
    match encodeT act w.encoder w.encoderNorm c encoded with
    | .error e => .error e
    | .ok (x, skips) => match processT (decodeT act w.decoder w.decoderNorm c skips) proc p meanAfterDecoder x with
      | .error e => .error e
      | .ok y => match addT encoded y with
        | .error e => .error e
        | .ok z => .ok (dense w.patches inputs.shape.chan z)
  else .ok (dense w.patches inputs.shape.chan encoded)

/-- The identity as a layer, times a number. -/
def scaledId (a : ℝ) : DenseW := ⟨fun i o => if i = o then a else 0, fun _ => 0⟩

theorem scaledId_val {x : Tensor} (a : ℝ) (n b t : ℕ) {o : ℕ} (ho : o < x.shape.chan) :
    (dense (scaledId a) n x).val b t o = a * x.val b t o := by
  simp only [dense, scaledId, mul_ite, mul_zero, add_zero]
  rw [sum_ite_eq', if_pos (mem_range.2 ho)]
  ring

theorem scaledId_val_ge {x : Tensor} (a : ℝ) (n b t : ℕ) {o : ℕ} (ho : x.shape.chan ≤ o) :
    (dense (scaledId a) n x).val b t o = 0 := by
  simp only [dense, scaledId, mul_ite, mul_zero, add_zero]
  rw [sum_ite_eq', if_neg (by rw [mem_range]; omega)]

/-- The weights of a linear closure: embedding by the identity, nothing added by positions and transformer. -/
def linearW (a : ℝ) (enc dec : ℕ → BlockW) (en : NormW) : ModelW where
  embedding := scaledId 1
  posEmbedding := fun _ _ => 0
  encoder := enc
  encoderNorm := en
  decoder := dec
  decoderNorm := ⟨fun _ => 0, fun _ => 0⟩
  patches := scaledId a

/-- **C151, partial.** Without a transformer (`depth = 0`) the closure `a u` is represented exactly if the width is not smaller
than the number of channels; this is also the case with a transformer if the output layer is applied to `decoder_input`, whenever
the code returns. -/
theorem C151_linear_partial (a : ℝ) (enc dec : ℕ → BlockW) (en : NormW) {n : ℕ} :
    ∃ w : ModelW, w.encoder = enc ∧ w.decoder = dec ∧ w.encoderNorm = en ∧
      ∀ (act : ℝ → ℝ) (proc : Processor) (c : MSConfig) (p : ProcConfig) (m : Bool) (inputs : Tensor), inputs.shape.chan = n →
      n ≤ c.width →
      (c.depth = 0 → ∃ out, modelT act w proc c p m inputs = .ok out ∧ out.shape = inputs.shape ∧
        ∀ b t o, o < n → out.val b t o = a * inputs.val b t o) ∧
      (∀ out₀, c.width ≠ 1 → modelT act w proc c p m inputs = .ok out₀ → out₀.shape = inputs.shape →
        ∃ out, skipModelT act w proc c p m inputs = .ok out ∧
          ∀ b t o, b < inputs.shape.batch → t < inputs.shape.seq → o < n → out.val b t o = a * inputs.val b t o) := by
  refine ⟨linearW a enc dec en, rfl, rfl, rfl, ?_⟩
  intro act proc c p m inputs hn hw
  obtain ⟨E, hE⟩ : ∃ E, E = addPosEmbs (linearW a enc dec en).posEmbedding (dense (linearW a enc dec en).embedding c.width inputs) :=
    ⟨_, rfl⟩
  have hEs : E.shape = ⟨inputs.shape.batch, inputs.shape.seq, c.width⟩ := by rw [hE]; rfl
  have hEv : ∀ b t o, o < n → E.val b t o = inputs.val b t o := by
    intro b t o ho
    rw [hE]
    simp only [addPosEmbs, linearW, add_zero]
    rw [scaledId_val 1 _ _ _ (by omega), one_mul]
  have h0 : c.depth = 0 → ∃ out, modelT act (linearW a enc dec en) proc c p m inputs = .ok out ∧ out.shape = inputs.shape ∧
        ∀ b t o, o < n → out.val b t o = a * inputs.val b t o := by
    intro hd
    refine ⟨dense (scaledId a) inputs.shape.chan E, ?_, ?_, ?_⟩
    · unfold modelT
      dsimp only
      rw [if_neg (by omega), ← hE]
      rfl
    · simp only [dense, hEs]
    · intro b t o ho
      rw [scaledId_val a _ _ _ (by rw [hEs]; simp only; omega), hEv b t o ho]
  refine ⟨h0, fun out₀ hw1 hok hshape => ?_⟩
  by_cases hd : c.depth = 0
  · obtain ⟨out, h1, -, h2⟩ := h0 hd
    refine ⟨out, ?_, fun b t o _ _ ho => h2 b t o ho⟩
    rw [← h1]
    unfold skipModelT modelT
    dsimp only
    rw [if_neg (by omega), if_neg (by omega)]
  unfold modelT at hok
  dsimp only at hok
  unfold skipModelT
  dsimp only
  rw [if_pos (by omega), ← hE] at hok ⊢
  split at hok
  · simp at hok
  rename_i x skips hx
  rw [hx]
  dsimp only
  split at hok
  · simp at hok
  rename_i y hy
  rw [hy]
  dsimp only
  split at hok
  · simp at hok
  rename_i s hs
  have hB := normBound_processT hy
  have hc := addShape_ok_chan hs (by rw [hEs]; exact hw1)
  refine ⟨dense (scaledId a) inputs.shape.chan ⟨s, fun b t c =>
      E.val (bcastIdx E.shape.batch b) (bcastIdx E.shape.seq t) (bcastIdx E.shape.chan c) +
        y.val (bcastIdx y.shape.batch b) (bcastIdx y.shape.seq t) (bcastIdx y.shape.chan c)⟩, ?_, ?_⟩
  · simp only [addT, hs]
    rfl
  · intro b t o hb ht ho
    have hsc : s.chan = c.width := by rw [hc.1, hEs]
    rw [scaledId_val a _ _ _ (by change o < s.chan; omega)]
    have hyc : bcastIdx y.shape.chan o < y.shape.chan := by
      unfold bcastIdx
      rcases hc.2 with e | e
      · rw [hEs] at e
        change y.shape.chan = c.width at e
        rw [if_neg (by omega), e]
        omega
      · rw [if_pos e]; omega
    have hy0 : y.val (bcastIdx y.shape.batch b) (bcastIdx y.shape.seq t) (bcastIdx y.shape.chan o) = 0 := by
      have := hB (bcastIdx y.shape.batch b) (bcastIdx y.shape.seq t) _ hyc
      simpa [linearW] using this
    have i1 : bcastIdx E.shape.batch b = b := by
      unfold bcastIdx
      split_ifs with g
      · rw [hEs] at g; simp only at g; omega
      · rfl
    have i2 : bcastIdx E.shape.seq t = t := by
      unfold bcastIdx
      split_ifs with g
      · rw [hEs] at g; simp only at g; omega
      · rfl
    have i3 : bcastIdx E.shape.chan o = o := by
      unfold bcastIdx
      rw [if_neg (by rw [hEs]; exact hw1)]
    simp only
    rw [hy0, i1, i2, i3, hEv b t o ho, add_zero]

/-- **C151, violated.** If the width is smaller than the number of values of an element, there is a velocity of an element that
the network does not see: it can be added to all elements, with any factors, and the closure stays the same. -/
theorem C151_blind {c : MSConfig} (hk : c.poolingKernel.1 = 1) (hq : c.poolingStridesQ.1 = 1)
    (hi : c.initialKvStrides.1 = 1) (w : ModelW) {n : ℕ} (hn : c.width < n) :
    ∃ v : ℕ → ℝ, (∃ o < n, v o ≠ 0) ∧ ∀ (act : ℝ → ℝ) (proc : Processor) (p : ProcConfig) (m : Bool) (u : Tensor)
      (s : ℕ → ℕ → ℝ) (y : Tensor), u.shape.chan = n → modelT act w proc c p m u = .ok y →
      ∃ y', modelT act w proc c p m ⟨u.shape, fun b t o => u.val b t o + s b t * v o⟩ = .ok y' ∧ y'.shape = y.shape ∧
        ∀ b < u.shape.batch, ∀ t < y.shape.seq, ∀ o < y.shape.chan, y'.val b t o = y.val b t o := by
  -- a vector in the kernel of the embedding
  obtain ⟨F, hF⟩ : ∃ F : (Fin n → ℝ) →ₗ[ℝ] (Fin c.width → ℝ), ∀ v o, F v o = ∑ i, v i * w.embedding.kernel i o := by
    refine ⟨{ toFun := fun v o => ∑ i, v i * w.embedding.kernel i o, map_add' := ?_, map_smul' := ?_ }, fun _ _ => rfl⟩
    · intro a b
      funext o
      simp only [Pi.add_apply, add_mul, sum_add_distrib]
    · intro r a
      funext o
      simp only [Pi.smul_apply, smul_eq_mul, RingHom.id_apply, mul_sum, mul_assoc]
  have hker : LinearMap.ker F ≠ ⊥ := F.ker_ne_bot_of_finrank_lt (by simpa using hn)
  obtain ⟨v, hv, hv0⟩ := Submodule.exists_mem_ne_zero_of_ne_bot hker
  rw [LinearMap.mem_ker] at hv
  obtain ⟨i, hvi⟩ := Function.ne_iff.1 hv0
  refine ⟨fun o => if h : o < n then v ⟨o, h⟩ else 0, ⟨i, i.2, by simpa using hvi⟩, ?_⟩
  intro act proc p m u s y hu hy
  obtain ⟨u', hu'⟩ : ∃ u' : Tensor, u' = ⟨u.shape, fun b t o => u.val b t o + s b t * if h : o < n then v ⟨o, h⟩ else 0⟩ :=
    ⟨_, rfl⟩
  have hsu : u'.shape = u.shape := by rw [hu']
  have hv' : ∀ o < c.width, ∑ k ∈ range n, (if h : k < n then v ⟨k, h⟩ else 0) * w.embedding.kernel k o = 0 := by
    intro o ho
    rw [← Fin.sum_univ_eq_sum_range (fun k => (if h : k < n then v ⟨k, h⟩ else 0) * w.embedding.kernel k o)]
    have := congrFun hv ⟨o, ho⟩
    rw [hF] at this
    simpa using this
  have hsh : ∀ b, SameEx u.shape.batch u.shape.batch b b (addPosEmbs w.posEmbedding (dense w.embedding c.width u))
      (addPosEmbs w.posEmbedding (dense w.embedding c.width u')) := by
    intro b
    refine ⟨rfl, by rw [← hsu]; rfl, by change u'.shape.seq = u.shape.seq; rw [hsu], rfl, fun t ht o ho => ?_⟩
    have ho : o < c.width := ho
    simp only [addPosEmbs, dense]
    rw [hsu, hu, hu']
    simp only [add_mul, sum_add_distrib, mul_assoc, ← mul_sum]
    rw [hv' o ho]
    ring
  rw [← hu']
  have e1 := modelT_shape act w proc c p m u
  have e2 := modelT_shape act w proc c p m u'
  rw [hsu, ← e1, hy] at e2
  obtain ⟨y', hy', hs'⟩ := shapeE_ok e2
  refine ⟨y', hy', hs', fun b hb t ht o ho => ?_⟩
  have h := modelT_rel_encoded hk hq hi act w proc proc p m u u' hb hb (by rw [hsu]) (hsh b) fun _ => rfl
  rw [hy, hy'] at h
  exact (h.val t ht o ho).symm

/-- The default configuration: the network runs, its depth is positive, and its width is smaller than the number of values. -/
example (act : ℝ → ℝ) (w : ModelW) (proc : Processor) (inputs : Tensor) (hi : inputs.shape = ⟨128, 144, 50⟩) :
    0 < defaultMS.depth ∧ defaultMS.width ≠ 1 ∧ defaultMS.width < inputs.shape.chan ∧
      ∃ out, modelT act w proc defaultMS defaultProc true inputs = .ok out ∧ out.shape = inputs.shape := by
  refine ⟨by decide, by decide, by rw [hi]; decide, ?_⟩
  have hok : modelShape defaultMS defaultProc true ⟨128, 144, 50⟩ = .ok ⟨128, 144, 50⟩ :=
    (C69_partial defaultMS_consistent (k := 4) rfl (by decide) (by decide) (by decide) (by decide) defaultProc true
      ⟨128, 144, 50⟩ (by decide)).2 (Or.inr (by decide))
  have hsh := modelT_shape act w proc defaultMS defaultProc true inputs
  rw [hi, hok] at hsh
  obtain ⟨y, hy, hys⟩ := shapeE_ok hsh
  exact ⟨y, hy, by rw [hys, hi]⟩

/-- A configuration whose width admits every linear closure. -/
example (act : ℝ → ℝ) (w : ModelW) (proc : Processor) (inputs : Tensor) (hi : inputs.shape = ⟨128, 144, 48⟩) :
    inputs.shape.chan ≤ defaultMS.width ∧ ∃ out, modelT act w proc defaultMS defaultProc true inputs = .ok out ∧
      out.shape = inputs.shape := by
  refine ⟨by rw [hi]; decide, ?_⟩
  have hok : modelShape defaultMS defaultProc true ⟨128, 144, 48⟩ = .ok ⟨128, 144, 48⟩ :=
    (C69_partial defaultMS_consistent (k := 4) rfl (by decide) (by decide) (by decide) (by decide) defaultProc true
      ⟨128, 144, 48⟩ (by decide)).2 (Or.inr (by decide))
  have hsh := modelT_shape act w proc defaultMS defaultProc true inputs
  rw [hi, hok] at hsh
  obtain ⟨y, hy, hys⟩ := shapeE_ok hsh
  exact ⟨y, hy, by rw [hys, hi]⟩

end Verif.Niles
