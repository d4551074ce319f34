import Verif.Model.Processor
import Verif.Lemmas.NetLip
import Verif.Lemmas.Stratonovich
import Mathlib.Algebra.BigOperators.Field

/-!
# The networks of the processor in a class of functions

The residual stream of a transformer block only needs to be in a class `Q` of tokens whose normalisations are in the class `P`
of functions: adding a constant to all channels, or adding something unbounded, is invisible behind a `LayerNorm`.
-/

namespace Verif.Niles

open Finset Verif.SDE

variable {Θ : Type*} {P : (Θ → ℝ) → Prop} {Q : (Θ → ℕ → ℝ) → Prop}

/-- Tokens whose normalisations are in the class, closed under adding something in the class. -/
structure ResClass (P : (Θ → ℝ) → Prop) (Q : (Θ → ℕ → ℝ) → Prop) : Prop where
  net : NetClass P
  add : ∀ {u v : Θ → ℕ → ℝ}, (∀ c, P fun θ => u θ c) → Q v → Q fun θ c => u θ c + v θ c
  norm : ∀ {v : Θ → ℕ → ℝ}, Q v → ∀ n, ∀ c < n, P fun θ => normToken n (v θ) c

/-- An array of fixed shape whose tokens are in the class. -/
structure RFam (Q : (Θ → ℕ → ℝ) → Prop) (S : Shape) (x : Θ → Tensor) : Prop where
  shape : ∀ θ, (x θ).shape = S
  val : ∀ b t, Q fun θ => (x θ).val b t

theorem NetClass.sumLt (h : NetClass P) (n : ℕ) {f : ℕ → Θ → ℝ} (hf : ∀ i < n, P (f i)) : P fun θ => ∑ i ∈ range n, f i θ := by
  induction n with
  | zero => simpa using h.const 0
  | succ n ih => simpa [sum_range_succ] using h.add (ih fun i hi => hf i (by omega)) (hf n (by omega))

theorem RFam.denseNorm (hR : ResClass P Q) {S : Shape} {x : Θ → Tensor} (h : RFam Q S x) {nw : Θ → NormW} (hn : NormFam P nw)
    {w : Θ → DenseW} (hw : DenseFam P w) (out : ℕ) :
    Fam P ⟨S.batch, S.seq, out⟩ fun θ => dense (w θ) out (layerNorm (nw θ) (x θ)) := by
  have hP := hR.net
  refine ⟨fun θ => by simp [dense, layerNorm, h.shape], fun b t o => ?_⟩
  simp only [dense, layerNorm, h.shape]
  refine hP.add (hP.sumLt _ (f := fun c θ => (normToken S.chan ((x θ).val b t) c * (nw θ).scale c + (nw θ).bias c) *
    (w θ).kernel c o) fun c hc => ?_) (hw.bias o)
  exact hP.mul (hP.add (hP.mul (hR.norm (h.val b t) S.chan c hc) (hn.scale c)) (hn.bias c)) (hw.kernel c o)

/-- The attention of three arrays with the right shapes. -/
theorem HFam.attentionOk (hP : NetClass P) {Sq Sk Sv s : HShape} {q k v : Θ → HTensor} (hq : HFam P Sq q) (hk : HFam P Sk k)
    (hv : HFam P Sv v) (hs : Niles.attention Sq Sk Sv = .ok s) :
    ∃ y, (∀ θ, attentionT (q θ) (k θ) (v θ) = .ok (y θ)) ∧ HFam P s y := by
  rcases hq.attention hP hk hv with ⟨e, he⟩ | ⟨y, ey, S, hy⟩
  · refine ⟨fun _ => ⟨s, fun _ _ _ _ => 0⟩, fun θ => ?_, fun _ => rfl, fun _ _ _ _ => hP.const 0⟩
    have := he θ
    simp [attentionT, hq.shape, hk.shape, hv.shape, hs] at this
  · refine ⟨y, ey, fun θ => ?_, hy.val⟩
    have := ey θ
    simp only [attentionT, hq.shape, hk.shape, hv.shape, hs, Except.ok.injEq] at this
    rw [← this]

/-- The weights of a block in the class. -/
structure Enc1DFam (P : (Θ → ℝ) → Prop) (w : Θ → Enc1DW) : Prop where
  norm1 : NormFam P fun θ => (w θ).norm1
  attn : AttnFam P fun θ => (w θ).attn
  norm2 : NormFam P fun θ => (w θ).norm2
  first : DenseFam P fun θ => (w θ).mlp.first
  second : DenseFam P fun θ => (w θ).mlp.second

/-- The weights of a transformer in the class. -/
structure TransFam (P : (Θ → ℝ) → Prop) (w : Θ → TransW) : Prop where
  blocks : ∀ l, Enc1DFam P fun θ => (w θ).blocks l
  norm : NormFam P fun θ => (w θ).norm
  patches : DenseFam P fun θ => (w θ).patches

/-- The weights of `Dynamics` in the class. -/
structure DynFam (P : (Θ → ℝ) → Prop) (w : Θ → DynW) : Prop where
  post : TransFam P fun θ => (w θ).post
  prior : TransFam P fun θ => (w θ).prior
  diffusion : ∀ l, DenseFam P fun θ => (w θ).diffusion l

theorem RFam.selfAttention (hR : ResClass P Q) {S : Shape} {x : Θ → Tensor} (h : RFam Q S x) {nw : Θ → NormW} (hn : NormFam P nw)
    {w : Θ → AttnW} (hw : AttnFam P w) {heads : ℕ} (h0 : heads ≠ 0) (hd : heads * (S.chan / heads) = S.chan) :
    ∃ y, (∀ θ, selfAttentionT (w θ) heads (layerNorm (nw θ) (x θ)) = .ok (y θ)) ∧ Fam P S y := by
  have hP := hR.net
  have split : ∀ {z : Θ → Tensor}, Fam P S z → ∃ q, (∀ θ, splitHeadsT (z θ) heads = .ok (q θ)) ∧
      HFam P ⟨S.batch, S.seq, heads, S.chan / heads⟩ q := by
    intro z hz
    refine ⟨fun θ => ⟨⟨S.batch, S.seq, heads, S.chan / heads⟩, fun b t h k => (z θ).val b t (h * (S.chan / heads) + k)⟩,
      fun θ => ?_, fun _ => rfl, fun b t h k => hz.val _ _ _⟩
    simp [splitHeadsT, splitHeads, hz.shape, h0, hd]
  obtain ⟨q, eq, hq⟩ := split (h.denseNorm hR hn hw.query S.chan)
  obtain ⟨k, ek, hk⟩ := split (h.denseNorm hR hn hw.key S.chan)
  obtain ⟨v, ev, hv⟩ := split (h.denseNorm hR hn hw.value S.chan)
  obtain ⟨y, ey, hy⟩ := hq.attentionOk hP hk hv (s := ⟨S.batch, S.seq, heads, S.chan / heads⟩) (by simp [attention])
  refine ⟨fun θ => denseHeads (w θ).out S.chan (y θ), fun θ => ?_, hy.denseHeads hP hw.out S.chan⟩
  have e : (layerNorm (nw θ) (x θ)).shape.chan = S.chan := by simp [layerNorm, h.shape]
  unfold selfAttentionT
  simp only [e, eq, ek, ev, ey]

theorem addShape_self (S : Shape) : addShape S S = .ok S := by
  simp [addShape, bcastDim]

theorem RFam.addFam (hR : ResClass P Q) {S : Shape} (hc : S.chan ≠ 1) {x y : Θ → Tensor} (h : RFam Q S x) (g : Fam P S y) :
    ∃ z, (∀ θ, addT (y θ) (x θ) = .ok (z θ)) ∧ RFam Q S z := by
  refine ⟨_, fun θ => by rw [addT, g.shape, h.shape, addShape_self], fun _ => rfl, fun b t => ?_⟩
  simp only [bcastIdx, if_neg hc]
  exact hR.add (u := fun θ c => (y θ).val (bcastIdx S.batch b) (bcastIdx S.seq t) c)
    (v := fun θ c => (x θ).val (bcastIdx S.batch b) (bcastIdx S.seq t) c) (fun c => g.val _ _ c) (h.val _ _)

theorem RFam.enc1DBlock (hR : ResClass P Q) {S : Shape} (hc : 2 ∣ S.chan) {x : Θ → Tensor} (h : RFam Q S x) {w : Θ → Enc1DW}
    (hw : Enc1DFam P w) {act : ℝ → ℝ} (ha : ClosedAct P act) (mlpDim : ℕ) :
    ∃ y, (∀ θ, enc1DBlockT act (w θ) mlpDim 2 (x θ) = .ok (y θ)) ∧ RFam Q S y := by
  have hP := hR.net
  have hc1 : S.chan ≠ 1 := by intro e; rw [e] at hc; omega
  obtain ⟨y, ey, hy⟩ := h.selfAttention hR hw.norm1 hw.attn (heads := 2) (by norm_num) (Nat.mul_div_cancel' hc)
  obtain ⟨z, ez, hz⟩ := h.addFam hR hc1 hy
  have hm : Fam P S fun θ => mlpBlock act (w θ).mlp mlpDim S.chan (layerNorm (w θ).norm2 (z θ)) :=
    ((hz.denseNorm hR hw.norm2 hw.first mlpDim).map ha).dense hP hw.second S.chan
  obtain ⟨u, eu, hu⟩ := hz.addFam hR hc1 hm
  refine ⟨u, fun θ => ?_, hu⟩
  unfold enc1DBlockT
  simp only [ey, ez, hz.shape, eu]

theorem RFam.enc1DLayers (hR : ResClass P Q) {S : Shape} (hc : 2 ∣ S.chan) {x : Θ → Tensor} (h : RFam Q S x) {w : Θ → ℕ → Enc1DW}
    (hw : ∀ l, Enc1DFam P fun θ => w θ l) {act : ℝ → ℝ} (ha : ClosedAct P act) (mlpDim n : ℕ) :
    ∃ y, (∀ θ, enc1DLayersT act (w θ) mlpDim n (x θ) = .ok (y θ)) ∧ RFam Q S y := by
  induction n with
  | zero => exact ⟨x, fun _ => rfl, h⟩
  | succ n ih =>
    obtain ⟨y, ey, hy⟩ := ih
    obtain ⟨z, ez, hz⟩ := hy.enc1DBlock hR hc (hw n) ha mlpDim
    exact ⟨z, fun θ => by simp only [enc1DLayersT, ey, ez], hz⟩

/-- The transformer of `Dynamics` does not fail when the channels can be split into two heads, and its output is in the class. -/
theorem RFam.transformerBlock (hR : ResClass P Q) {S : Shape} (hc : 2 ∣ S.chan) {x : Θ → Tensor} (h : RFam Q S x) {w : Θ → TransW}
    (hw : TransFam P w) {act : ℝ → ℝ} (ha : ClosedAct P act) (layers latent : ℕ) :
    ∃ y, (∀ θ, transformerBlockT act (w θ) layers latent (x θ) = .ok (y θ)) ∧ Fam P ⟨S.batch, S.seq, latent⟩ y := by
  obtain ⟨y, ey, hy⟩ := h.enc1DLayers hR hc hw.blocks ha latent layers
  exact ⟨_, fun θ => by simp only [transformerBlockT, ey], hy.denseNorm hR hw.norm hw.patches latent⟩

theorem Fam.mlpNet (hP : NetClass P) {act final : ℝ → ℝ} (ha : ClosedAct P act) (hf : ClosedAct P final) {w : Θ → ℕ → DenseW}
    (hw : ∀ l, DenseFam P fun θ => w θ l) (fs : List ℕ) : ∀ (l : ℕ) {S : Shape} {x : Θ → Tensor}, Fam P S x →
      AFam P fun θ => Niles.mlpNet act final (w θ) l fs (x θ) := by
  induction fs with
  | nil => exact fun l S x h => ⟨S, h⟩
  | cons f fs ih =>
    intro l S x h
    cases fs with
    | nil => exact ⟨_, (h.dense hP (hw l) f).map hf⟩
    | cons g gs => exact ih (l + 1) ((h.dense hP (hw l) f).map ha)

/-! ## The classes -/

/-- The class itself. -/
theorem resClass_self (hP : NetClass P) : ResClass P fun v => ∀ c, P fun θ => v θ c where
  net := hP
  add hu hv c := hP.add (hu c) (hv c)
  norm hv n c _ := by
    have := (Fam.mk (P := P) (S := ⟨1, 1, n⟩) (x := fun θ => ⟨⟨1, 1, n⟩, fun _ _ c => _⟩) (fun _ => rfl) fun _ _ c => hv c).layerNorm hP
      (w := fun _ => ⟨fun _ => 1, fun _ => 0⟩) ⟨fun _ => hP.const 1, fun _ => hP.const 0⟩
    simpa [Niles.layerNorm] using this.val 0 0 c

/-- Functions that do not depend on the parameter. -/
def ConstFn (f : Θ → ℝ) : Prop := ∀ θ θ', f θ = f θ'

theorem netClass_const : NetClass (ConstFn (Θ := Θ)) where
  const _ _ _ := rfl
  add hf hg θ θ' := by dsimp only; rw [hf θ θ', hg θ θ']
  mul hf hg θ θ' := by dsimp only; rw [hf θ θ', hg θ θ']
  exp hf θ θ' := by dsimp only; rw [hf θ θ']
  inv hf _ _ θ θ' := by dsimp only; rw [hf θ θ']
  sqrt hf _ θ θ' := by dsimp only; rw [hf θ θ']

theorem closedAct_const (act : ℝ → ℝ) : ClosedAct (ConstFn (Θ := Θ)) act := fun {f} hf θ θ' => by dsimp only; rw [hf θ θ']

/-- Tokens that depend on the parameter only through a number added to all channels. -/
def ShiftFn (v : Θ → ℕ → ℝ) : Prop := ∀ θ θ', ∃ a, ∀ c, v θ c = v θ' c + a

theorem normToken_shift {n c : ℕ} (hc : c < n) {u v : ℕ → ℝ} {a : ℝ} (h : ∀ c, u c = v c + a) : normToken n u c = normToken n v c := by
  have hn : (n : ℝ) ≠ 0 := by exact_mod_cast (by omega : n ≠ 0)
  have hm : (∑ i ∈ range n, u i) / n = (∑ i ∈ range n, v i) / n + a := by
    simp only [h, sum_add_distrib, sum_const, card_range, nsmul_eq_mul]
    field_simp
  have hd : ∀ i, u i - (∑ i ∈ range n, u i) / n = v i - (∑ i ∈ range n, v i) / n := fun i => by rw [hm, h]; ring
  simp only [normToken, hd]

theorem resClass_shift : ResClass (ConstFn (Θ := Θ)) ShiftFn where
  net := netClass_const
  add hu hv θ θ' := by
    obtain ⟨a, ha⟩ := hv θ θ'
    refine ⟨a, fun c => ?_⟩
    have := hu c θ θ'
    dsimp only at this ⊢
    rw [ha c, this]
    ring
  norm hv n c hc θ θ' := by
    obtain ⟨a, ha⟩ := hv θ θ'
    exact normToken_shift hc ha

/-- Bounded and Lipschitz continuous with respect to `D` everywhere. -/
abbrev GlobalBL (D : Θ → Θ → ℝ) : (Θ → ℝ) → Prop := BoundedLip (fun _ => Set.univ) D

/-- Lipschitz continuous with respect to `D`. -/
def LipFn (D : Θ → Θ → ℝ) (f : Θ → ℝ) : Prop := ∃ L, 0 ≤ L ∧ ∀ x y, |f x - f y| ≤ L * D x y

theorem GlobalBL.lip {D : Θ → Θ → ℝ} {f : Θ → ℝ} (h : GlobalBL D f) : LipFn D f := by
  obtain ⟨M, L, _, hL, _, h2⟩ := h 0
  exact ⟨L, hL, fun x y => h2 x trivial y trivial⟩

theorem LipFn.add {D : Θ → Θ → ℝ} {f g : Θ → ℝ} (hf : LipFn D f) (hg : LipFn D g) : LipFn D fun θ => f θ + g θ := by
  obtain ⟨L, hL, h⟩ := hf
  obtain ⟨L', hL', h'⟩ := hg
  refine ⟨L + L', by positivity, fun x y => ?_⟩
  have e : f x + g x - (f y + g y) = (f x - f y) + (g x - g y) := by ring
  rw [e, add_mul]
  exact (abs_add_le _ _).trans (add_le_add (h x y) (h' x y))

theorem LipFn.const {D : Θ → Θ → ℝ} (a : ℝ) : LipFn D fun _ => a := ⟨0, le_rfl, fun _ _ => by simp⟩

theorem LipFn.constMul {D : Θ → Θ → ℝ} (a : ℝ) {f : Θ → ℝ} (hf : LipFn D f) : LipFn D fun θ => f θ * a := by
  obtain ⟨L, hL, h⟩ := hf
  refine ⟨L * |a|, by positivity, fun x y => ?_⟩
  rw [← sub_mul, abs_mul]
  have := mul_le_mul_of_nonneg_right (h x y) (abs_nonneg a)
  linarith

theorem LipFn.sum {D : Θ → Θ → ℝ} {f : ℕ → Θ → ℝ} (n : ℕ) (hf : ∀ i, LipFn D (f i)) : LipFn D fun θ => ∑ i ∈ range n, f i θ := by
  induction n with
  | zero => simpa using LipFn.const 0
  | succ n ih => simpa [sum_range_succ] using ih.add (hf n)

/-- The deviation of a token from its mean. -/
noncomputable def dev (n : ℕ) (v : ℕ → ℝ) (c : ℕ) : ℝ := v c - (∑ i ∈ range n, v i) / n

/-- The divisor of `LayerNorm`. -/
noncomputable def spread (n : ℕ) (v : ℕ → ℝ) : ℝ := Real.sqrt ((∑ i ∈ range n, dev n v i ^ 2) / n + 1 / 10 ^ 6)

theorem normToken_eq (n : ℕ) (v : ℕ → ℝ) (c : ℕ) : normToken n v c = dev n v c / spread n v := rfl

theorem spread_sq (n : ℕ) (v : ℕ → ℝ) : spread n v ^ 2 = (∑ i ∈ range n, dev n v i ^ 2) / n + 1 / 10 ^ 6 :=
  Real.sq_sqrt (by positivity)

theorem spread_ge (n : ℕ) (v : ℕ → ℝ) : 1 / 1000 ≤ spread n v := by
  refine Real.le_sqrt_of_sq_le ?_
  have : 0 ≤ (∑ i ∈ range n, dev n v i ^ 2) / n := by positivity
  norm_num at this ⊢
  linarith

theorem dev_le (n : ℕ) (v : ℕ → ℝ) {c : ℕ} (hc : c < n) : |dev n v c| ≤ n * spread n v := by
  have hs := spread_ge n v
  have hn : (1 : ℝ) ≤ n := by exact_mod_cast (by omega : 1 ≤ n)
  refine abs_le_of_sq_le_sq ?_ (by positivity)
  have h1 : dev n v c ^ 2 ≤ ∑ i ∈ range n, dev n v i ^ 2 :=
    single_le_sum (f := fun i => dev n v i ^ 2) (fun i _ => sq_nonneg _) (mem_range.2 hc)
  have h2 : (n : ℝ) * ((∑ i ∈ range n, dev n v i ^ 2) / n) = ∑ i ∈ range n, dev n v i ^ 2 := by field_simp
  rw [mul_pow, spread_sq]
  have h3 : 0 ≤ (∑ i ∈ range n, dev n v i ^ 2) / n := by positivity
  have h4 : (n : ℝ) ≤ n ^ 2 := by nlinarith
  have h5 := mul_le_mul_of_nonneg_right h4 h3
  have h6 : 0 ≤ (n : ℝ) ^ 2 * (1 / 10 ^ 6) := by positivity
  linarith

theorem normToken_le (n : ℕ) (v : ℕ → ℝ) {c : ℕ} (hc : c < n) : |normToken n v c| ≤ n := by
  have hs := spread_ge n v
  have hp : 0 < spread n v := by linarith [show (0 : ℝ) < 1 / 1000 by norm_num]
  rw [normToken_eq, abs_div, abs_of_pos hp, div_le_iff₀ hp]
  exact dev_le n v hc

theorem spread_lip (n : ℕ) (u v : ℕ → ℝ) (d : ℕ → ℝ) (h : ∀ i < n, |dev n u i - dev n v i| ≤ d i) :
    |spread n u - spread n v| ≤ ∑ i ∈ range n, d i := by
  have hu := spread_ge n u
  have hv := spread_ge n v
  have hp : 0 < spread n u + spread n v := by linarith [show (0 : ℝ) < 1 / 1000 by norm_num]
  have e : (spread n u - spread n v) * (spread n u + spread n v) =
      ∑ i ∈ range n, (dev n u i - dev n v i) * (dev n u i + dev n v i) / n := by
    have : (spread n u - spread n v) * (spread n u + spread n v) = spread n u ^ 2 - spread n v ^ 2 := by ring
    rw [this, spread_sq, spread_sq, Finset.sum_div, Finset.sum_div, add_sub_add_right_eq_sub, ← sum_sub_distrib]
    exact sum_congr rfl fun i _ => by ring
  have hb : |(spread n u - spread n v) * (spread n u + spread n v)| ≤ ∑ i ∈ range n, d i * (spread n u + spread n v) := by
    rw [e]
    refine (abs_sum_le_sum_abs _ _).trans (sum_le_sum fun i hi => ?_)
    have hi := mem_range.1 hi
    have hn : (0 : ℝ) < n := by exact_mod_cast (by omega : 0 < n)
    rw [abs_div, abs_mul, abs_of_pos hn, div_le_iff₀ hn]
    have h1 : |dev n u i + dev n v i| ≤ (spread n u + spread n v) * n :=
      (abs_add_le _ _).trans (by linarith [dev_le n u hi, dev_le n v hi])
    calc _ ≤ d i * ((spread n u + spread n v) * n) :=
          mul_le_mul (h i hi) h1 (abs_nonneg _) ((abs_nonneg _).trans (h i hi))
      _ = _ := by ring
  rw [abs_mul, abs_of_pos hp, ← sum_mul] at hb
  exact le_of_mul_le_mul_right hb hp

theorem resClass_lip {D : Θ → Θ → ℝ} (hD : ∀ x y, 0 ≤ D x y) : ResClass (GlobalBL D) fun v => ∀ c, LipFn D fun θ => v θ c where
  net := netClass_boundedLip _ _
  add hu hv c := (hu c).lip.add (hv c)
  norm := by
    intro v hv n c hc R
    have hd : ∀ i, LipFn D fun θ => dev n (v θ) i := fun i => by
      have := (hv i).add ((LipFn.sum n hv).constMul (-(1 / (n : ℝ))))
      have e : (fun θ => dev n (v θ) i) = fun θ => v θ i + (∑ i ∈ range n, v θ i) * -(1 / (n : ℝ)) := by
        funext θ
        simp only [dev]
        ring
      rw [e]
      exact this
    choose L hL h using hd
    refine ⟨n, 1000 * L c + n * 1000 * ∑ i ∈ range n, L i, by positivity, ?_, fun x _ => normToken_le n (v x) hc, fun x _ y _ => ?_⟩
    · have := sum_nonneg (s := range n) fun i _ => hL i
      have := hL c
      positivity
    · have hsx := spread_ge n (v x)
      have hsy := spread_ge n (v y)
      have px : 0 < spread n (v x) := by linarith [show (0 : ℝ) < 1 / 1000 by norm_num]
      have py : 0 < spread n (v y) := by linarith [show (0 : ℝ) < 1 / 1000 by norm_num]
      have hsp := spread_lip n (v x) (v y) (fun i => L i * D x y) fun i _ => h i x y
      rw [← sum_mul] at hsp
      have hinv : (spread n (v x))⁻¹ ≤ 1000 := by
        rw [inv_le_comm₀ px (by norm_num)]
        norm_num at hsx ⊢
        linarith
      dsimp only
      rw [normToken_eq, normToken_eq]
      have e : dev n (v x) c / spread n (v x) - dev n (v y) c / spread n (v y) =
          (dev n (v x) c - dev n (v y) c) * (spread n (v x))⁻¹ +
            (dev n (v y) c / spread n (v y)) * (spread n (v x))⁻¹ * (spread n (v y) - spread n (v x)) := by
        field_simp
        ring
      have hny : |dev n (v y) c / spread n (v y)| ≤ n := normToken_le n (v y) hc
      rw [e]
      refine (abs_add_le _ _).trans ?_
      rw [abs_mul, abs_mul, abs_mul, abs_of_pos (inv_pos.2 px), abs_sub_comm (spread n (v y))]
      have hDxy := hD x y
      have hLc := hL c
      have hS := sum_nonneg (s := range n) fun i _ => hL i
      calc _ ≤ L c * D x y * 1000 + n * 1000 * ((∑ i ∈ range n, L i) * D x y) := by
            gcongr
            exact h c x y
        _ = _ := by ring

/-! ## The diffusion -/

theorem mlpNet_token {act final : ℝ → ℝ} (w : ℕ → DenseW) (fs : List ℕ) : ∀ (l : ℕ) {x y : Tensor} {b t b' t' : ℕ},
    x.shape.chan = y.shape.chan → (∀ c, x.val b t c = y.val b' t' c) →
      ∀ c, (mlpNet act final w l fs x).val b t c = (mlpNet act final w l fs y).val b' t' c := by
  induction fs with
  | nil => exact fun l x y b t b' t' _ h c => h c
  | cons f fs ih =>
    intro l x y b t b' t' hc h c
    have hd : ∀ c, (dense (w l) f x).val b t c = (dense (w l) f y).val b' t' c := by
      intro c
      simp only [dense, hc, h]
    cases fs with
    | nil => simp only [mlpNet, hd]
    | cons g gs =>
      exact ih (l + 1) (x := ⟨(dense (w l) f x).shape, fun b t c => act ((dense (w l) f x).val b t c)⟩)
        (y := ⟨(dense (w l) f y).shape, fun b t c => act ((dense (w l) f y).val b t c)⟩) (b := b) (t := t) (b' := b') (t' := t')
        rfl (fun c => congrArg act (hd c)) c

/-- The diffusion of one coordinate as a function of that coordinate. -/
noncomputable def sigmaFn (w : ℕ → DenseW) (layers hidden : ℕ) (x : ℝ) : ℝ :=
  (mlpNet Real.tanh Real.exp w 0 (List.replicate layers hidden ++ [1]) ⟨⟨1, 1, 1⟩, fun _ _ _ => x⟩).val 0 0 0

theorem dynNets_sigma (act : ℝ → ℝ) (w : DynW) (layers hidden seq latent : ℕ) (ctx z : Fin (seq * latent) → ℝ) (i : Fin (seq * latent)) :
    (dynNets act w layers hidden seq latent ctx).sigma z i = sigmaFn w.diffusion layers hidden (z i) := by
  exact mlpNet_token w.diffusion _ 0 (x := ⟨⟨1, seq * latent, 1⟩, fun _ s _ => entry z s⟩) (y := ⟨⟨1, 1, 1⟩, fun _ _ _ => z i⟩)
    (b := 0) (t := i) (b' := 0) (t' := 0) rfl (fun c => by simp [entry]) 0

/-- The distance of two numbers. -/
def dist1 (x y : ℝ) : ℝ := |x - y|

/-- With a bounded and Lipschitz continuous derivative. -/
def SmoothA (f : ℝ → ℝ) : Prop := LipFn dist1 f ∧ ∃ f' : ℝ → ℝ, (∀ x, HasDerivAt f (f' x) x) ∧ GlobalBL dist1 f'

/-- Bounded, with a bounded and Lipschitz continuous derivative. -/
def SmoothB (f : ℝ → ℝ) : Prop := GlobalBL dist1 f ∧ ∃ f' : ℝ → ℝ, (∀ x, HasDerivAt f (f' x) x) ∧ GlobalBL dist1 f'

theorem netClass_dist1 : NetClass (GlobalBL dist1) := netClass_boundedLip _ _

theorem SmoothA.const (a : ℝ) : SmoothA fun _ => a :=
  ⟨LipFn.const a, fun _ => 0, fun x => hasDerivAt_const x a, netClass_dist1.const 0⟩

theorem SmoothB.const (a : ℝ) : SmoothB fun _ => a :=
  ⟨netClass_dist1.const a, fun _ => 0, fun x => hasDerivAt_const x a, netClass_dist1.const 0⟩

theorem SmoothA.id : SmoothA fun x => x :=
  ⟨⟨1, by norm_num, fun x y => by simp [dist1]⟩, fun _ => 1, fun x => hasDerivAt_id x, netClass_dist1.const 1⟩

theorem SmoothA.add {f g : ℝ → ℝ} (hf : SmoothA f) (hg : SmoothA g) : SmoothA fun x => f x + g x := by
  obtain ⟨h1, f', h2, h3⟩ := hf
  obtain ⟨k1, g', k2, k3⟩ := hg
  exact ⟨h1.add k1, fun x => f' x + g' x, fun x => (h2 x).add (k2 x), netClass_dist1.add h3 k3⟩

theorem SmoothB.add {f g : ℝ → ℝ} (hf : SmoothB f) (hg : SmoothB g) : SmoothB fun x => f x + g x := by
  obtain ⟨h1, f', h2, h3⟩ := hf
  obtain ⟨k1, g', k2, k3⟩ := hg
  exact ⟨netClass_dist1.add h1 k1, fun x => f' x + g' x, fun x => (h2 x).add (k2 x), netClass_dist1.add h3 k3⟩

theorem SmoothA.mulConst {f : ℝ → ℝ} (hf : SmoothA f) (a : ℝ) : SmoothA fun x => f x * a := by
  obtain ⟨h1, f', h2, h3⟩ := hf
  exact ⟨h1.constMul a, fun x => f' x * a, fun x => (h2 x).mul_const a, netClass_dist1.mul h3 (netClass_dist1.const a)⟩

theorem SmoothB.mulConst {f : ℝ → ℝ} (hf : SmoothB f) (a : ℝ) : SmoothB fun x => f x * a := by
  obtain ⟨h1, f', h2, h3⟩ := hf
  exact ⟨netClass_dist1.mul h1 (netClass_dist1.const a), fun x => f' x * a, fun x => (h2 x).mul_const a,
    netClass_dist1.mul h3 (netClass_dist1.const a)⟩

theorem SmoothA.sum {f : ℕ → ℝ → ℝ} (hf : ∀ i, SmoothA (f i)) (n : ℕ) : SmoothA fun x => ∑ i ∈ range n, f i x := by
  induction n with
  | zero => simpa using SmoothA.const 0
  | succ n ih => simpa [sum_range_succ] using ih.add (hf n)

theorem SmoothB.sum {f : ℕ → ℝ → ℝ} (hf : ∀ i, SmoothB (f i)) (n : ℕ) : SmoothB fun x => ∑ i ∈ range n, f i x := by
  induction n with
  | zero => simpa using SmoothB.const 0
  | succ n ih => simpa [sum_range_succ] using ih.add (hf n)

theorem SmoothB.toA {f : ℝ → ℝ} (hf : SmoothB f) : SmoothA f := ⟨hf.1.lip, hf.2⟩

theorem tanh_deriv (x : ℝ) : HasDerivAt Real.tanh (1 - Real.tanh x ^ 2) x := by
  have h := (Real.hasDerivAt_sinh x).div (Real.hasDerivAt_cosh x) (Real.cosh_pos x).ne'
  have e : Real.tanh = fun x => Real.sinh x / Real.cosh x := by funext x; exact Real.tanh_eq_sinh_div_cosh x
  have hc := (Real.cosh_pos x).ne'
  rw [show 1 - Real.tanh x ^ 2 = (Real.cosh x * Real.cosh x - Real.sinh x * Real.sinh x) / Real.cosh x ^ 2 by
    rw [Real.tanh_eq_sinh_div_cosh]; field_simp, e]
  exact h

theorem tanh_abs_le (x : ℝ) : |Real.tanh x| ≤ 1 := (Real.abs_tanh_lt_one x).le

theorem tanh_lip (x y : ℝ) : |Real.tanh x - Real.tanh y| ≤ |x - y| := by
  have := convex_univ.norm_image_sub_le_of_norm_hasDerivWithin_le (f := Real.tanh) (f' := fun x => 1 - Real.tanh x ^ 2) (C := 1)
    (s := Set.univ) (fun v _ => (tanh_deriv v).hasDerivWithinAt) (fun v _ => by
      have h := tanh_abs_le v
      have h2 : Real.tanh v ^ 2 ≤ 1 := by rw [← sq_abs]; exact pow_le_one₀ (abs_nonneg _) h
      rw [Real.norm_eq_abs, abs_le]
      constructor <;> nlinarith [sq_nonneg (Real.tanh v)]) (Set.mem_univ y) (Set.mem_univ x)
  simpa using this

theorem SmoothA.tanh {f : ℝ → ℝ} (hf : SmoothA f) : SmoothB fun x => Real.tanh (f x) := by
  obtain ⟨⟨L, hL, h1⟩, f', h2, h3⟩ := hf
  have hb : GlobalBL dist1 fun x => Real.tanh (f x) := fun _ => ⟨1, L, by norm_num, hL, fun x _ => tanh_abs_le _,
    fun x _ y _ => (tanh_lip _ _).trans (h1 x y)⟩
  refine ⟨hb, fun x => (1 - Real.tanh (f x) ^ 2) * f' x, fun x => (tanh_deriv (f x)).comp x (h2 x), ?_⟩
  have := netClass_dist1.mul (netClass_dist1.sub (netClass_dist1.const 1) (netClass_dist1.mul hb hb)) h3
  simpa [pow_two] using this

theorem SmoothB.exp {f : ℝ → ℝ} (hf : SmoothB f) : SmoothB fun x => Real.exp (f x) := by
  obtain ⟨h1, f', h2, h3⟩ := hf
  exact ⟨netClass_dist1.exp h1, fun x => Real.exp (f x) * f' x, fun x => (h2 x).exp, netClass_dist1.mul (netClass_dist1.exp h1) h3⟩

theorem mlpNet_smooth (w : ℕ → DenseW) (fs : List ℕ) (hfs : fs ≠ []) : ∀ (l : ℕ) {x : ℝ → Tensor} {n : ℕ}, (∀ θ, (x θ).shape.chan = n) →
    (∀ b t c, SmoothB fun θ => (x θ).val b t c) → ∀ b t c, ∃ h, SmoothB h ∧
      ∀ θ, (mlpNet Real.tanh Real.exp w l fs (x θ)).val b t c = Real.exp (h θ) := by
  induction fs with
  | nil => exact absurd rfl hfs
  | cons f fs ih =>
    intro l x n hn hx b t c
    have hd : ∀ b t c, SmoothB fun θ => (dense (w l) f (x θ)).val b t c := by
      intro b t c
      simp only [dense, hn]
      exact (SmoothB.sum (f := fun i θ => (x θ).val b t i * (w l).kernel i c) (fun i => (hx b t i).mulConst _) n).add (SmoothB.const _)
    cases fs with
    | nil => exact ⟨_, hd b t c, fun θ => rfl⟩
    | cons g gs =>
      exact ih (by simp) (l + 1) (x := fun θ => ⟨(dense (w l) f (x θ)).shape, fun b t c => Real.tanh ((dense (w l) f (x θ)).val b t c)⟩)
        (n := f) (fun _ => rfl) (fun b t c => (hd b t c).toA.tanh) b t c

/-- With a hidden layer the diffusion of `Dynamics` is the exponential of a bounded function with a bounded and Lipschitz
continuous derivative. -/
theorem sigmaFn_exp (w : ℕ → DenseW) {layers : ℕ} (hl : 0 < layers) (hidden : ℕ) :
    ∃ h, SmoothB h ∧ ∀ x, sigmaFn w layers hidden x = Real.exp (h x) := by
  obtain ⟨k, rfl⟩ : ∃ k, layers = k + 1 := ⟨layers - 1, by omega⟩
  have hd : ∀ b t c, SmoothB fun x => Real.tanh ((dense (w 0) hidden ⟨⟨1, 1, 1⟩, fun _ _ _ => x⟩).val b t c) := by
    intro b t c
    refine SmoothA.tanh ?_
    simp only [dense]
    exact (SmoothA.sum (f := fun i x => x * (w 0).kernel i c) (fun i => SmoothA.id.mulConst _) 1).add (SmoothA.const _)
  obtain ⟨h, h1, h2⟩ := mlpNet_smooth w (List.replicate k hidden ++ [1]) (by simp) 1
    (x := fun x => ⟨⟨1, 1, hidden⟩, fun b t c => Real.tanh ((dense (w 0) hidden ⟨⟨1, 1, 1⟩, fun _ _ _ => x⟩).val b t c)⟩)
    (n := hidden) (fun _ => rfl) hd 0 0 0
  refine ⟨h, h1, fun x => ?_⟩
  rw [← h2 x]
  unfold sigmaFn
  cases k with
  | zero => rfl
  | succ k => rfl

/-- Bounds of the diffusion. -/
theorem sigmaFn_bounds (w : ℕ → DenseW) {layers : ℕ} (hl : 0 < layers) (hidden : ℕ) :
    ∃ K₀, 1 ≤ K₀ ∧ ∃ g' : ℝ → ℝ, ∀ K, K₀ ≤ K → DiffusionBounds K (sigmaFn w layers hidden) g' := by
  obtain ⟨h, hs, he⟩ := sigmaFn_exp w hl hidden
  obtain ⟨hB, g', hd, hg⟩ := hs.exp
  obtain ⟨M, -, hM, -, h1, -⟩ := hs.1 0
  obtain ⟨M', L', hM', hL', h1', h2'⟩ := hg 0
  have e : sigmaFn w layers hidden = fun x => Real.exp (h x) := funext he
  have hK : ∀ K, 1 + Real.exp M + M' + L' ≤ K → DiffusionBounds K (sigmaFn w layers hidden) g' := by
    intro K hK
    have hE := Real.exp_pos M
    have hK0 : 0 < K := by linarith
    rw [e]
    refine ⟨fun x => ?_, fun x => ?_, hd, fun x => (h1' x trivial).trans (by linarith), fun x y => ?_⟩
    · have := (abs_le.1 (h1 x trivial)).1
      have h3 : Real.exp (-M) ≤ Real.exp (h x) := Real.exp_le_exp.2 this
      refine le_trans ?_ h3
      rw [Real.exp_neg, one_div]
      exact inv_anti₀ hE (by linarith)
    · have := (abs_le.1 (h1 x trivial)).2
      exact (Real.exp_le_exp.2 this).trans (by linarith)
    · refine (h2' x trivial y trivial).trans ?_
      exact mul_le_mul_of_nonneg_right (by linarith) (abs_nonneg _)
  exact ⟨1 + Real.exp M + M' + L', by linarith [Real.exp_pos M], g', hK⟩

end Verif.Niles
