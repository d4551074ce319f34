import Verif.Lemmas.Processor
import Mathlib.Logic.Equiv.Fin.Basic
import Mathlib.Algebra.BigOperators.Fin
import Mathlib.Tactic.SplitIfs

/-!
# Moving tokens

The blocks of `Dynamics` use no positions: moving the tokens of the input of an attention moves those of its result in the same
way. The lemmas behind C153.
-/

namespace Verif.Niles

open Finset Verif.SDE

/-- `π` permutes the first `n` numbers. -/
structure Shuffle (n : ℕ) (π : ℕ → ℕ) : Prop where
  lt : ∀ t < n, π t < n
  sum : ∀ f : ℕ → ℝ, ∑ j ∈ range n, f (π j) = ∑ j ∈ range n, f j

/-- Token `t` of `y` is token `π t` of `x`. -/
structure Moved (π : ℕ → ℕ) (x y : Tensor) : Prop where
  shape : y.shape = x.shape
  shuffle : Shuffle x.shape.seq π
  val : ∀ b t c, t < x.shape.seq → c < x.shape.chan → y.val b t c = x.val b (π t) c

/-- The same for arrays with heads. -/
structure HMoved (π : ℕ → ℕ) (x y : HTensor) : Prop where
  shape : y.shape = x.shape
  shuffle : Shuffle x.shape.seq π
  val : ∀ b t h k, t < x.shape.seq → h < x.shape.heads → k < x.shape.dim → y.val b t h k = x.val b (π t) h k

/-- Both computations raise the same exception, or return related values. -/
inductive Both {α : Type*} (R : α → α → Prop) : Except Err α → Except Err α → Prop
  | ok {x y : α} : R x y → Both R (.ok x) (.ok y)
  | err (e : Err) : Both R (.error e) (.error e)

variable {π : ℕ → ℕ}

theorem Moved.layerNorm {x y : Tensor} (h : Moved π x y) (w : NormW) : Moved π (layerNorm w x) (layerNorm w y) := by
  refine ⟨h.shape, h.shuffle, fun b t c ht hc => ?_⟩
  simp only [Niles.layerNorm, h.shape]
  rw [normToken_congr (fun c' hc' => h.val b t c' ht hc') hc]

theorem Moved.dense {x y : Tensor} (h : Moved π x y) (w : DenseW) (out : ℕ) : Moved π (dense w out x) (dense w out y) := by
  refine ⟨by simp only [Niles.dense, h.shape], h.shuffle, fun b t c ht hc => ?_⟩
  simp only [Niles.dense, h.shape]
  congr 1
  exact sum_congr rfl fun i hi => by rw [h.val b t i ht (mem_range.1 hi)]

theorem Moved.mlpBlock {x y : Tensor} (h : Moved π x y) (act : ℝ → ℝ) (w : MlpW) (hidden out : ℕ) :
    Moved π (mlpBlock act w hidden out x) (mlpBlock act w hidden out y) := by
  have h1 := h.dense w.first hidden
  exact Moved.dense (x := ⟨(Niles.dense w.first hidden x).shape, fun b t c => act ((Niles.dense w.first hidden x).val b t c)⟩)
    (y := ⟨(Niles.dense w.first hidden y).shape, fun b t c => act ((Niles.dense w.first hidden y).val b t c)⟩)
    ⟨h1.shape, h1.shuffle, fun b t c ht hc => congrArg act (h1.val b t c ht hc)⟩ w.second out

theorem Moved.splitHeads {x y : Tensor} (h : Moved π x y) (heads : ℕ) :
    Both (fun a b => HMoved π a b ∧ a.shape.batch = x.shape.batch ∧ a.shape.seq = x.shape.seq) (splitHeadsT x heads)
      (splitHeadsT y heads) := by
  simp only [splitHeadsT, h.shape, Niles.splitHeads]
  by_cases h0 : heads = 0
  · simp only [h0, if_true]
    exact .err _
  · by_cases h1 : heads * (x.shape.chan / heads) = x.shape.chan
    · simp only [h0, h1, if_false, if_true]
      refine .ok ⟨⟨rfl, h.shuffle, fun b t hd k ht hh hk => ?_⟩, rfl, rfl⟩
      refine h.val b t _ ht ?_
      have := Nat.mul_le_mul_right (x.shape.chan / heads) (Nat.succ_le_of_lt hh)
      rw [Nat.succ_mul] at this
      dsimp only at hk this ⊢
      omega
    · simp only [h0, h1, if_false]
      exact .err _

theorem HMoved.attention {q q' k k' v v' : HTensor} (hq : HMoved π q q') (hk : HMoved π k k') (hv : HMoved π v v') :
    Both (fun a b => HMoved π a b ∧ a.shape.batch = q.shape.batch ∧ a.shape.seq = q.shape.seq) (attentionT q k v)
      (attentionT q' k' v') := by
  simp only [attentionT, hq.shape, hk.shape, hv.shape, Niles.attention]
  split_ifs with hs
  · obtain ⟨-, -, hkv, hqk, hkvh, hd⟩ := hs
    refine .ok ⟨⟨rfl, hq.shuffle, fun b t h i ht hh hi => ?_⟩, rfl, rfl⟩
    dsimp only at ht hh hi
    have hscore : ∀ j < k.shape.seq, score q.shape.dim (q'.val b t h) (k'.val b j h) =
        score q.shape.dim (q.val b (π t) h) (k.val b (π j) h) := by
      intro j hj
      simp only [score]
      refine sum_congr rfl fun c hc => ?_
      rw [hq.val b t h c ht hh (mem_range.1 hc), hk.val b j h c hj (hqk ▸ hh) (hd ▸ mem_range.1 hc)]
    dsimp only
    congr 1
    · rw [← hk.shuffle.sum fun j => Real.exp (score q.shape.dim (q.val b (π t) h) (k.val b j h)) * v.val b j h i]
      refine sum_congr rfl fun j hj => ?_
      rw [hscore j (mem_range.1 hj), hv.val b j h i (hkv ▸ mem_range.1 hj) (hkvh ▸ hqk ▸ hh) hi]
    · rw [← hk.shuffle.sum fun j => Real.exp (score q.shape.dim (q.val b (π t) h) (k.val b j h))]
      exact sum_congr rfl fun j hj => by rw [hscore j (mem_range.1 hj)]
  · exact .err _

theorem HMoved.denseHeads {x y : HTensor} (h : HMoved π x y) (w : DenseW) (out : ℕ) : Moved π (denseHeads w out x) (denseHeads w out y) := by
  refine ⟨by simp only [Niles.denseHeads, h.shape], h.shuffle, fun b t c ht hc => ?_⟩
  simp only [Niles.denseHeads, h.shape]
  congr 1
  exact sum_congr rfl fun i hi => sum_congr rfl fun k hk => by rw [h.val b t i k ht (mem_range.1 hi) (mem_range.1 hk)]

theorem Moved.selfAttention {x y : Tensor} (h : Moved π x y) (w : AttnW) (heads : ℕ) :
    Both (fun a b => Moved π a b ∧ a.shape = x.shape) (selfAttentionT w heads x) (selfAttentionT w heads y) := by
  simp only [selfAttentionT, h.shape]
  have hq := (h.dense w.query x.shape.chan).splitHeads heads
  have hk := (h.dense w.key x.shape.chan).splitHeads heads
  have hv := (h.dense w.value x.shape.chan).splitHeads heads
  generalize splitHeadsT (Niles.dense w.query x.shape.chan x) heads = q at *
  generalize splitHeadsT (Niles.dense w.query x.shape.chan y) heads = q' at *
  generalize splitHeadsT (Niles.dense w.key x.shape.chan x) heads = k at *
  generalize splitHeadsT (Niles.dense w.key x.shape.chan y) heads = k' at *
  generalize splitHeadsT (Niles.dense w.value x.shape.chan x) heads = v at *
  generalize splitHeadsT (Niles.dense w.value x.shape.chan y) heads = v' at *
  cases hq with
  | err e => exact .err e
  | ok hq => cases hk with
    | err e => exact .err e
    | ok hk => cases hv with
      | err e => exact .err e
      | @ok v v' hv =>
        rename_i q q' k k'
        have ha := hq.1.attention hk.1 hv.1
        dsimp only
        generalize attentionT q k v = a at *
        generalize attentionT q' k' v' = a' at *
        cases ha with
        | err e => exact .err e
        | ok ha =>
          refine .ok ⟨ha.1.denseHeads w.out x.shape.chan, ?_⟩
          simp only [Niles.denseHeads, ha.2.1, ha.2.2, hq.2.1, hq.2.2]
          rfl

theorem Moved.add {x y x' y' : Tensor} (h : Moved π x y) (h' : Moved π x' y') (hs : x'.shape = x.shape) :
    Both (fun a b => Moved π a b ∧ a.shape = x.shape) (addT x x') (addT y y') := by
  simp only [addT, h.shape, h'.shape, hs, addShape_self]
  refine .ok ⟨⟨rfl, h.shuffle, fun b t c ht hc => ?_⟩, rfl⟩
  dsimp only at ht hc ⊢
  have hidx : ∀ {n i : ℕ}, i < n → bcastIdx n i = i := by
    intro n i hi
    rw [bcastIdx]
    split_ifs with h1
    · omega
    · rfl
  rw [hidx ht, hidx hc, hidx (h.shuffle.lt t ht), h.val _ t c ht hc, h'.val _ t c (hs ▸ ht) (hs ▸ hc)]

theorem Moved.enc1DBlock {x y : Tensor} (h : Moved π x y) (act : ℝ → ℝ) (w : Enc1DW) (mlpDim heads : ℕ) :
    Both (fun a b => Moved π a b ∧ a.shape = x.shape) (enc1DBlockT act w mlpDim heads x) (enc1DBlockT act w mlpDim heads y) := by
  simp only [enc1DBlockT]
  have hy := (h.layerNorm w.norm1).selfAttention w.attn heads
  generalize selfAttentionT w.attn heads (Niles.layerNorm w.norm1 x) = a at *
  generalize selfAttentionT w.attn heads (Niles.layerNorm w.norm1 y) = a' at *
  cases hy with
  | err e => exact .err e
  | @ok a a' ha =>
    have hax : a.shape = x.shape := ha.2
    have hz := ha.1.add h hax.symm
    dsimp only
    generalize addT a x = z at *
    generalize addT a' y = z' at *
    cases hz with
    | err e => exact .err e
    | @ok z z' hz =>
      have hzx : z.shape = x.shape := hz.2.trans hax
      have hm := (hz.1.layerNorm w.norm2).mlpBlock act w.mlp mlpDim z.shape.chan
      have := hm.add hz.1 rfl
      dsimp only
      rw [hz.1.shape]
      have hs : (Niles.mlpBlock act w.mlp mlpDim z.shape.chan (Niles.layerNorm w.norm2 z)).shape = x.shape := hzx ▸ rfl
      rw [hs] at this
      exact this

theorem Moved.enc1DLayers {x y : Tensor} (h : Moved π x y) (act : ℝ → ℝ) (w : ℕ → Enc1DW) (mlpDim : ℕ) : ∀ n : ℕ,
    Both (fun a b => Moved π a b ∧ a.shape = x.shape) (enc1DLayersT act w mlpDim n x) (enc1DLayersT act w mlpDim n y)
  | 0 => .ok ⟨h, rfl⟩
  | n + 1 => by
    simp only [enc1DLayersT]
    have ih := Moved.enc1DLayers h act w mlpDim n
    generalize enc1DLayersT act w mlpDim n x = a at *
    generalize enc1DLayersT act w mlpDim n y = a' at *
    cases ih with
    | err e => exact .err e
    | ok ha =>
      have := ha.1.enc1DBlock act (w n) mlpDim 2
      rw [ha.2] at this
      exact this

theorem Moved.transformerBlock {x y : Tensor} (h : Moved π x y) (act : ℝ → ℝ) (w : TransW) (layers latent : ℕ) :
    Both (fun a b => Moved π a b ∧ a.shape = ⟨x.shape.batch, x.shape.seq, latent⟩) (transformerBlockT act w layers latent x)
      (transformerBlockT act w layers latent y) := by
  simp only [transformerBlockT]
  have ih := h.enc1DLayers act w.blocks latent layers
  generalize enc1DLayersT act w.blocks latent layers x = a at *
  generalize enc1DLayersT act w.blocks latent layers y = a' at *
  cases ih with
  | err e => exact .err e
  | @ok a a' ha =>
    refine .ok ⟨(ha.1.layerNorm w.norm).dense w.patches latent, ?_⟩
    simp only [Niles.dense, Niles.layerNorm, ha.2]

/-! ## Permutations of the tokens of a state -/

/-- The permutation of the numbers of a state that moves its tokens. -/
def tokPerm {seq : ℕ} (latent : ℕ) (σ : Equiv.Perm (Fin seq)) : Equiv.Perm (Fin (seq * latent)) :=
  finProdFinEquiv.symm.trans ((σ.prodCongr (Equiv.refl (Fin latent))).trans finProdFinEquiv)

/-- A permutation of the first numbers, as a function of all numbers. -/
def liftPerm {n : ℕ} (σ : Equiv.Perm (Fin n)) (t : ℕ) : ℕ := if h : t < n then σ ⟨t, h⟩ else t

theorem liftPerm_lt {n : ℕ} (σ : Equiv.Perm (Fin n)) {t : ℕ} (h : t < n) : liftPerm σ t < n := by
  rw [liftPerm, dif_pos h]
  exact (σ ⟨t, h⟩).2

theorem liftPerm_sum {n : ℕ} (σ : Equiv.Perm (Fin n)) (f : ℕ → ℝ) : ∑ j ∈ range n, f (liftPerm σ j) = ∑ j ∈ range n, f j := by
  rw [sum_range, sum_range, ← Equiv.sum_comp σ fun i : Fin n => f i]
  exact sum_congr rfl fun i _ => by simp [liftPerm]

theorem tokPerm_val {seq latent : ℕ} (σ : Equiv.Perm (Fin seq)) (i : Fin (seq * latent)) :
    (tokPerm latent σ i : ℕ) = liftPerm σ (i / latent) * latent + i % latent := by
  have h : (i : ℕ) / latent < seq := Nat.div_lt_of_lt_mul (i.2.trans_eq (Nat.mul_comm _ _))
  rw [liftPerm, dif_pos h]
  simp only [tokPerm, Equiv.trans_apply, finProdFinEquiv_symm_apply, Equiv.prodCongr_apply, Prod.map_apply, Equiv.refl_apply,
    finProdFinEquiv_apply_val]
  rw [Nat.mul_comm latent, Nat.add_comm]
  rfl

theorem entry_tokPerm {seq latent : ℕ} (σ : Equiv.Perm (Fin seq)) (z : Fin (seq * latent) → ℝ) {s c : ℕ} (hs : s < seq) (hc : c < latent) :
    entry (fun i => z (tokPerm latent σ i)) (s * latent + c) = entry z (liftPerm σ s * latent + c) := by
  have hlt : ∀ {s : ℕ}, s < seq → s * latent + c < seq * latent := by
    intro s hs
    have := Nat.mul_le_mul_right latent (Nat.succ_le_of_lt hs)
    rw [Nat.succ_mul] at this
    omega
  rw [entry, dif_pos (hlt hs), entry, dif_pos (hlt (liftPerm_lt σ hs))]
  congr 1
  apply Fin.ext
  rw [tokPerm_val]
  have h1 : (s * latent + c) / latent = s := by
    rw [Nat.mul_comm, Nat.mul_add_div (by omega), Nat.div_eq_of_lt hc, add_zero]
  have h2 : (s * latent + c) % latent = c := by
    rw [Nat.mul_comm, Nat.mul_add_mod, Nat.mod_eq_of_lt hc]
  dsimp only
  rw [h1, h2]

/-- The permutation of the tokens of state, time and context. -/
def bothPerm {seq : ℕ} (σ τ : Equiv.Perm (Fin seq)) (t : ℕ) : ℕ :=
  if t < seq + 1 then liftPerm σ t else seq + 1 + liftPerm τ (t - (seq + 1))

theorem shuffle_time {seq : ℕ} (σ : Equiv.Perm (Fin seq)) : Shuffle (seq + 1) (liftPerm σ) := by
  refine ⟨fun t ht => ?_, fun f => ?_⟩
  · by_cases h : t < seq
    · exact (liftPerm_lt σ h).trans (Nat.lt_succ_self _)
    · rw [liftPerm, dif_neg h]
      exact ht
  · rw [sum_range_succ, sum_range_succ, liftPerm_sum]
    simp [liftPerm]

theorem shuffle_context {seq : ℕ} (σ τ : Equiv.Perm (Fin seq)) : Shuffle (seq + 1 + seq) (bothPerm σ τ) := by
  refine ⟨fun t ht => ?_, fun f => ?_⟩
  · by_cases h : t < seq + 1
    · rw [bothPerm, if_pos h]
      have := (shuffle_time σ).lt t h
      omega
    · rw [bothPerm, if_neg h]
      have := liftPerm_lt τ (t := t - (seq + 1)) (by omega)
      omega
  · rw [sum_range_add _ (seq + 1) seq, sum_range_add _ (seq + 1) seq]
    congr 1
    · rw [← (shuffle_time σ).sum f]
      refine sum_congr rfl fun j hj => ?_
      rw [bothPerm, if_pos (mem_range.1 hj)]
    · rw [← liftPerm_sum τ fun j => f (seq + 1 + j)]
      refine sum_congr rfl fun j _ => ?_
      rw [bothPerm, if_neg (by omega), Nat.add_sub_cancel_left]

theorem moved_time {seq latent : ℕ} (σ : Equiv.Perm (Fin seq)) (z : Fin (seq * latent) → ℝ) (t : ℝ) :
    Moved (liftPerm σ) (withTime seq latent z t) (withTime seq latent (fun i => z (tokPerm latent σ i)) t) := by
  refine ⟨rfl, shuffle_time σ, fun b s c hs hc => ?_⟩
  simp only [withTime] at hs hc ⊢
  by_cases h : s < seq
  · rw [if_pos h, if_pos (liftPerm_lt σ h), entry_tokPerm σ z h hc]
  · have e : liftPerm σ s = s := by rw [liftPerm, dif_neg h]
    rw [e, if_neg h, if_neg h]

theorem moved_context {seq latent : ℕ} (σ τ : Equiv.Perm (Fin seq)) (z ctx : Fin (seq * latent) → ℝ) (t : ℝ) :
    Moved (bothPerm σ τ) (withContext seq latent z ctx t)
      (withContext seq latent (fun i => z (tokPerm latent σ i)) (fun i => ctx (tokPerm latent τ i)) t) := by
  refine ⟨rfl, shuffle_context σ τ, fun b s c hs hc => ?_⟩
  have hc' : c < latent := hc
  have hs' : s < seq + 1 + seq := hs
  simp only [withContext]
  by_cases h : s < seq + 1
  · have hb : bothPerm σ τ s = liftPerm σ s := by rw [bothPerm, if_pos h]
    rw [if_pos h, hb, if_pos ((shuffle_time σ).lt s h)]
    exact (moved_time σ z t).val 0 s c h hc
  · have hb : bothPerm σ τ s = seq + 1 + liftPerm τ (s - (seq + 1)) := by rw [bothPerm, if_neg h]
    rw [if_neg h, hb, if_neg (by omega), Nat.add_sub_cancel_left, entry_tokPerm τ ctx (by omega) hc']

theorem driftOf_moved {seq latent n : ℕ} {σ : Equiv.Perm (Fin seq)} (hn : seq ≤ n) (hπ : ∀ t < seq, π t = liftPerm σ t)
    {a b : Except Err Tensor} (h : Both (fun x y => Moved π x y ∧ x.shape = ⟨1, n, latent⟩) a b) :
    (driftOf latent b : Fin (seq * latent) → ℝ) = fun i => driftOf latent a (tokPerm latent σ i) := by
  funext i
  have hl : 0 < latent := by
    rcases Nat.eq_zero_or_pos latent with h0 | h0
    · have := i.2
      simp [h0] at this
    · exact h0
  have hd : (i : ℕ) / latent < seq := Nat.div_lt_of_lt_mul (i.2.trans_eq (Nat.mul_comm _ _))
  have hm : (i : ℕ) % latent < latent := Nat.mod_lt _ hl
  cases h with
  | err e => rfl
  | ok h =>
    simp only [driftOf]
    rw [h.1.val 0 _ _ (by rw [h.2]; exact hd.trans_le hn) (by rw [h.2]; exact hm), hπ _ hd, tokPerm_val]
    congr 1
    · rw [Nat.mul_comm (liftPerm σ _), Nat.mul_add_div hl, Nat.div_eq_of_lt hm, add_zero]
    · rw [Nat.mul_comm (liftPerm σ _), Nat.mul_add_mod, Nat.mod_eq_of_lt hm]

/-! ## Moving the state of a stochastic equation -/

section

variable {K E W : Type*} [Field K] [LinearOrder K] [AddCommGroup E] [Module K E]

omit [LinearOrder K] in
theorem heun_conj {f g : E → K → W → E × E} {φ : E →ₗ[K] E} {ψ : W → W}
    (h : ∀ x t dw, g (φ x) t (ψ dw) = (φ (f x t dw).1, φ (f x t dw).2)) (dt t : K) (x : E) (dw : W) :
    heun g dt t (φ x) (ψ dw) = φ (heun f dt t x dw) := by
  simp only [heun, h, map_add, map_smul]
  rw [← map_add, h]

theorem sdeintSeg_conj {f g : E → K → W → E × E} {φ : E →ₗ[K] E} {ψ : W → W}
    (h : ∀ x t dw, g (φ x) t (ψ dw) = (φ (f x t dw).1, φ (f x t dw).2)) (y : E) (ts : K × K) (dw : List W) :
    sdeintSeg g false (φ y) ts (dw.map ψ) = φ (sdeintSeg f false y ts dw) := by
  have key : ∀ (dt : K) (l : List W) (s : K × E), (l.map ψ).foldl (stepFn g ts dt) (s.1, φ s.2) =
      ((l.foldl (stepFn f ts dt) s).1, φ (l.foldl (stepFn f ts dt) s).2) := by
    intro dt l
    induction l with
    | nil => exact fun s => rfl
    | cons w l ih =>
      intro s
      have e : stepFn g ts dt (s.1, φ s.2) (ψ w) = ((stepFn f ts dt s w).1, φ (stepFn f ts dt s w).2) := by
        simp only [stepFn]
        split_ifs
        · rw [heun_conj h]
        · rfl
      rw [List.map_cons, List.foldl_cons, List.foldl_cons, e]
      exact ih _
  simp only [sdeintSeg, List.length_map, Bool.false_eq_true, if_false]
  rw [key _ dw (ts.1, y)]

end

end Verif.Niles
