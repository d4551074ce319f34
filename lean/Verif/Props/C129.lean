import Verif.Model.Optimizer
import Verif.Model.TrainStep
import Verif.Props.C53
import Mathlib.Tactic.NormNum

/-!
# C129: how far a training step moves the weights

For every history of gradients: `C129_step` (a step moves a weight by at most the learning rate times a constant plus the decay),
`C129_bounded` (all weights stay in a fixed interval), `C129_config` (the numbers of the configuration), `C129_train` (all devices, all
losses), `C129_first` (the first step moves nothing).
-/

namespace Verif.Niles

open Verif.Comm

variable {ι : Type*} [Fintype ι]

/-- The constant of Adam: the largest quotient of the corrected moments. -/
noncomputable def adamConst (b1 b2 : ℝ) : ℝ := (1 - b1) / Real.sqrt ((1 - b2) * (1 - b1 ^ 2 / b2))

/-- The decay rates of the moments make the quotient of the moments bounded. -/
structure AdamRates (c : OptConfig) : Prop where
  b1_nonneg : 0 ≤ c.b1
  b1_lt : c.b1 < 1
  b2_lt : c.b2 < 1
  rates : c.b1 ^ 2 < c.b2
  eps : 0 < c.eps

theorem AdamRates.b2_pos {c : OptConfig} (h : AdamRates c) : 0 < c.b2 := lt_of_le_of_lt (sq_nonneg _) h.rates

theorem AdamRates.ratio_lt {c : OptConfig} (h : AdamRates c) : c.b1 ^ 2 / c.b2 < 1 := (div_lt_one h.b2_pos).2 h.rates

/-- The invariant of the moments. -/
def MomentsOk (c : OptConfig) (s : OptState ι) : Prop :=
  ∀ i, 0 ≤ s.nu i ∧ s.mu i ^ 2 ≤
    (1 - c.b1) ^ 2 / ((1 - c.b2) * (1 - c.b1 ^ 2 / c.b2)) * (1 - (c.b1 ^ 2 / c.b2) ^ s.count) * s.nu i

theorem moments_create (c : OptConfig) (θ : ι → ℝ) : MomentsOk c (createTrainState θ) := by
  intro i
  simp [createTrainState]

theorem moments_step {c : OptConfig} (h : AdamRates c) (s : OptState ι) (hs : MomentsOk c s) (grads : ι → ℝ) :
    MomentsOk c (applyGradients c s grads) := by
  intro i
  obtain ⟨h0, h1⟩ := hs i
  have hb2 := h.b2_pos
  have hr1 := h.ratio_lt
  have h12 := h.b2_lt
  set g := clipped c grads i with hg
  set r := c.b1 ^ 2 / c.b2 with hr
  have hr0 : 0 ≤ r := by positivity
  have hA : 0 < (1 - c.b2) * (1 - r) := mul_pos (by linarith) (by linarith)
  change 0 ≤ (1 - c.b2) * g ^ 2 + c.b2 * s.nu i ∧ ((1 - c.b1) * g + c.b1 * s.mu i) ^ 2 ≤
    (1 - c.b1) ^ 2 / ((1 - c.b2) * (1 - r)) * (1 - r ^ (s.count + 1)) * ((1 - c.b2) * g ^ 2 + c.b2 * s.nu i)
  refine ⟨add_nonneg (mul_nonneg (by linarith) (sq_nonneg _)) (mul_nonneg hb2.le h0), ?_⟩
  set A := (1 - c.b1) ^ 2 / ((1 - c.b2) * (1 - r)) * (1 - r ^ s.count) with hAd
  have hA0 : 0 ≤ A := by
    have : r ^ s.count ≤ 1 := pow_le_one₀ hr0 hr1.le
    exact mul_nonneg (div_nonneg (sq_nonneg _) hA.le) (by linarith)
  have e : (1 - c.b1) ^ 2 / ((1 - c.b2) * (1 - r)) * (1 - r ^ (s.count + 1)) = r * A + (1 - c.b1) ^ 2 / (1 - c.b2) := by
    rw [hAd, pow_succ]
    have h3 : (1 - c.b2) ≠ 0 := by linarith
    have h4 : (1 - r) ≠ 0 := by linarith
    field_simp
    ring
  rw [e]
  -- Cauchy-Schwarz
  have hb1r : c.b1 ^ 2 = r * c.b2 := by
    rw [hr]
    field_simp
  set d := 1 - c.b2 with hd
  have hd0 : 0 < d := by linarith
  set q := 1 - c.b1 with hq
  have key : (q * g + c.b1 * s.mu i) ^ 2 ≤ (q ^ 2 / d + r * A) * (d * g ^ 2 + c.b2 * s.nu i) := by
    have h5 : (c.b1 * s.mu i) ^ 2 ≤ r * A * (c.b2 * s.nu i) := by
      rw [mul_pow, hb1r]
      nlinarith [mul_le_mul_of_nonneg_left h1 (mul_nonneg hr0 hb2.le)]
    have h6 : 0 ≤ r * A := mul_nonneg hr0 hA0
    have h7 : 0 ≤ c.b2 * s.nu i := mul_nonneg hb2.le h0
    -- `2 q g m ≤ (q²/d) V + (r A) d g²` with `m² ≤ (r A) V`
    have h8 : 2 * (q * g) * (c.b1 * s.mu i) ≤ q ^ 2 / d * (c.b2 * s.nu i) + r * A * (d * g ^ 2) := by
      have h9 : (2 * (q * g) * (c.b1 * s.mu i)) ^ 2 ≤ (q ^ 2 / d * (c.b2 * s.nu i) + r * A * (d * g ^ 2)) ^ 2 := by
        have h10 : (2 * (q * g) * (c.b1 * s.mu i)) ^ 2 = 4 * (q ^ 2 * g ^ 2) * (c.b1 * s.mu i) ^ 2 := by ring
        have h11 : 4 * (q ^ 2 * g ^ 2) * (c.b1 * s.mu i) ^ 2 ≤ 4 * (q ^ 2 * g ^ 2) * (r * A * (c.b2 * s.nu i)) :=
          mul_le_mul_of_nonneg_left h5 (by positivity)
        have h12' : 4 * (q ^ 2 * g ^ 2) * (r * A * (c.b2 * s.nu i)) =
            4 * (q ^ 2 / d * (c.b2 * s.nu i)) * (r * A * (d * g ^ 2)) := by
          field_simp
        rw [h10]
        refine h11.trans ?_
        rw [h12']
        nlinarith [sq_nonneg (q ^ 2 / d * (c.b2 * s.nu i) - r * A * (d * g ^ 2))]
      have h13 : 0 ≤ q ^ 2 / d * (c.b2 * s.nu i) + r * A * (d * g ^ 2) := by positivity
      exact le_of_sq_le_sq h9 h13
    have h14 : q ^ 2 / d * (d * g ^ 2) = (q * g) ^ 2 := by
      field_simp
    nlinarith
  linarith
  where
  le_of_sq_le_sq {a b : ℝ} (h : a ^ 2 ≤ b ^ 2) (hb : 0 ≤ b) : a ≤ b := by
    exact (le_abs_self a).trans (by rw [← abs_of_nonneg hb]; exact sq_le_sq.1 h)

theorem moments_train {c : OptConfig} (h : AdamRates c) (θ : ι → ℝ) (grads : List (ι → ℝ)) :
    MomentsOk c (trainWith c (createTrainState θ) grads) := by
  have : ∀ (l : List (ι → ℝ)) (s : OptState ι), MomentsOk c s → MomentsOk c (trainWith c s l) := by
    intro l
    induction l with
    | nil => exact fun s hs => hs
    | cons g l ih => exact fun s hs => ih _ (moments_step h s hs g)
  exact this _ _ (moments_create c θ)

/-- The direction of Adam is bounded. -/
theorem direction_bound {c : OptConfig} (h : AdamRates c) (s : OptState ι) (hs : MomentsOk c s) (hc : 1 ≤ s.count) (i : ι) :
    |adamDirection c s.mu s.nu s.count i| ≤ adamConst c.b1 c.b2 := by
  obtain ⟨h0, h1⟩ := hs i
  have hb2 := h.b2_pos
  have hr1 := h.ratio_lt
  have h12 := h.b2_lt
  have h11 := h.b1_lt
  set r := c.b1 ^ 2 / c.b2 with hr
  have hr0 : 0 ≤ r := by positivity
  set k := s.count with hk
  have hp1 : c.b1 ^ k < 1 := pow_lt_one₀ h.b1_nonneg h11 (by omega)
  have hp2 : c.b2 ^ k < 1 := pow_lt_one₀ hb2.le h12 (by omega)
  have hpr : r ^ k < 1 := pow_lt_one₀ hr0 hr1 (by omega)
  have hprod : (1 - c.b2 ^ k) * (1 - r ^ k) ≤ (1 - c.b1 ^ k) ^ 2 := by
    have e : c.b2 ^ k * r ^ k = (c.b1 ^ k) ^ 2 := by
      rw [← mul_pow, hr, mul_div_cancel₀ _ hb2.ne', ← pow_mul, ← pow_mul, mul_comm]
    have h3 : 0 ≤ c.b2 ^ k := by positivity
    have h4 : 0 ≤ r ^ k := by positivity
    have h5 : 0 ≤ c.b1 ^ k := pow_nonneg h.b1_nonneg k
    have h6 : 2 * c.b1 ^ k ≤ c.b2 ^ k + r ^ k := by
      refine abs_le_of_sq_le_sq' ?_ (by positivity) |>.2
      nlinarith [sq_nonneg (c.b2 ^ k - r ^ k)]
    nlinarith
  have hD : 0 < (1 - c.b2) * (1 - r) := mul_pos (by linarith) (by linarith)
  set v := s.nu i / (1 - c.b2 ^ k) with hv
  have hv0 : 0 ≤ v := div_nonneg h0 (by linarith)
  have hC0 : 0 ≤ adamConst c.b1 c.b2 := div_nonneg (by linarith) (Real.sqrt_nonneg _)
  have hC2 : adamConst c.b1 c.b2 ^ 2 = (1 - c.b1) ^ 2 / ((1 - c.b2) * (1 - r)) := by
    unfold adamConst
    rw [div_pow, Real.sq_sqrt hD.le]
  have hm : |s.mu i / (1 - c.b1 ^ k)| ≤ adamConst c.b1 c.b2 * Real.sqrt v := by
    refine abs_le_of_sq_le_sq ?_ (mul_nonneg hC0 (Real.sqrt_nonneg _))
    rw [div_pow, mul_pow, Real.sq_sqrt hv0, hC2, div_le_iff₀ (by nlinarith)]
    refine h1.trans ?_
    have h7 : s.nu i = v * (1 - c.b2 ^ k) := by
      rw [hv, div_mul_cancel₀ _ (by linarith)]
    rw [h7]
    have h8 : 0 ≤ (1 - c.b1) ^ 2 / ((1 - c.b2) * (1 - r)) * v := mul_nonneg (div_nonneg (sq_nonneg _) hD.le) hv0
    nlinarith [mul_le_mul_of_nonneg_left hprod h8]
  have hden : 0 < Real.sqrt v + c.eps := add_pos_of_nonneg_of_pos (Real.sqrt_nonneg _) h.eps
  unfold adamDirection
  rw [abs_div, abs_of_pos hden, div_le_iff₀ hden]
  refine hm.trans ?_
  have := mul_nonneg hC0 h.eps.le
  linarith

theorem train_snoc (c : OptConfig) (s : OptState ι) (grads : List (ι → ℝ)) (g : ι → ℝ) :
    trainWith c s (grads ++ [g]) = applyGradients c (trainWith c s grads) g := by
  simp [trainWith]

theorem train_counts (c : OptConfig) (s : OptState ι) (grads : List (ι → ℝ)) :
    (trainWith c s grads).count = s.count + grads.length ∧ (trainWith c s grads).schedule = s.schedule + grads.length := by
  induction grads using List.reverseRecOn with
  | nil => exact ⟨rfl, rfl⟩
  | append_singleton l g ih =>
    rw [train_snoc, List.length_append]
    exact ⟨by simp only [applyGradients, ih.1]; simp; omega, by simp only [applyGradients, ih.2]; simp; omega⟩

/-- One step after any history of gradients moves a weight by at most the learning rate times the constant plus the decay. -/
theorem C129_step {c : OptConfig} (h : AdamRates c) (hlr : ∀ x, 0 ≤ c.lr x) (hwd : 0 ≤ c.weightDecay) (θ : ι → ℝ)
    (grads : List (ι → ℝ)) (g : ι → ℝ) (i : ι) :
    let s := trainWith c (createTrainState θ) grads
    |(trainWith c (createTrainState θ) (grads ++ [g])).params i - s.params i| ≤
        c.lr grads.length * (adamConst c.b1 c.b2 + c.weightDecay * |s.params i|) ∧
      |(trainWith c (createTrainState θ) (grads ++ [g])).params i| ≤
        |1 - c.lr grads.length * c.weightDecay| * |s.params i| + c.lr grads.length * adamConst c.b1 c.b2 := by
  intro s
  have hs := moments_step h s (moments_train h θ grads) g
  have hd := direction_bound h _ hs (by simp [applyGradients]) i
  have hc : s.schedule = grads.length := by
    have := (train_counts c (createTrainState θ) grads).2
    exact this.trans (Nat.zero_add _)
  set d := adamDirection c (applyGradients c s g).mu (applyGradients c s g).nu (applyGradients c s g).count i with hdd
  have e : (trainWith c (createTrainState θ) (grads ++ [g])).params i =
      s.params i + -1 * c.lr grads.length * (d + c.weightDecay * s.params i) := by
    rw [train_snoc, ← hc]
    rfl
  rw [e]
  have hl := hlr grads.length
  constructor
  · rw [add_sub_cancel_left, neg_one_mul, neg_mul, abs_neg, abs_mul, abs_of_nonneg hl]
    refine mul_le_mul_of_nonneg_left ((abs_add_le _ _).trans ?_) hl
    rw [abs_mul, abs_of_nonneg hwd]
    linarith
  · have e2 : s.params i + -1 * c.lr grads.length * (d + c.weightDecay * s.params i) =
        (1 - c.lr grads.length * c.weightDecay) * s.params i + -(c.lr grads.length * d) := by ring
    rw [e2]
    refine (abs_add_le _ _).trans ?_
    rw [abs_mul, abs_neg, abs_mul, abs_of_nonneg hl]
    linarith [mul_le_mul_of_nonneg_left hd hl]

/-- Whatever the gradients, all weights stay bounded by their initial size and the quotient of the constant and the decay. -/
theorem C129_bounded {c : OptConfig} (h : AdamRates c) (hlr : ∀ x, 0 ≤ c.lr x) (hwd : 0 < c.weightDecay)
    (hsmall : ∀ x, c.lr x * c.weightDecay ≤ 1) (θ : ι → ℝ) (grads : List (ι → ℝ)) (i : ι) :
    |(trainWith c (createTrainState θ) grads).params i| ≤ max |θ i| (adamConst c.b1 c.b2 / c.weightDecay) := by
  induction grads using List.reverseRecOn with
  | nil => exact le_max_left _ _
  | append_singleton l g ih =>
    refine (C129_step h hlr hwd.le θ l g i).2.trans ?_
    have h1 := hsmall l.length
    have h2 := hlr l.length
    rw [abs_of_nonneg (by linarith)]
    set M := max |θ i| (adamConst c.b1 c.b2 / c.weightDecay) with hM
    have h3 : adamConst c.b1 c.b2 ≤ c.weightDecay * M := by
      have := (div_le_iff₀ hwd).1 (le_max_right |θ i| (adamConst c.b1 c.b2 / c.weightDecay))
      rw [← hM] at this
      linarith
    have h4 := mul_le_mul_of_nonneg_left ih (sub_nonneg.2 h1)
    have h5 := mul_le_mul_of_nonneg_left h3 h2
    linarith

/-- The counters of the optimizer are the step of the state: the learning rate that is reported (train.py 450, 457) is the one that
is applied. -/
theorem C129_counts (c : OptConfig) (θ : ι → ℝ) (grads : List (ι → ℝ)) :
    let s := trainWith c (createTrainState θ) grads
    s.step = grads.length ∧ s.schedule = s.step ∧ s.count = s.step := by
  induction grads using List.reverseRecOn with
  | nil => exact ⟨rfl, rfl, rfl⟩
  | append_singleton l g ih =>
    intro s
    obtain ⟨h1, h2, h3⟩ := ih
    have e : s = applyGradients c (trainWith c (createTrainState θ) l) g := train_snoc _ _ _ _
    rw [e]
    simp only [applyGradients, List.length_append, List.length_singleton]
    omega

/-- With the optimizer of the configuration, a schedule of `create_learning_rate_fn` and any losses on any number of devices: the
weights of all devices stay bounded, the first step changes nothing, nothing changes after the end of the schedule, and every other
step moves a weight by at most the base rate times `1.165 + decay * |weight|`. -/
theorem C129_train {P : ℕ} {B : Type*} (config : ScheduleConfig) (base spe wd : ℝ) (clip : Option ℝ) (hb : 0 ≤ base)
    (hw : 0 < config.warmupEpochs) (hs : 0 < spe) (hwd : 0 < wd) (hsmall : base * wd ≤ 1) :
    ∃ lr, learningRateFn config base spe = some lr ∧
      ∀ (grad : Fin P → OptState ι → B → (ι → ℝ)) (θ : ι → ℝ) (batches : List (Fin P → B)) (d : Fin P) (i : ι),
        let state := fun bs => pTrain ℝ grad (applyGradients (createTx lr wd clip)) bs (fun _ => createTrainState θ) d
        |(state batches).params i| ≤ max |θ i| (1.165 / wd) ∧
        (∀ b, (state [b]).params i = θ i) ∧
        (∀ b, |(state (batches ++ [b])).params i - (state batches).params i| ≤
          lr batches.length * (1.165 + wd * |(state batches).params i|)) ∧
        ((config.warmupEpochs + max (config.numEpochs - config.warmupEpochs) 1) * spe ≤ batches.length →
          ∀ b, (state (batches ++ [b])).params i = (state batches).params i) := by
  obtain ⟨lr, h1, h2⟩ := C53_learning_rate config base spe hb hw hs
  obtain ⟨h0, -, hrange, -, -, hend, -⟩ := h2
  refine ⟨lr, h1, ?_⟩
  intro grad θ batches d i state
  set c := createTx lr wd clip with hc
  have hrates : AdamRates c := by
    constructor <;> norm_num [hc, createTx]
  have hC : adamConst c.b1 c.b2 ≤ 1.165 := by
    have e : adamConst c.b1 c.b2 = (1 / 10) / Real.sqrt (7 / 950) := by
      simp only [adamConst, hc, createTx]
      norm_num
    rw [e, div_le_iff₀ (Real.sqrt_pos.2 (by norm_num))]
    have : (1 / 10 / 1.165 : ℝ) ≤ Real.sqrt (7 / 950) := Real.le_sqrt_of_sq_le (by norm_num)
    linarith [mul_le_mul_of_nonneg_left this (by norm_num : (0 : ℝ) ≤ 1.165)]
  -- all devices run `trainWith` on the averaged gradients
  have hlist : ∀ (bs : List (Fin P → B)) (s₀ : OptState ι), ∃ gs : List (ι → ℝ), gs.length = bs.length ∧
      ∀ e, pTrain ℝ grad (applyGradients c) bs (fun _ => s₀) e = trainWith c s₀ gs := by
    intro bs
    induction bs with
    | nil => exact fun s₀ => ⟨[], rfl, fun _ => rfl⟩
    | cons b bs ih =>
      intro s₀
      obtain ⟨gs, hl, hgs⟩ := ih (applyGradients c s₀ (pmean (K := ℝ) fun e => grad e s₀ (b e)))
      exact ⟨(pmean (K := ℝ) fun e => grad e s₀ (b e)) :: gs, by simp [hl], fun e => hgs e⟩
  have hsnoc : ∀ (bs : List (Fin P → B)) (b : Fin P → B) (s₀ : OptState ι), ∃ (gs : List (ι → ℝ)) (g : ι → ℝ),
      gs.length = bs.length ∧ (∀ e, pTrain ℝ grad (applyGradients c) bs (fun _ => s₀) e = trainWith c s₀ gs) ∧
      ∀ e, pTrain ℝ grad (applyGradients c) (bs ++ [b]) (fun _ => s₀) e = trainWith c s₀ (gs ++ [g]) := by
    intro bs b
    induction bs with
    | nil => exact fun s₀ => ⟨[], pmean (K := ℝ) fun e => grad e s₀ (b e), rfl, fun _ => rfl, fun _ => rfl⟩
    | cons b' bs ih =>
      intro s₀
      obtain ⟨gs, g, hl, hgs, hgs'⟩ := ih (applyGradients c s₀ (pmean (K := ℝ) fun e => grad e s₀ (b' e)))
      exact ⟨(pmean (K := ℝ) fun e => grad e s₀ (b' e)) :: gs, g, by simp [hl], fun e => hgs e, fun e => hgs' e⟩
  have hstep : ∀ (bs : List (Fin P → B)) (b : Fin P → B),
      |(state (bs ++ [b])).params i - (state bs).params i| ≤ lr bs.length * (1.165 + wd * |(state bs).params i|) := by
    intro bs b
    obtain ⟨gs, g, hl, hgs, hgs'⟩ := hsnoc bs b (createTrainState θ)
    have e1 : state bs = trainWith c (createTrainState θ) gs := hgs d
    have e2 : state (bs ++ [b]) = trainWith c (createTrainState θ) (gs ++ [g]) := hgs' d
    have := (C129_step hrates (fun x => (hrange x).1) hwd.le θ gs g i).1
    rw [e1, e2, ← hl]
    refine this.trans (mul_le_mul_of_nonneg_left ?_ (hrange _).1)
    exact add_le_add_left hC _
  have hzero : ∀ (bs : List (Fin P → B)) (b : Fin P → B), lr bs.length = 0 →
      (state (bs ++ [b])).params i = (state bs).params i := by
    intro bs b hz
    have := hstep bs b
    rw [hz, zero_mul] at this
    linarith [abs_nonpos_iff.1 this]
  refine ⟨?_, ?_, hstep batches, ?_⟩
  · obtain ⟨gs, hl, hgs⟩ := hlist batches (createTrainState θ)
    have e1 : state batches = trainWith c (createTrainState θ) gs := hgs d
    rw [e1]
    refine (C129_bounded hrates (fun x => (hrange x).1) hwd (fun x => ?_) θ gs i).trans ?_
    · exact (mul_le_mul_of_nonneg_right (hrange x).2 hwd.le).trans hsmall
    · exact max_le_max_left _ (div_le_div_of_nonneg_right hC hwd.le)
  · intro b
    exact hzero [] b (by simpa using h0)
  · intro hlen b
    exact hzero batches b (hend _ (by rw [← add_mul]; exact hlen))

/-- Clipping: the norm of the gradient that is used is at most the bound, a smaller gradient is used as it is, and a larger one keeps
its direction. -/
theorem C129_clip (m : ℝ) (hm : 0 < m) (g : ι → ℝ) :
    globalNorm (clipByGlobalNorm m g) ≤ m ∧ (globalNorm g < m → clipByGlobalNorm m g = g) ∧
      ∃ a, 0 < a ∧ a ≤ 1 ∧ ∀ i, clipByGlobalNorm m g i = a * g i := by
  unfold clipByGlobalNorm
  by_cases h : globalNorm g < m
  · rw [if_pos h]
    exact ⟨h.le, fun _ => rfl, 1, one_pos, le_rfl, fun i => (one_mul _).symm⟩
  · rw [if_neg h]
    have hg : 0 < globalNorm g := hm.trans_le (not_lt.1 h)
    refine ⟨?_, fun h' => absurd h' h, m / globalNorm g, div_pos hm hg, (div_le_one hg).2 (not_lt.1 h), fun i => by ring⟩
    have e : ∑ i, (g i / globalNorm g * m) ^ 2 = m ^ 2 := by
      have h1 : ∀ i, (g i / globalNorm g * m) ^ 2 = g i ^ 2 * (m ^ 2 / globalNorm g ^ 2) := fun i => by
        field_simp
      rw [Finset.sum_congr rfl fun i _ => h1 i, ← Finset.sum_mul]
      have h2 : ∑ i, g i ^ 2 = globalNorm g ^ 2 := by
        unfold globalNorm
        rw [Real.sq_sqrt (Finset.sum_nonneg fun i _ => sq_nonneg _)]
      rw [h2]
      field_simp
    have e2 : globalNorm (fun i => g i / globalNorm g * m) = Real.sqrt (∑ i, (g i / globalNorm g * m) ^ 2) := rfl
    rw [e2, e, Real.sqrt_sq hm.le]

/-- Where the gradient is clipped, the scale of the loss does not matter: the next state is the same for all multiples of the loss
whose gradient is clipped too. -/
theorem C129_scale (c : OptConfig) (m : ℝ) (hm : 0 < m) (hc : c.clip = some m) (s : OptState ι) (g : ι → ℝ) (a : ℝ) (ha : 0 < a)
    (h1 : m ≤ globalNorm g) (h2 : m ≤ globalNorm (fun i => a * g i)) :
    applyGradients c s (fun i => a * g i) = applyGradients c s g := by
  have hn : globalNorm (fun i => a * g i) = a * globalNorm g := by
    unfold globalNorm
    rw [show ∑ i, (a * g i) ^ 2 = a ^ 2 * ∑ i, g i ^ 2 by rw [Finset.mul_sum]; exact Finset.sum_congr rfl fun i _ => mul_pow _ _ _,
      Real.sqrt_mul (sq_nonneg a), Real.sqrt_sq ha.le]
  have hcl : clipped c (fun i => a * g i) = clipped c g := by
    unfold clipped
    rw [hc]
    simp only [clipByGlobalNorm]
    rw [if_neg (not_lt.2 h2), if_neg (not_lt.2 h1)]
    funext i
    rw [hn]
    have hg : 0 < globalNorm g := hm.trans_le h1
    field_simp
  unfold applyGradients
  rw [hcl]

/-- The numbers of config/niles.py: rate 0.0075, decay 0.05, clipping at 0.01. No weight that starts in `[-23.3, 23.3]` ever leaves it. -/
example {P : ℕ} {B : Type*} (config : ScheduleConfig) (hw : 0 < config.warmupEpochs) (spe : ℝ) (hs : 0 < spe) :
    ∃ lr, learningRateFn config 0.0075 spe = some lr ∧
      ∀ (grad : Fin P → OptState (Fin 3) → B → (Fin 3 → ℝ)) (θ : Fin 3 → ℝ) (batches : List (Fin P → B)) (d : Fin P) (i : Fin 3),
        |θ i| ≤ 23.3 →
        |(pTrain ℝ grad (applyGradients (createTx lr 0.05 (some 0.01))) batches (fun _ => createTrainState θ) d).params i| ≤ 23.3 := by
  obtain ⟨lr, h1, h2⟩ := C129_train (ι := Fin 3) (P := P) (B := B) config 0.0075 spe 0.05 (some 0.01) (by norm_num) hw hs (by norm_num)
    (by norm_num)
  refine ⟨lr, h1, fun grad θ batches d i hθ => (h2 grad θ batches d i).1.trans (max_le hθ (by norm_num))⟩

/-- The condition on the decay rates of the moments is met by the configuration. -/
example (lr : ℝ → ℝ) : AdamRates (createTx lr 0.05 (some 0.01)) := by
  constructor <;> norm_num [createTx]

/-- A gradient that is clipped. -/
example : (0.01 : ℝ) ≤ globalNorm ![3, 4] := by
  unfold globalNorm
  refine Real.le_sqrt_of_sq_le ?_
  norm_num [Fin.sum_univ_two]

end Verif.Niles
