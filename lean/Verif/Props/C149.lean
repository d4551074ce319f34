import Verif.Model.LossMetrics
import Mathlib.Algebra.BigOperators.Field
import Mathlib.Tactic.Ring
import Mathlib.Tactic.FieldSimp
import Mathlib.Tactic.NormNum

/-!
# C149: the logged training metrics fit together

Claim: in every summary `train_loss = num_steps * train_mse + train_kl`, where `train_mse` is the mean over training steps,
devices, examples and solver steps of half the squared error, `train_kl_q0` and `train_kl_path` are means over the examples of
the divergences summed over the solver steps; `train_kl = train_kl_penalty * (train_kl_q0 + train_kl_path)`; `train_z0_means`,
`train_z1_means` and `train_z1_stds` describe the latent states of all solver steps, the last one the spread of the samples.

The decomposition of the loss and the meaning of the divergences hold. The product formula is false while the weight changes
(`C149_kl_violated`) and holds for constant weights (`C149_kl_partial`). The latent means are those of the last solver step
only (`C149_last_step`), and `z1_stds` is always zero (`C149_spread_violated`).
-/

namespace Verif.Niles

open Finset

variable {b t nodes dim d w : ℕ}

/-- C149: the loss is the sum of the errors of the solver steps and of the weighted divergence, in every summary. -/
theorem C149_loss (run : Fin (w + 1) → Fin (d + 1) → DeviceStep b t nodes dim) :
    logged run LossMetrics.loss = (t + 1 : ℕ) * logged run LossMetrics.mse + logged run LossMetrics.kl := by
  unfold logged
  have ht : ((t + 1 : ℕ) : ℝ) ≠ 0 := by positivity
  have h : ∀ s : DeviceStep b t nodes dim,
      (deviceMetrics s).loss = (t + 1 : ℕ) * (deviceMetrics s).mse + (deviceMetrics s).kl := by
    intro s
    simp only [deviceMetrics]
    push_cast at ht ⊢
    field_simp
  simp only [h, sum_add_distrib, ← mul_sum, add_div, mul_div_assoc]

/-- C149: `train_mse` is half the squared error, summed over nodes and coordinates, averaged over training steps, devices,
examples and solver steps. -/
theorem C149_mse (run : Fin (w + 1) → Fin (d + 1) → DeviceStep b t nodes dim) :
    logged run LossMetrics.mse =
      (∑ j, ∑ p, ∑ e, ∑ i, ∑ n, ∑ k, ((run j p).preds e i n k - (run j p).targets e i n k) ^ 2) /
        (2 * ((w + 1) * (d + 1) * (b + 1) * (t + 1))) := by
  unfold logged deviceMetrics stepMse batchMean
  simp only [← sum_div, ← mul_sum]
  have h : ∀ j p, ∑ i, ∑ e, ∑ n, ∑ k, ((run j p).preds e i n k - (run j p).targets e i n k) ^ 2 =
      ∑ e, ∑ i, ∑ n, ∑ k, ((run j p).preds e i n k - (run j p).targets e i n k) ^ 2 := fun j p => sum_comm
  simp only [h]
  have h1 : (w : ℝ) + 1 ≠ 0 := by positivity
  have h2 : (d : ℝ) + 1 ≠ 0 := by positivity
  have h3 : (b : ℝ) + 1 ≠ 0 := by positivity
  have h4 : (t : ℝ) + 1 ≠ 0 := by positivity
  field_simp

private theorem scan_kl (l : List (Fin (b + 1) → LatentValues)) (init : AuxKey → Fin (b + 1) → ℝ) (e : Fin (b + 1)) :
    (l.foldl (fun prev v => updateAux prev (fillAux (latentAux v))) init .klQ0 e =
        init .klQ0 e + (l.map fun v => (v e).klQ0).sum) ∧
      l.foldl (fun prev v => updateAux prev (fillAux (latentAux v))) init .klPath e =
        init .klPath e + (l.map fun v => (∑ s, (v e).klPath s) / ((v e).samples + 1 : ℝ)).sum := by
  induction l generalizing init with
  | nil => simp
  | cons v l ih =>
    simp only [List.foldl_cons, List.map_cons, List.sum_cons]
    rw [(ih _).1, (ih _).2]
    simp only [updateAux, fillAux, latentAux, Option.getD_some]
    constructor <;> ring

/-- C149: `train_kl_q0` and `train_kl_path` are the means over training steps, devices and examples of the divergences summed
over the solver steps; those of the paths are averaged over the samples. -/
theorem C149_divergences (run : Fin (w + 1) → Fin (d + 1) → DeviceStep b t nodes dim) :
    (logged run LossMetrics.klQ0 = (∑ j, ∑ p, ∑ e, ∑ i, ((run j p).latent i e).klQ0) / ((w + 1) * (d + 1) * (b + 1))) ∧
      logged run LossMetrics.klPath =
        (∑ j, ∑ p, ∑ e, ∑ i, (∑ s, ((run j p).latent i e).klPath s) / (((run j p).latent i e).samples + 1)) /
          ((w + 1) * (d + 1) * (b + 1)) := by
  have h1 : (w : ℝ) + 1 ≠ 0 := by positivity
  have h2 : (d : ℝ) + 1 ≠ 0 := by positivity
  have h3 : (b : ℝ) + 1 ≠ 0 := by positivity
  have hq : ∀ s : DeviceStep b t nodes dim, (deviceMetrics s).klQ0 = (∑ e, ∑ i, (s.latent i e).klQ0) / (b + 1) := by
    intro s
    simp only [deviceMetrics, batchMean, scanAux, scan_kl, zero_add, List.map_ofFn, List.sum_ofFn, Function.comp_apply]
  have hp : ∀ s : DeviceStep b t nodes dim, (deviceMetrics s).klPath =
      (∑ e, ∑ i, (∑ m, (s.latent i e).klPath m) / ((s.latent i e).samples + 1)) / (b + 1) := by
    intro s
    simp only [deviceMetrics, batchMean, scanAux, scan_kl, zero_add, List.map_ofFn, List.sum_ofFn, Function.comp_apply]
  unfold logged
  simp only [hq, hp, ← sum_div]
  constructor <;> field_simp

/-- C149, partial: with a constant weight the weighted divergence is the weight times the divergences. Missing for the full
claim: summaries during which the weight changes. -/
theorem C149_kl_partial (run : Fin (w + 1) → Fin (d + 1) → DeviceStep b t nodes dim) (c : ℝ)
    (hc : ∀ j p, (run j p).penalty = c) :
    logged run LossMetrics.kl =
      logged run LossMetrics.klPenalty * (logged run LossMetrics.klQ0 + logged run LossMetrics.klPath) := by
  have h1 : (w : ℝ) + 1 ≠ 0 := by positivity
  have h2 : (d : ℝ) + 1 ≠ 0 := by positivity
  have hpen : logged run LossMetrics.klPenalty = c := by
    unfold logged
    simp only [deviceMetrics, hc, sum_const, card_univ, Fintype.card_fin, nsmul_eq_mul]
    push_cast
    field_simp
  rw [hpen]
  unfold logged
  have h : ∀ j p, (deviceMetrics (run j p)).kl =
      c * ((deviceMetrics (run j p)).klQ0 + (deviceMetrics (run j p)).klPath) := fun j p => by
    simp only [deviceMetrics, hc]
  simp only [h, ← mul_sum, sum_add_distrib, ← sum_div]
  field_simp

/-- C149: the logged means of the latent states are those of the last solver step: nothing else enters. -/
theorem C149_last_step (run : Fin (w + 1) → Fin (d + 1) → DeviceStep b t nodes dim) :
    (logged run LossMetrics.z0Means =
      (∑ j, ∑ p, ∑ e, |(∑ c, ((run j p).latent (Fin.last t) e).z0 c) / (((run j p).latent (Fin.last t) e).coords + 1)|) /
        ((w + 1) * (d + 1) * (b + 1))) ∧
    logged run LossMetrics.z1Means =
      (∑ j, ∑ p, ∑ e, |(∑ s, ∑ c, ((run j p).latent (Fin.last t) e).z1 s c) /
        ((((run j p).latent (Fin.last t) e).samples + 1) * (((run j p).latent (Fin.last t) e).coords + 1))|) /
        ((w + 1) * (d + 1) * (b + 1)) := by
  have h1 : (w : ℝ) + 1 ≠ 0 := by positivity
  have h2 : (d : ℝ) + 1 ≠ 0 := by positivity
  have h3 : (b : ℝ) + 1 ≠ 0 := by positivity
  have hs : ∀ f : Fin (t + 1) → Fin (b + 1) → LatentValues, scanAux (List.ofFn f) =
      updateAux (scanAux (List.ofFn fun i : Fin t => f i.castSucc)) (fillAux (latentAux (f (Fin.last t)))) := by
    intro f
    unfold scanAux
    rw [List.ofFn_succ', List.concat_eq_append, List.foldl_append]
    rfl
  unfold logged
  simp only [deviceMetrics, hs, updateAux, fillAux, latentAux, Option.getD_some, batchMean, ← sum_div]
  constructor <;> field_simp

private theorem scan_stds (l : List (Fin (b + 1) → LatentValues)) (e : Fin (b + 1)) : scanAux l .z1Stds e = 0 := by
  unfold scanAux
  rw [← List.reverse_reverse l, List.foldl_reverse]
  cases l.reverse with
  | nil => rfl
  | cons v l => rfl

/-- C149 violated: `train_z1_stds` is zero, however far the samples are apart. -/
theorem C149_spread_violated (run : Fin (w + 1) → Fin (d + 1) → DeviceStep b t nodes dim) :
    logged run LossMetrics.z1Stds = 0 := by
  unfold logged
  simp only [deviceMetrics, scan_stds, batchMean, abs_zero, sum_const_zero, zero_div]

/-- Two samples at plus and minus ten, with divergence `q`. -/
noncomputable def exLatent (q : ℝ) : LatentValues where
  coords := 0
  samples := 1
  z0 _ := 5
  z1 s _ := if s = 0 then 10 else -10
  klQ0 := q
  klPath s := if s = 0 then 2 else 4

/-- A training step on one device with one example and two solver steps. -/
noncomputable def exStep (q c : ℝ) : DeviceStep 0 1 1 1 where
  latent _ _ := exLatent q
  preds _ _ _ _ := 3
  targets _ _ _ _ := 1
  penalty := c

/-- C149 violated: if the weight rises from 0 to 1 while the divergence falls from 12 to 8, the logged product is too large. -/
theorem C149_kl_violated : ∃ run : Fin 2 → Fin 1 → DeviceStep 0 1 1 1, logged run LossMetrics.kl ≠
    logged run LossMetrics.klPenalty * (logged run LossMetrics.klQ0 + logged run LossMetrics.klPath) := by
  refine ⟨fun j _ => exStep (if j = 0 then 3 else 1) (if j = 0 then 0 else 1), ?_⟩
  simp [logged, deviceMetrics, scanAux, scan_kl, batchMean, exStep, exLatent, Fin.sum_univ_succ]
  norm_num

/-- The samples of `exLatent` are far apart, the error is `2`, and the logged loss is the sum. -/
example : logged (fun _ _ => exStep 1 (1 / 2) : Fin 1 → Fin 1 → DeviceStep 0 1 1 1) LossMetrics.loss = 2 * 2 + 4 := by
  rw [C149_loss, C149_mse, C149_kl_partial _ (1 / 2) (fun _ _ => rfl), (C149_divergences _).1, (C149_divergences _).2]
  simp [exStep, exLatent, logged, deviceMetrics]
  norm_num
  change (4 : ℝ) + 1 / 2 * (2 + ((∑ s : Fin 2, if s = 0 then (2 : ℝ) else 4) / 2 +
    (∑ s : Fin 2, if s = 0 then (2 : ℝ) else 4) / 2)) = 8
  rw [Fin.sum_univ_two]
  norm_num

end Verif.Niles
