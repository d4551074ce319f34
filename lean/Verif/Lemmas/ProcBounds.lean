import Verif.Lemmas.Processor
import Verif.Props.C99

/-! # Bounds of the drifts and the diffusion of the processor for fixed weights -/

namespace Verif.Niles

open Finset Verif.SDE

variable {Θ : Type*} {P : (Θ → ℝ) → Prop}

theorem DenseFam.const (hP : NetClass P) (w : DenseW) : DenseFam P fun _ => w := ⟨fun _ _ => hP.const _, fun _ => hP.const _⟩

theorem NormFam.const (hP : NetClass P) (w : NormW) : NormFam P fun _ => w := ⟨fun _ => hP.const _, fun _ => hP.const _⟩

theorem TransFam.const (hP : NetClass P) (w : TransW) : TransFam P fun _ => w where
  blocks _ := ⟨NormFam.const hP _, ⟨DenseFam.const hP _, DenseFam.const hP _, DenseFam.const hP _, DenseFam.const hP _⟩,
    NormFam.const hP _, DenseFam.const hP _, DenseFam.const hP _⟩
  norm := NormFam.const hP _
  patches := DenseFam.const hP _

/-- State, context and time. -/
abbrev DynArg (n : ℕ) := (Fin n → ℝ) × (Fin n → ℝ) × ℝ

/-- The distance of the arguments of the drift. -/
noncomputable def argDist {n : ℕ} (p q : DynArg n) : ℝ := ‖p.1 - q.1‖ + ‖p.2.1 - q.2.1‖ + |p.2.2 - q.2.2|

theorem argDist_nonneg {n : ℕ} (p q : DynArg n) : 0 ≤ argDist p q := by unfold argDist; positivity

theorem lip_entry {n : ℕ} {D : Θ → Θ → ℝ} {v : Θ → Fin n → ℝ} (h : ∀ x y, ‖v x - v y‖ ≤ D x y) (k : ℕ) :
    LipFn D fun θ => entry (v θ) k := by
  unfold entry
  split_ifs with hk
  · refine ⟨1, zero_le_one, fun x y => ?_⟩
    rw [one_mul]
    exact (norm_le_pi_norm (v x - v y) ⟨k, hk⟩).trans (h x y)
  · exact LipFn.const 0

theorem rfam_withContext (seq latent : ℕ) : RFam (fun v => ∀ c, LipFn (argDist (n := seq * latent)) fun θ => v θ c)
    ⟨1, seq + 1 + seq, latent⟩ fun p => withContext seq latent p.1 p.2.1 p.2.2 := by
  have hz : ∀ k, LipFn (argDist (n := seq * latent)) fun p => entry p.1 k :=
    lip_entry fun x y => by
      unfold argDist
      linarith [norm_nonneg (x.2.1 - y.2.1), abs_nonneg (x.2.2 - y.2.2)]
  have hc : ∀ k, LipFn (argDist (n := seq * latent)) fun p => entry p.2.1 k :=
    lip_entry fun x y => by
      unfold argDist
      linarith [norm_nonneg (x.1 - y.1), abs_nonneg (x.2.2 - y.2.2)]
  have ht : LipFn (argDist (n := seq * latent)) fun p => p.2.2 := ⟨1, zero_le_one, fun x y => by
    unfold argDist
    linarith [norm_nonneg (x.1 - y.1), norm_nonneg (x.2.1 - y.2.1)]⟩
  refine ⟨fun _ => rfl, fun b s c => ?_⟩
  simp only [withContext, withTime]
  split_ifs
  · exact hz _
  · exact ht
  · exact hc _

theorem rfam_withTime (seq latent : ℕ) : RFam (fun v => ∀ c, LipFn (argDist (n := seq * latent)) fun θ => v θ c)
    ⟨1, seq + 1, latent⟩ fun p => withTime seq latent p.1 p.2.2 := by
  have h := rfam_withContext seq latent
  refine ⟨fun _ => rfl, fun b s c => ?_⟩
  have := h.val 0 (min s seq) c
  simp only [withContext, withTime] at this ⊢
  simp only [if_pos (show min s seq < seq + 1 by omega)] at this
  by_cases hs : s < seq
  · simpa [hs, min_eq_left hs.le] using this
  · simpa [hs, min_eq_right (not_lt.1 hs)] using this

theorem fam_bounds {n : ℕ} {f : ℕ → DynArg n → ℝ} (hf : ∀ i, GlobalBL argDist (f i)) (m : ℕ) :
    ∃ K, 0 ≤ K ∧ ∀ i < m, (∀ p, |f i p| ≤ K) ∧ ∀ p q, |f i p - f i q| ≤ K * argDist p q := by
  choose M L hM hL h1 h2 using fun i => hf i 0
  have hs : ∀ i < m, M i + L i ≤ ∑ i ∈ range m, (M i + L i) := fun i hi =>
    single_le_sum (f := fun i => M i + L i) (fun i _ => add_nonneg (hM i) (hL i)) (mem_range.2 hi)
  refine ⟨∑ i ∈ range m, (M i + L i), sum_nonneg fun i _ => add_nonneg (hM i) (hL i), fun i hi => ⟨fun p => ?_, fun p q => ?_⟩⟩
  · exact (h1 i p trivial).trans (by linarith [hs i hi, hL i])
  · exact (h2 i p trivial q trivial).trans (mul_le_mul_of_nonneg_right (by linarith [hs i hi, hM i]) (argDist_nonneg p q))

/-- The drifts are bounded and Lipschitz continuous, uniformly in the context. -/
theorem drift_bounds (w : DynW) (layers hidden seq : ℕ) {latent : ℕ} (hl : 2 ∣ latent) :
    ∃ K, 0 ≤ K ∧ ∀ i : Fin (seq * latent),
      (∀ ctx z t, |(dynNets gelu w layers hidden seq latent ctx).post z t i| ≤ K ∧
        |(dynNets gelu w layers hidden seq latent ctx).prior z t i| ≤ K) ∧
      ∀ ctx ctx' z z' t t', |(dynNets gelu w layers hidden seq latent ctx).post z t i -
          (dynNets gelu w layers hidden seq latent ctx').post z' t' i| ≤ K * (‖z - z'‖ + ‖ctx - ctx'‖ + |t - t'|) ∧
        |(dynNets gelu w layers hidden seq latent ctx).prior z t i -
          (dynNets gelu w layers hidden seq latent ctx').prior z' t' i| ≤ K * (‖z - z'‖ + ‖ctx - ctx'‖ + |t - t'|) := by
  have hR := resClass_lip (D := argDist (n := seq * latent)) argDist_nonneg
  have hg : ClosedAct (GlobalBL (argDist (n := seq * latent))) gelu := gelu_closed hR.net
  obtain ⟨y, ey, hy⟩ := (rfam_withContext seq latent).transformerBlock hR hl (TransFam.const hR.net w.post) hg layers latent
  obtain ⟨y', ey', hy'⟩ := (rfam_withTime seq latent).transformerBlock hR hl (TransFam.const hR.net w.prior) hg layers latent
  obtain ⟨K1, hK1, b1⟩ := fam_bounds (f := fun i p => (y p).val 0 (i / latent) (i % latent)) (fun i => hy.val _ _ _) (seq * latent)
  obtain ⟨K2, hK2, b2⟩ := fam_bounds (f := fun i p => (y' p).val 0 (i / latent) (i % latent)) (fun i => hy'.val _ _ _) (seq * latent)
  have e1 : ∀ ctx z t (i : Fin (seq * latent)), (dynNets gelu w layers hidden seq latent ctx).post z t i =
      (y (z, ctx, t)).val 0 (i / latent) (i % latent) := by
    intro ctx z t i
    simp only [dynNets]
    rw [show transformerBlockT gelu w.post layers latent (withContext seq latent z ctx t) = _ from ey (z, ctx, t)]
    rfl
  have e2 : ∀ ctx z t (i : Fin (seq * latent)), (dynNets gelu w layers hidden seq latent ctx).prior z t i =
      (y' (z, ctx, t)).val 0 (i / latent) (i % latent) := by
    intro ctx z t i
    simp only [dynNets]
    rw [show transformerBlockT gelu w.prior layers latent (withTime seq latent z t) = _ from ey' (z, ctx, t)]
    rfl
  refine ⟨K1 + K2, by positivity, fun i => ⟨fun ctx z t => ⟨?_, ?_⟩, fun ctx ctx' z z' t t' => ⟨?_, ?_⟩⟩⟩
  · rw [e1]
    exact ((b1 i i.2).1 _).trans (by linarith)
  · rw [e2]
    exact ((b2 i i.2).1 _).trans (by linarith)
  · rw [e1, e1]
    refine ((b1 i i.2).2 _ _).trans ?_
    exact mul_le_mul_of_nonneg_right (by linarith) (argDist_nonneg _ _)
  · rw [e2, e2]
    refine ((b2 i i.2).2 _ _).trans ?_
    exact mul_le_mul_of_nonneg_right (by linarith) (argDist_nonneg _ _)

/-- The bounds of the coefficients of the latent dynamics, for arbitrary weights and uniformly in the context. -/
theorem dynNets_bounds (w : DynW) {layers : ℕ} (h0 : 0 < layers) (hidden seq : ℕ) {latent : ℕ} (hl : 2 ∣ latent) :
    ∃ K, 1 ≤ K ∧ ∃ g' : ℝ → ℝ, ∀ ctx : Fin (seq * latent) → ℝ,
      CoefficientBounds K (dynNets gelu w layers hidden seq latent ctx).post (fun _ => sigmaFn w.diffusion layers hidden) (fun _ => g') ∧
        ∀ z t i, |(dynNets gelu w layers hidden seq latent ctx).prior z t i| ≤ K := by
  obtain ⟨K0, h1, g', hs⟩ := sigmaFn_bounds w.diffusion h0 hidden
  obtain ⟨K1, hK1, hd⟩ := drift_bounds w layers hidden seq hl
  refine ⟨K0 + K1, by linarith, g', fun ctx => ⟨⟨fun _ => hs _ (by linarith), fun z t i => ?_, fun z z' t t' i => ?_⟩, fun z t i => ?_⟩⟩
  · exact ((hd i).1 ctx z t).1.trans (by linarith)
  · have := ((hd i).2 ctx ctx z z' t t').1
    rw [sub_self, norm_zero, add_zero] at this
    exact this.trans (mul_le_mul_of_nonneg_right (by linarith) (by positivity))
  · exact ((hd i).1 ctx z t).2.trans (by linarith)

end Verif.Niles
