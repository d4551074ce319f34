import Verif.Lemmas.GaussKL
import Verif.Props.C68

/-!
# Laws of the paths of the latent SDE
-/

namespace Verif.SDE

open MeasureTheory ProbabilityTheory InformationTheory
open scoped NNReal ENNReal

/-- One step of the path: drift, and the noise by the rule of Heun. -/
noncomputable def heunStep {m : ℕ} (n : ℕ) (drift : (Fin m → ℝ) → ℝ → Fin m → ℝ) (sigma : (Fin m → ℝ) → Fin m → ℝ) (k : ℕ)
    (z w : Fin m → ℝ) : Fin m → ℝ := fun i =>
  z i + (1 / n) * drift z (k / n) i + (1 / 2) * (w i * sigma z i + w i * sigma (fun j => z j + w j * sigma z j) i)

/-- The path after `k` of `n` steps. -/
noncomputable def heunPath {m : ℕ} (n : ℕ) (drift : (Fin m → ℝ) → ℝ → Fin m → ℝ) (sigma : (Fin m → ℝ) → Fin m → ℝ)
    (z0 : Fin m → ℝ) : (k : ℕ) → (Fin k → Fin m → ℝ) → Fin (k + 1) → Fin m → ℝ
  | 0, _ => fun _ => z0
  | k + 1, w => Fin.snoc (α := fun _ => Fin m → ℝ) (heunPath n drift sigma z0 k (Fin.init w))
      (heunStep n drift sigma k (heunPath n drift sigma z0 k (Fin.init w) (Fin.last k)) (w (Fin.last k)))

theorem heunPath_zero {m : ℕ} (n : ℕ) (drift : (Fin m → ℝ) → ℝ → Fin m → ℝ) (sigma : (Fin m → ℝ) → Fin m → ℝ)
    (z0 : Fin m → ℝ) (k : ℕ) (w : Fin k → Fin m → ℝ) : heunPath n drift sigma z0 k w 0 = z0 := by
  induction k with
  | zero => rfl
  | succ k ih =>
    have : (0 : Fin (k + 1 + 1)) = Fin.castSucc 0 := rfl
    rw [heunPath, this, Fin.snoc_castSucc, ih]

/-- The path computed with the first steps only. -/
theorem heunPath_prefix {m : ℕ} (n : ℕ) (drift : (Fin m → ℝ) → ℝ → Fin m → ℝ) (sigma : (Fin m → ℝ) → Fin m → ℝ)
    (z0 : Fin m → ℝ) (k : ℕ) (w : Fin k → Fin m → ℝ) (Z : ℕ → Fin m → ℝ) (h0 : Z 0 = z0)
    (hZ : ∀ (j : ℕ) (hj : j < k), Z (j + 1) = heunStep n drift sigma j (Z j) (w ⟨j, hj⟩)) (j : Fin (k + 1)) :
    heunPath n drift sigma z0 k w j = Z j := by
  induction k with
  | zero =>
    rw [Fin.fin_one_eq_zero j]
    exact h0.symm
  | succ k ih =>
    have h1 := ih (Fin.init w) fun j hj => hZ j (by omega)
    refine Fin.lastCases ?_ (fun i => ?_) j
    · rw [heunPath, Fin.snoc_last, h1]
      exact (hZ k (by omega)).symm
    · rw [heunPath, Fin.snoc_castSucc, h1]
      rfl

/-- `samplePath` follows the path, and its KL term is the sum of the KL rates. -/
theorem samplePath_heun {m : ℕ} (N : Nets ℝ m) (z0 : Fin m → ℝ) (n : ℕ) (hn : 1 ≤ n) (w : Fin n → Fin m → ℝ) :
    samplePath (dynamics N) z0 (List.ofFn w) = .ok (heunPath n N.post N.sigma z0 n w (Fin.last n),
      ∑ k : Fin n, (1 / n) * logqp N (heunPath n N.post N.sigma z0 n w k.castSucc) (k / n)) := by
  obtain ⟨Z, hZ0, hZ, kl, hs, -, hkl⟩ := C68_path N z0 (List.ofFn w) (by rw [List.length_ofFn]; omega)
  have hp := heunPath_prefix n N.post N.sigma z0 n w Z hZ0 (by
    intro j hj
    funext i
    have := hZ j (by rw [List.length_ofFn]; exact hj) i
    simp only [List.length_ofFn, List.getElem_ofFn] at this
    exact this)
  rw [hs, hkl, hp]
  simp only [List.length_ofFn, Fin.val_last, hp]
  congr 2
  exact Finset.sum_range fun k => 1 / (n : ℝ) * logqp N (Z k) (k / n)

/-- The kernel of a step that adds noise. -/
noncomputable def noiseKernel {X Y W : Type*} [MeasurableSpace X] [MeasurableSpace Y] [MeasurableSpace W] (γ : Measure W) [SFinite γ]
    (F : X → W → Y) (hF : Measurable (Function.uncurry F)) : Kernel X Y where
  toFun x := γ.map (F x)
  measurable' := by
    refine Measure.measurable_of_measurable_coe _ fun s hs => ?_
    have h : ∀ x, γ.map (F x) s = γ (Prod.mk x ⁻¹' (Function.uncurry F ⁻¹' s)) := fun x => by
      have hx : Measurable (F x) := hF.comp measurable_prodMk_left
      rw [Measure.map_apply hx hs]
      rfl
    simp only [h]
    exact measurable_measure_prodMk_left (hF hs)

theorem noiseKernel_apply {X Y W : Type*} [MeasurableSpace X] [MeasurableSpace Y] [MeasurableSpace W] (γ : Measure W) [SFinite γ]
    (F : X → W → Y) (hF : Measurable (Function.uncurry F)) (x : X) : noiseKernel γ F hF x = γ.map (F x) := rfl

instance {X Y W : Type*} [MeasurableSpace X] [MeasurableSpace Y] [MeasurableSpace W] (γ : Measure W) [IsProbabilityMeasure γ]
    (F : X → W → Y) (hF : Measurable (Function.uncurry F)) : IsMarkovKernel (noiseKernel γ F hF) :=
  ⟨fun _ => Measure.isProbabilityMeasure_map (hF.comp measurable_prodMk_left).aemeasurable⟩

/-- A law composed with the kernel of a step, on the space of the noise. -/
theorem map_compProd_noise {Ω X Y W : Type*} [MeasurableSpace Ω] [MeasurableSpace X] [MeasurableSpace Y] [MeasurableSpace W]
    (μ : Measure Ω) [IsProbabilityMeasure μ] (γ : Measure W) [IsProbabilityMeasure γ] (g : Ω → X) (hg : Measurable g) (F : X → W → Y)
    (hF : Measurable (Function.uncurry F)) :
    (μ.map g) ⊗ₘ noiseKernel γ F hF = (μ.prod γ).map fun p => (g p.1, F (g p.1) p.2) := by
  have := Measure.isProbabilityMeasure_map (μ := μ) hg.aemeasurable
  have hm : Measurable fun p : Ω × W => (g p.1, F (g p.1) p.2) :=
    (hg.comp measurable_fst).prodMk (hF.comp ((hg.comp measurable_fst).prodMk measurable_snd))
  ext s hs
  rw [Measure.compProd_apply hs, Measure.map_apply hm hs, Measure.prod_apply (hm hs), lintegral_map
    (Kernel.measurable_kernel_prodMk_left hs) hg]
  refine lintegral_congr fun ω => ?_
  have hx : Measurable (F (g ω)) := hF.comp measurable_prodMk_left
  rw [noiseKernel_apply, Measure.map_apply hx (measurable_prodMk_left hs)]
  rfl

/-- Appending the last value as a measurable equivalence. -/
noncomputable def snocEquiv (k : ℕ) (E : Type*) [MeasurableSpace E] : (Fin k → E) × E ≃ᵐ (Fin (k + 1) → E) :=
  MeasurableEquiv.prodComm.trans (MeasurableEquiv.piFinSuccAbove (fun _ => E) (Fin.last k)).symm

theorem snocEquiv_apply (k : ℕ) (E : Type*) [MeasurableSpace E] (p : (Fin k → E) × E) :
    snocEquiv k E p = Fin.snoc (α := fun _ => E) p.1 p.2 := by
  change Fin.insertNth (α := fun _ => E) (Fin.last k) p.2 p.1 = _
  rw [Fin.insertNth_last']

/-- Independent noise of `k + 1` steps. -/
theorem pi_snoc (k : ℕ) {E : Type*} [MeasurableSpace E] (γ : Measure E) [IsProbabilityMeasure γ] :
    ((Measure.pi fun _ : Fin k => γ).prod γ).map (snocEquiv k E) = Measure.pi fun _ : Fin (k + 1) => γ := by
  have h1 := (measurePreserving_piFinSuccAbove (fun _ : Fin (k + 1) => γ) (Fin.last k)).symm.map_eq
  unfold snocEquiv
  have h2 : ((Measure.pi fun _ : Fin k => γ).prod γ).map MeasurableEquiv.prodComm = γ.prod (Measure.pi fun _ : Fin k => γ) :=
    Measure.prod_swap
  rw [MeasurableEquiv.coe_trans, ← Measure.map_map (MeasurableEquiv.measurable _) (MeasurableEquiv.measurable _), h2]
  exact h1

/-- The noise of a start and `k + 1` steps from that of `k` steps. -/
theorem noise_succ (k : ℕ) {E : Type*} [MeasurableSpace E] (μ γ : Measure E) [IsProbabilityMeasure μ] [IsProbabilityMeasure γ] :
    μ.prod (Measure.pi fun _ : Fin (k + 1) => γ) =
      ((μ.prod (Measure.pi fun _ : Fin k => γ)).prod γ).map fun p => (p.1.1, Fin.snoc (α := fun _ => E) p.1.2 p.2) := by
  have h1 : (fun p : (E × (Fin k → E)) × E => (p.1.1, Fin.snoc (α := fun _ => E) p.1.2 p.2)) =
      (Prod.map id (snocEquiv k E)) ∘ MeasurableEquiv.prodAssoc := by
    funext p
    rw [Function.comp_apply, Prod.map_apply', snocEquiv_apply]
    rfl
  rw [h1, ← Measure.map_map (measurable_id.prodMap (MeasurableEquiv.measurable _)) (MeasurableEquiv.measurable _),
    Measure.prodAssoc_prod, ← Measure.map_prod_map _ _ measurable_id (MeasurableEquiv.measurable _), Measure.map_id, pi_snoc]

/-- A drift that depends on the context and the state measurably. -/
def MeasurableDrift {m : ℕ} (drift : (Fin m → ℝ) → (Fin m → ℝ) → ℝ → Fin m → ℝ) : Prop :=
  ∀ t, Measurable fun p : (Fin m → ℝ) × (Fin m → ℝ) => drift p.1 p.2 t

/-- The step as a function of the history, whose first entry is the context. -/
noncomputable def historyStep {m : ℕ} (n : ℕ) (drift : (Fin m → ℝ) → (Fin m → ℝ) → ℝ → Fin m → ℝ) (sigma : (Fin m → ℝ) → Fin m → ℝ)
    (k : ℕ) (h : Fin (k + 1) → Fin m → ℝ) (w : Fin m → ℝ) : Fin m → ℝ :=
  heunStep n (drift (h 0)) sigma k (h (Fin.last k)) w

theorem historyStep_measurable {m : ℕ} (n : ℕ) (drift : (Fin m → ℝ) → (Fin m → ℝ) → ℝ → Fin m → ℝ)
    (sigma : (Fin m → ℝ) → Fin m → ℝ) (hd : MeasurableDrift drift) (hs : Measurable sigma) (k : ℕ) :
    Measurable (Function.uncurry (historyStep n drift sigma k)) := by
  refine measurable_pi_lambda _ fun i => ?_
  simp only [Function.uncurry_def, historyStep, heunStep]
  have h1 : Measurable fun p : (Fin (k + 1) → Fin m → ℝ) × (Fin m → ℝ) => drift (p.1 0) (p.1 (Fin.last k)) (k / n) i := by
    have h2 : Measurable fun p : (Fin (k + 1) → Fin m → ℝ) × (Fin m → ℝ) => (p.1 0, p.1 (Fin.last k)) := by fun_prop
    exact (measurable_pi_apply i).comp ((hd (k / n)).comp h2)
  have h3 : Measurable fun p : (Fin (k + 1) → Fin m → ℝ) × (Fin m → ℝ) => sigma (p.1 (Fin.last k)) := hs.comp (by fun_prop)
  have h4 : Measurable fun p : (Fin (k + 1) → Fin m → ℝ) × (Fin m → ℝ) =>
      sigma (fun j => p.1 (Fin.last k) j + p.2 j * sigma (p.1 (Fin.last k)) j) := by
    refine hs.comp (measurable_pi_lambda _ fun j => ?_)
    have := (measurable_pi_apply j).comp h3
    simp only [Function.comp_def] at this
    fun_prop
  have h5 := (measurable_pi_apply i).comp h3
  have h6 := (measurable_pi_apply i).comp h4
  simp only [Function.comp_def] at h5 h6
  have h7 : Measurable fun p : (Fin (k + 1) → Fin m → ℝ) × (Fin m → ℝ) => p.1 (Fin.last k) i := by fun_prop
  have h8 : Measurable fun p : (Fin (k + 1) → Fin m → ℝ) × (Fin m → ℝ) => p.2 i := by fun_prop
  exact (h7.add (h1.const_mul _)).add (((h8.mul h5).add (h8.mul h6)).const_mul _)

/-- The path as a function of start and noise. -/
noncomputable def pathFn {m : ℕ} (n : ℕ) (drift : (Fin m → ℝ) → (Fin m → ℝ) → ℝ → Fin m → ℝ) (sigma : (Fin m → ℝ) → Fin m → ℝ)
    (k : ℕ) (p : (Fin m → ℝ) × (Fin k → Fin m → ℝ)) : Fin (k + 1) → Fin m → ℝ :=
  heunPath n (drift p.1) sigma p.1 k p.2

theorem pathFn_succ {m : ℕ} (n : ℕ) (drift : (Fin m → ℝ) → (Fin m → ℝ) → ℝ → Fin m → ℝ) (sigma : (Fin m → ℝ) → Fin m → ℝ)
    (k : ℕ) (z : Fin m → ℝ) (w : Fin k → Fin m → ℝ) (u : Fin m → ℝ) :
    pathFn n drift sigma (k + 1) (z, Fin.snoc (α := fun _ => Fin m → ℝ) w u) =
      snocEquiv (k + 1) (Fin m → ℝ) (pathFn n drift sigma k (z, w), historyStep n drift sigma k (pathFn n drift sigma k (z, w)) u) := by
  rw [snocEquiv_apply]
  simp only [pathFn, heunPath, Fin.init_snoc, Fin.snoc_last, historyStep, heunPath_zero]

theorem pathFn_measurable {m : ℕ} (n : ℕ) (drift : (Fin m → ℝ) → (Fin m → ℝ) → ℝ → Fin m → ℝ)
    (sigma : (Fin m → ℝ) → Fin m → ℝ) (hd : MeasurableDrift drift) (hs : Measurable sigma) (k : ℕ) :
    Measurable (pathFn n drift sigma k) := by
  induction k with
  | zero => exact measurable_pi_lambda _ fun _ => measurable_fst
  | succ k ih =>
    have h1 : pathFn n drift sigma (k + 1) = fun p => snocEquiv (k + 1) (Fin m → ℝ)
        (pathFn n drift sigma k (p.1, Fin.init (α := fun _ => Fin m → ℝ) p.2),
          historyStep n drift sigma k (pathFn n drift sigma k (p.1, Fin.init (α := fun _ => Fin m → ℝ) p.2)) (p.2 (Fin.last k))) := by
      funext p
      rw [← pathFn_succ, Fin.snoc_init_self]
    rw [h1]
    have h2 : Measurable fun p : (Fin m → ℝ) × (Fin (k + 1) → Fin m → ℝ) =>
        pathFn n drift sigma k (p.1, Fin.init (α := fun _ => Fin m → ℝ) p.2) := by
      refine ih.comp (measurable_fst.prodMk (measurable_pi_lambda _ fun j => ?_))
      unfold Fin.init
      fun_prop
    have h3 : Measurable fun p : (Fin m → ℝ) × (Fin (k + 1) → Fin m → ℝ) => p.2 (Fin.last k) := by fun_prop
    exact (MeasurableEquiv.measurable _).comp (h2.prodMk ((historyStep_measurable n drift sigma hd hs k).comp (h2.prodMk h3)))

/-- The law of the path of one more step. -/
theorem path_law_succ {m : ℕ} (n : ℕ) (drift : (Fin m → ℝ) → (Fin m → ℝ) → ℝ → Fin m → ℝ)
    (sigma : (Fin m → ℝ) → Fin m → ℝ) (hd : MeasurableDrift drift) (hs : Measurable sigma) (k : ℕ) (μ γ : Measure (Fin m → ℝ))
    [IsProbabilityMeasure μ] [IsProbabilityMeasure γ] :
    (μ.prod (Measure.pi fun _ : Fin (k + 1) => γ)).map (pathFn n drift sigma (k + 1)) =
      (((μ.prod (Measure.pi fun _ : Fin k => γ)).map (pathFn n drift sigma k)) ⊗ₘ
        noiseKernel γ (historyStep n drift sigma k) (historyStep_measurable n drift sigma hd hs k)).map
          (snocEquiv (k + 1) (Fin m → ℝ)) := by
  have hsn : Measurable fun p : ((Fin m → ℝ) × (Fin k → Fin m → ℝ)) × (Fin m → ℝ) =>
      (p.1.1, Fin.snoc (α := fun _ => Fin m → ℝ) p.1.2 p.2) := by
    refine (measurable_fst.comp measurable_fst).prodMk ?_
    have : (fun p : ((Fin m → ℝ) × (Fin k → Fin m → ℝ)) × (Fin m → ℝ) => Fin.snoc (α := fun _ => Fin m → ℝ) p.1.2 p.2) =
        fun p => snocEquiv k (Fin m → ℝ) (p.1.2, p.2) := by
      funext p
      rw [snocEquiv_apply]
    rw [this]
    exact (MeasurableEquiv.measurable _).comp (by fun_prop)
  have hp := pathFn_measurable n drift sigma hd hs k
  have hF := historyStep_measurable n drift sigma hd hs k
  have hpF : Measurable fun p : ((Fin m → ℝ) × (Fin k → Fin m → ℝ)) × (Fin m → ℝ) =>
      (pathFn n drift sigma k p.1, historyStep n drift sigma k (pathFn n drift sigma k p.1) p.2) :=
    (hp.comp measurable_fst).prodMk (hF.comp ((hp.comp measurable_fst).prodMk measurable_snd))
  rw [noise_succ, Measure.map_map (pathFn_measurable n drift sigma hd hs (k + 1)) hsn, map_compProd_noise _ _ _ hp,
    Measure.map_map (MeasurableEquiv.measurable _) hpF]
  congr 1
  funext p
  exact pathFn_succ n drift sigma k p.1.1 p.1.2 p.2

/-- Numbers that depend on the path before the last step only. -/
theorem lintegral_noise_succ {m : ℕ} (n : ℕ) (drift : (Fin m → ℝ) → (Fin m → ℝ) → ℝ → Fin m → ℝ)
    (sigma : (Fin m → ℝ) → Fin m → ℝ) (hd : MeasurableDrift drift) (hs : Measurable sigma) (k : ℕ) (μ γ : Measure (Fin m → ℝ))
    [IsProbabilityMeasure μ] [IsProbabilityMeasure γ] (G : (Fin (k + 1) → Fin m → ℝ) → ℝ≥0∞) (hG : Measurable G) :
    ∫⁻ p, G (fun j => pathFn n drift sigma (k + 1) p j.castSucc) ∂μ.prod (Measure.pi fun _ : Fin (k + 1) => γ) =
      ∫⁻ p, G (pathFn n drift sigma k p) ∂μ.prod (Measure.pi fun _ : Fin k => γ) := by
  have hp := pathFn_measurable n drift sigma hd hs k
  have hp1 := pathFn_measurable n drift sigma hd hs (k + 1)
  have hcs : Measurable fun q : Fin (k + 1 + 1) → Fin m → ℝ => fun j : Fin (k + 1) => q j.castSucc :=
    measurable_pi_lambda _ fun j => measurable_pi_apply _
  have hGc : Measurable fun q : Fin (k + 1 + 1) → Fin m → ℝ => G fun j => q j.castSucc := hG.comp hcs
  have h1 := lintegral_map (μ := μ.prod (Measure.pi fun _ : Fin (k + 1) => γ)) hGc hp1
  have h2 := lintegral_map (μ := μ.prod (Measure.pi fun _ : Fin k => γ)) hG hp
  rw [← h1, ← h2, path_law_succ n drift sigma hd hs k μ γ, lintegral_map hGc (MeasurableEquiv.measurable _)]
  have hpr := Measure.isProbabilityMeasure_map (μ := μ.prod (Measure.pi fun _ : Fin k => γ)) hp.aemeasurable
  simp only [snocEquiv_apply, Fin.snoc_castSucc]
  rw [Measure.lintegral_compProd (f := fun p => G p.1) (hG.comp measurable_fst)]
  simp

end Verif.SDE
