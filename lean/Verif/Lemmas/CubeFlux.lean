import Mathlib.MeasureTheory.Integral.DivergenceTheorem
import Mathlib.MeasureTheory.Integral.Prod
import Mathlib.MeasureTheory.Constructions.Pi

/-!
# Integrals of derivatives over a cube
-/

namespace Verif.Core

open MeasureTheory

/-- The integral over a cube of a derivative along an axis vanishes, if the function vanishes on the two faces. The
function may have kinks at countably many coordinates. -/
theorem flux_cube {d : ℕ} (k : Fin d) {a b : ℝ} (hab : a ≤ b) (G G' : (Fin d → ℝ) → ℝ) {S : Set ℝ} (hS : S.Countable)
    (hc : ContinuousOn G (Set.Icc (fun _ => a) (fun _ => b)))
    (hd : ∀ x ∈ Set.Icc (fun _ : Fin d => a) (fun _ => b), x k ∈ Set.Ioo a b → x k ∉ S →
      HasDerivAt (fun y => G (Function.update x k y)) (G' x) (x k))
    (hi : IntegrableOn G' (Set.Icc (fun _ => a) (fun _ => b)))
    (h0 : ∀ x ∈ Set.Icc (fun _ : Fin d => a) (fun _ => b), x k = a ∨ x k = b → G x = 0) :
    ∫ x in Set.Icc (fun _ : Fin d => a) (fun _ => b), G' x = 0 := by
  obtain ⟨d, rfl⟩ : ∃ d', d = d' + 1 := ⟨d - 1, by have := k.2; omega⟩
  set Q : Set (Fin (d + 1) → ℝ) := Set.Icc (fun _ => a) (fun _ => b) with hQ
  have hmp := (volume_preserving_piFinSuccAbove (fun _ : Fin (d + 1) => ℝ) k).symm
  set φ := (MeasurableEquiv.piFinSuccAbove (fun _ : Fin (d + 1) => ℝ) k).symm with hφ
  have hφ' : ∀ z : ℝ × (Fin d → ℝ), φ z = k.insertNth z.1 z.2 := fun z => rfl
  have hpre : φ ⁻¹' Q = Set.Icc a b ×ˢ Set.Icc (fun _ : Fin d => a) (fun _ => b) := by
    ext z
    rw [Set.mem_preimage, hφ', hQ, Set.mem_prod]
    constructor
    · rintro ⟨h1, h2⟩
      refine ⟨⟨?_, ?_⟩, fun j => ?_, fun j => ?_⟩
      · simpa using h1 k
      · simpa using h2 k
      · simpa using h1 (k.succAbove j)
      · simpa using h2 (k.succAbove j)
    · rintro ⟨⟨h1, h2⟩, h3, h4⟩
      constructor
      · intro j
        rcases Fin.eq_self_or_eq_succAbove k j with rfl | ⟨j, rfl⟩
        · simpa using h1
        · simpa using h3 j
      · intro j
        rcases Fin.eq_self_or_eq_succAbove k j with rfl | ⟨j, rfl⟩
        · simpa using h2
        · simpa using h4 j
  rw [← hmp.setIntegral_preimage_emb φ.measurableEmbedding G' Q, hpre, Measure.volume_eq_prod]
  have hint : Integrable (fun z => G' (φ z)) ((volume.restrict (Set.Icc a b)).prod
      (volume.restrict (Set.Icc (fun _ : Fin d => a) (fun _ => b)))) := by
    rw [Measure.prod_restrict]
    have h1 := (hmp.integrableOn_comp_preimage φ.measurableEmbedding (f := G') (s := Q)).mpr hi
    rw [hpre, Measure.volume_eq_prod] at h1
    exact h1
  rw [← Measure.prod_restrict, integral_prod_symm _ hint]
  refine integral_eq_zero_of_ae ?_
  have hae := hint.prod_left_ae
  rw [Filter.EventuallyEq, ae_restrict_iff' measurableSet_Icc]
  rw [ae_restrict_iff' measurableSet_Icc] at hae
  filter_upwards [hae] with y hy hyQ
  have hy := hy hyQ
  have hmem : ∀ s ∈ Set.Icc a b, φ (s, y) ∈ Q := by
    intro s hs
    have : (s, y) ∈ φ ⁻¹' Q := by rw [hpre]; exact ⟨hs, hyQ⟩
    exact this
  have hupd : ∀ s r, Function.update (φ (s, y)) k r = φ (r, y) := by
    intro s r
    rw [hφ', hφ']
    exact Fin.update_insertNth (α := fun _ => ℝ) k s r y
  have hself : ∀ s, φ (s, y) k = s := fun s => by rw [hφ']; simp
  have hcontφ : Continuous fun s => φ (s, y) := by
    refine continuous_pi fun j => ?_
    rcases Fin.eq_self_or_eq_succAbove k j with rfl | ⟨j, rfl⟩
    · simp only [hφ', Fin.insertNth_apply_same]; exact continuous_id
    · simp only [hφ', Fin.insertNth_apply_succAbove]; exact continuous_const
  have hftc := MeasureTheory.integral_eq_of_hasDerivAt_off_countable_of_le (fun s => G (φ (s, y))) (fun s => G' (φ (s, y)))
    hab hS (hc.comp hcontφ.continuousOn (fun s hs => hmem s hs)) (fun s hs => by
      have h1 := hd (φ (s, y)) (hmem s ⟨hs.1.1.le, hs.1.2.le⟩) (by rw [hself]; exact hs.1) (by rw [hself]; exact hs.2)
      simp only [hupd, hself] at h1
      exact h1) (by
      rw [intervalIntegrable_iff_integrableOn_Icc_of_le hab]
      exact hy)
  rw [intervalIntegral.integral_of_le hab, ← setIntegral_congr_set Ioc_ae_eq_Icc.symm] at hftc
  simp only [Pi.zero_apply]
  rw [hftc, h0 _ (hmem b ⟨hab, le_rfl⟩) (Or.inr (hself b)), h0 _ (hmem a ⟨le_rfl, hab⟩) (Or.inl (hself a)), sub_zero]

end Verif.Core
