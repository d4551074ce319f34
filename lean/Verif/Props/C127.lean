import Verif.Props.C126

/-!
# C127: the random numbers of an example and the size of the batch

The keys of the increments are split for the whole batch and the array is reshaped across the keys, so that the numbers of an
example change with the size of the batch (transformer.py 847-852, 909-914). Only their law does not.
-/

namespace Verif.Niles

open MeasureTheory ProbabilityTheory

/-- The random numbers of an example depend on the size of its batch: with the same keys, some sample of the first example of a
batch has other increments than it has when the example is alone. -/
theorem C127_violated (batch S n N : ℕ) (hb : 2 ≤ batch) (hS : 1 ≤ S) (hn : 2 ≤ n) (hN : 1 ≤ N) (x : ℕ → ℕ → ℕ → ℝ) :
    ∃ draw : ℕ → ℕ → ℝ, ∃ s < S, (sampleNoise batch S n N x draw 0 s).dw ≠ (sampleNoise 1 S n N x draw 0 s).dw := by
  refine ⟨fun key _ => if key = 0 then 1 else 0, S / n, Nat.div_lt_self (by omega) (by omega), ?_⟩
  intro h
  have hlt : S % n < n := Nat.mod_lt _ (by omega)
  have h1 := congrArg (fun L : List (Fin N → ℝ) => (L.getD (S % n) 0) ⟨0, by omega⟩) h
  simp only [sampleNoise, List.getD_eq_getElem?_getD, List.getElem?_map, List.getElem?_range hlt, Option.map_some,
    Option.getD_some, increments, reshape3, stackKeys, brownianPath] at h1
  have hf : (0 * S + S / n) * (n * N) + S % n * N + 0 = S * N := by
    have := Nat.div_add_mod S n
    calc (0 * S + S / n) * (n * N) + S % n * N + 0 = (n * (S / n) + S % n) * N := by ring
      _ = S * N := by rw [this]
  rw [hf] at h1
  have hSN : 0 < S * N := Nat.mul_pos (by omega) (by omega)
  have h2 : S * N % (batch * S * N) = S * N := Nat.mod_eq_of_lt (by nlinarith)
  have h3 : S * N % (1 * S * N) = 0 := by rw [one_mul, Nat.mod_self]
  rw [h2, h3, if_neg (by omega), if_pos rfl, mul_zero, mul_one] at h1
  have : 0 < Real.sqrt (1 / n) := Real.sqrt_pos.mpr (by positivity)
  linarith

/-- What holds: the law of the random numbers of all samples of an example depends neither on the example nor on the batch.
Missing: that the numbers themselves do not (`C127_violated`). -/
theorem C127_partial (batch S n N : ℕ) (b : Fin batch) :
    (normals batch S n N).map (fun ω (s : Fin S) => noiseVec (n := n) (noiseAt ω b s)) = Measure.pi fun _ => trajectoryLaw n N := by
  have h := congrArg (Measure.map fun (x : (Fin batch × Fin S) → (Fin N ⊕ (Fin n × Fin N)) → ℝ) (s : Fin S) => x (b, s))
    (C126_law batch S n N)
  rw [Measure.map_map (by fun_prop) (measurable_pi_lambda _ fun j => noiseVec_measurable j)] at h
  have hind : iIndepFun (fun (s : Fin S) (x : (Fin batch × Fin S) → (Fin N ⊕ (Fin n × Fin N)) → ℝ) => x (b, s))
      (Measure.pi fun _ => trajectoryLaw n N) :=
    (iIndepFun_pi (μ := fun _ : Fin batch × Fin S => trajectoryLaw n N) (X := fun _ x => x) fun _ => aemeasurable_id).precomp
      (g := fun s => (b, s)) fun s s' hs => by simpa using hs
  rw [iIndepFun_iff_map_fun_eq_pi_map (fun s => (measurable_pi_apply _).aemeasurable)] at hind
  refine h.trans (hind.trans ?_)
  congr 1
  funext s
  exact (measurePreserving_eval (fun _ => trajectoryLaw n N) (b, s)).map_eq

/-- Two examples, one sample, two steps, one coordinate. -/
example (x : ℕ → ℕ → ℕ → ℝ) : ∃ draw : ℕ → ℕ → ℝ, ∃ s < 1, (sampleNoise 2 1 2 1 x draw 0 s).dw ≠ (sampleNoise 1 1 2 1 x draw 0 s).dw :=
  C127_violated 2 1 2 1 (by norm_num) (by norm_num) (by norm_num) (by norm_num) x

end Verif.Niles
