import Verif.Model.TkeError
import Verif.Props.C86_C87

/-!
# C148: the logged error of the energy spectrum

Claim: `tke_err` is a number for every prediction and target, the mean over the batch of the squared differences of the
logarithms of the energies per band of wave numbers, where the energies are averaged over the last half of the steps; it is
zero for a perfect prediction.

This is false: logarithms of zero are taken. A band without energy in prediction and target makes the metric undefined
(`C148_nan`), also for perfect predictions (`C148_uniform_violated`), for one example of the batch it spoils the batch
(`C148_batch_nan`), and on grids of at most 13 points per side the second band contains no mode at all, so that the metric
is undefined for all flows (`C148_small_violated`). If no band is empty the claim holds (`C148_partial`, `C148_batch_partial`);
on grids of at least 38 points per side, as in the default configuration, every band contains a mode (`C148_bands`).
-/

namespace Verif.Niles

open Finset

/-- The mean, over the last half of the steps, of the energy in band `i`: the modes with wave number from `i` to `i + 1`
bin widths. -/
noncomputable def bandEnergy (n steps : ℕ) (u : ℕ → ℕ → Fin 2 → ℝ) (i : ℕ) : ℝ :=
  (∑ t ∈ Ico (steps / 2) steps, ∑ a ∈ range n, ∑ b ∈ range n,
    if i * binWidth n ≤ wave n a b ∧ wave n a b < (i + 1) * binWidth n then getTke n (u t) a b else 0) /
    ((steps - steps / 2 : ℕ) : ℝ)

private theorem sum_range' (f : ℕ → ℝ) : ∀ l s : ℕ, ((List.range' s l).map f).sum = ∑ i ∈ range l, f (s + i)
  | 0, _ => by simp
  | l + 1, s => by
    rw [List.range'_succ, List.map_cons, List.sum_cons, sum_range' f l (s + 1), sum_range_succ', Nat.add_zero, add_comm]
    congr 1
    exact sum_congr rfl fun i _ => by rw [show s + 1 + i = s + (i + 1) by omega]

private theorem lateTke_eq (n steps : ℕ) (u : ℕ → ℕ → Fin 2 → ℝ) (a b : ℕ) :
    lateTke n steps u a b = (∑ t ∈ Ico (steps / 2) steps, getTke n (u t) a b) / ((steps - steps / 2 : ℕ) : ℝ) := by
  unfold lateTke
  congr 1
  rw [List.range_eq_range', List.drop_range', Finset.sum_Ico_eq_sum_range, sum_range']
  simp

private theorem bandSum_eq (n steps : ℕ) (u : ℕ → ℕ → Fin 2 → ℝ) (i : ℕ) :
    (∑ a ∈ range n, ∑ b ∈ range n,
      if i * binWidth n ≤ wave n a b ∧ wave n a b < (i + 1) * binWidth n then lateTke n steps u a b else 0) =
      bandEnergy n steps u i := by
  unfold bandEnergy
  have h : ∀ a b, (if i * binWidth n ≤ wave n a b ∧ wave n a b < (i + 1) * binWidth n then lateTke n steps u a b else 0) =
      (∑ t ∈ Ico (steps / 2) steps, if i * binWidth n ≤ wave n a b ∧ wave n a b < (i + 1) * binWidth n then
        getTke n (u t) a b else 0) / ((steps - steps / 2 : ℕ) : ℝ) := by
    intro a b
    split_ifs with hc
    · exact lateTke_eq n steps u a b
    · simp
  simp only [h, ← sum_div]
  congr 1
  rw [sum_comm]
  rw [sum_comm (s := Ico (steps / 2) steps)]
  rw [sum_comm]
  exact sum_congr rfl fun a _ => sum_comm

private theorem spectrum_eq {n : ℕ} (hn : 2 ≤ n) (steps : ℕ) (u : ℕ → ℕ → Fin 2 → ℝ) :
    energySpectrum n (lateTke n steps u) = (List.range 18).map (bandEnergy n steps u) := by
  apply List.ext_getElem?
  intro i
  by_cases hi : i < 18
  · rw [C86_bins hn _ hi, bandSum_eq]
    simp [List.getElem?_map, List.getElem?_range hi]
  · rw [List.getElem?_eq_none (by simp [energySpectrum, numBins]; omega), List.getElem?_eq_none (by simp; omega)]

private theorem tkeError_eq {n : ℕ} (hn : 2 ≤ n) {steps : ℕ} (hs : 1 ≤ steps) (pred target : ℕ → ℕ → Fin 2 → ℝ) :
    tkeError n steps pred target = Flt.sum ((List.range 18).map fun i =>
      ((Flt.log (bandEnergy n steps pred i)).sub (Flt.log (bandEnergy n steps target i))).square) := by
  unfold tkeError
  rw [if_neg (by omega), spectrum_eq hn, spectrum_eq hn, List.zip_map', List.map_map]
  rfl

private theorem fltSum_fin {ι : Type} (f : ι → ℝ) (l : List ι) :
    Flt.sum (l.map fun i => .fin (f i)) = .fin (l.map f).sum := by
  induction l with
  | nil => rfl
  | cons a l ih =>
    change Flt.add (.fin (f a)) (Flt.sum (l.map fun i => .fin (f i))) = _
    rw [ih]
    rfl

private theorem add_nan (a : Flt) : a.add .nan = .nan := by cases a <;> rfl

private theorem fltSum_nan {l : List Flt} (h : .nan ∈ l) : Flt.sum l = .nan := by
  induction l with
  | nil => simp at h
  | cons a l ih =>
    change Flt.add a (Flt.sum l) = _
    rcases List.mem_cons.1 h with h | h
    · rw [← h]
      rfl
    · rw [ih h, add_nan]

/-- A number or plus infinity. -/
private def Upper (a : Flt) : Prop := (∃ x, a = .fin x) ∨ a = .posInf

private theorem fltSum_upper {l : List Flt} (h : ∀ a ∈ l, Upper a) :
    Upper (Flt.sum l) ∧ (.posInf ∈ l → Flt.sum l = .posInf) := by
  induction l with
  | nil => exact ⟨Or.inl ⟨0, rfl⟩, fun h => by simp at h⟩
  | cons a l ih =>
    obtain ⟨h1, h2⟩ := ih fun b hb => h b (List.mem_cons_of_mem _ hb)
    have ha := h a List.mem_cons_self
    change Upper (Flt.add a (Flt.sum l)) ∧ (_ → Flt.add a (Flt.sum l) = _)
    rcases ha with ⟨x, rfl⟩ | rfl
    · rcases h1 with ⟨y, hy⟩ | hy
      · refine ⟨by rw [hy]; exact Or.inl ⟨_, rfl⟩, fun hm => ?_⟩
        rcases List.mem_cons.1 hm with hm | hm
        · exact absurd hm (by simp)
        · rw [h2 hm]
          rfl
      · rw [hy]
        exact ⟨Or.inr rfl, fun _ => rfl⟩
    · rcases h1 with ⟨y, hy⟩ | hy <;> rw [hy] <;> exact ⟨Or.inr rfl, fun _ => rfl⟩

/-- C148: energies are not negative. -/
theorem bandEnergy_nonneg (n steps : ℕ) (u : ℕ → ℕ → Fin 2 → ℝ) (i : ℕ) : 0 ≤ bandEnergy n steps u i := by
  unfold bandEnergy
  refine div_nonneg (sum_nonneg fun t _ => sum_nonneg fun a _ => sum_nonneg fun b _ => ?_) (Nat.cast_nonneg _)
  split_ifs
  · unfold getTke
    positivity
  · exact le_rfl

private theorem log_pos {x : ℝ} (h : 0 < x) : Flt.log x = .fin (Real.log x) := by
  unfold Flt.log
  rw [if_neg (not_lt.2 h.le), if_neg h.ne']

private theorem log_zero : Flt.log 0 = .negInf := by
  unfold Flt.log
  simp

/-- C148, partial: if no band is empty, the error of an example is the sum over the bands of the squared differences of the
logarithms. Missing for the full claim: bands without energy. -/
theorem C148_partial {n steps : ℕ} (hn : 2 ≤ n) (hs : 1 ≤ steps) (pred target : ℕ → ℕ → Fin 2 → ℝ)
    (hp : ∀ i < 18, 0 < bandEnergy n steps pred i) (ht : ∀ i < 18, 0 < bandEnergy n steps target i) :
    tkeError n steps pred target =
      .fin (∑ i ∈ range 18, (Real.log (bandEnergy n steps pred i) - Real.log (bandEnergy n steps target i)) ^ 2) := by
  rw [tkeError_eq hn hs]
  have h : (List.range 18).map (fun i =>
      ((Flt.log (bandEnergy n steps pred i)).sub (Flt.log (bandEnergy n steps target i))).square) =
      (List.range 18).map fun i =>
        .fin ((Real.log (bandEnergy n steps pred i) - Real.log (bandEnergy n steps target i)) ^ 2) := by
    refine List.map_congr_left fun i hi => ?_
    rw [log_pos (hp i (List.mem_range.1 hi)), log_pos (ht i (List.mem_range.1 hi)), pow_two, sub_eq_add_neg]
    rfl
  rw [h, fltSum_fin, List.range_eq_range', sum_range']
  simp

/-- C148: then it is zero exactly if all bands have the same energies, in particular for perfect predictions. -/
theorem C148_zero {n steps : ℕ} (hn : 2 ≤ n) (hs : 1 ≤ steps) (pred target : ℕ → ℕ → Fin 2 → ℝ)
    (hp : ∀ i < 18, 0 < bandEnergy n steps pred i) (ht : ∀ i < 18, 0 < bandEnergy n steps target i) :
    tkeError n steps pred target = .fin 0 ↔ ∀ i < 18, bandEnergy n steps pred i = bandEnergy n steps target i := by
  rw [C148_partial hn hs pred target hp ht, Flt.fin.injEq, sum_eq_zero_iff_of_nonneg fun _ _ => sq_nonneg _]
  simp only [mem_range]
  refine forall₂_congr fun i hi => ?_
  rw [pow_eq_zero_iff two_ne_zero, sub_eq_zero]
  exact ⟨fun h => Real.log_injOn_pos (hp i hi) (ht i hi) h, fun h => by rw [h]⟩

private theorem getTke_scale (n : ℕ) (c : ℝ) (u : ℕ → Fin 2 → ℝ) (a b : ℕ) :
    getTke n (fun p k => c * u p k) a b = c ^ 2 * getTke n u a b := by
  unfold getTke
  have h : ∀ k, dft2 n (fun x y => ((c * u (x * n + y) k : ℝ) : ℂ)) (unshift n a) (unshift n b) =
      (c : ℂ) * dft2 n (fun x y => (u (x * n + y) k : ℂ)) (unshift n a) (unshift n b) := by
    intro k
    simp only [dft2, Complex.ofReal_mul, mul_sum, mul_assoc]
  simp only [h, norm_mul, mul_pow, ← mul_sum, Complex.norm_real, Real.norm_eq_abs, sq_abs]
  ring

/-- C148: a prediction that is too strong by a factor has the error 18 (2 log c)², whatever the flow. -/
theorem C148_scale {n steps : ℕ} (hn : 2 ≤ n) (hs : 1 ≤ steps) (target : ℕ → ℕ → Fin 2 → ℝ)
    (ht : ∀ i < 18, 0 < bandEnergy n steps target i) {c : ℝ} (hc : c ≠ 0) :
    tkeError n steps (fun t p k => c * target t p k) target = .fin (18 * (2 * Real.log c) ^ 2) := by
  have hb : ∀ i, bandEnergy n steps (fun t p k => c * target t p k) i = c ^ 2 * bandEnergy n steps target i := by
    intro i
    unfold bandEnergy
    rw [mul_div_assoc', mul_sum]
    congr 1
    refine sum_congr rfl fun t _ => ?_
    simp only [mul_sum, mul_ite, mul_zero]
    exact sum_congr rfl fun a _ => sum_congr rfl fun b _ => by rw [getTke_scale]
  have hc2 : 0 < c ^ 2 := by positivity
  rw [C148_partial hn hs _ _ (fun i hi => by rw [hb]; exact mul_pos hc2 (ht i hi)) ht]
  congr 1
  have : ∀ i ∈ range 18, (Real.log (bandEnergy n steps (fun t p k => c * target t p k) i) -
      Real.log (bandEnergy n steps target i)) ^ 2 = (2 * Real.log c) ^ 2 := by
    intro i hi
    rw [hb, Real.log_mul hc2.ne' (ht i (mem_range.1 hi)).ne', Real.log_pow]
    push_cast
    ring
  rw [sum_congr rfl this]
  simp

/-- C148: a band that is empty in prediction and target makes the error undefined. -/
theorem C148_nan {n steps : ℕ} (hn : 2 ≤ n) (pred target : ℕ → ℕ → Fin 2 → ℝ) {i : ℕ} (hi : i < 18)
    (hp : bandEnergy n steps pred i = 0) (ht : bandEnergy n steps target i = 0) : tkeError n steps pred target = .nan := by
  by_cases hs : steps = 0
  · simp [tkeError, hs]
  · rw [tkeError_eq hn (by omega)]
    apply fltSum_nan
    rw [List.mem_map]
    refine ⟨i, List.mem_range.2 hi, ?_⟩
    rw [hp, ht, log_zero]
    rfl

/-- C148: a band that is empty in one of them makes it infinite, if none is empty in both. -/
theorem C148_infinite {n steps : ℕ} (hn : 2 ≤ n) (hs : 1 ≤ steps) (pred target : ℕ → ℕ → Fin 2 → ℝ)
    (hno : ∀ j < 18, bandEnergy n steps pred j ≠ 0 ∨ bandEnergy n steps target j ≠ 0) {i : ℕ} (hi : i < 18)
    (h : bandEnergy n steps pred i = 0 ∨ bandEnergy n steps target i = 0) :
    tkeError n steps pred target = .posInf := by
  have hpos : ∀ u j, bandEnergy n steps u j ≠ 0 → 0 < bandEnergy n steps u j := fun u j hj =>
    lt_of_le_of_ne (bandEnergy_nonneg n steps u j) (Ne.symm hj)
  rw [tkeError_eq hn hs]
  refine (fltSum_upper ?_).2 ?_
  · intro a ha
    obtain ⟨j, hj, rfl⟩ := List.mem_map.1 ha
    have hj := List.mem_range.1 hj
    by_cases h1 : bandEnergy n steps pred j = 0
    · have h2 := (hno j hj).resolve_left (not_not.2 h1)
      rw [h1, log_zero, log_pos (hpos _ _ h2)]
      exact Or.inr rfl
    · by_cases h2 : bandEnergy n steps target j = 0
      · rw [h2, log_zero, log_pos (hpos _ _ h1)]
        exact Or.inr rfl
      · rw [log_pos (hpos _ _ h1), log_pos (hpos _ _ h2)]
        exact Or.inl ⟨_, rfl⟩
  · rw [List.mem_map]
    refine ⟨i, List.mem_range.2 hi, ?_⟩
    rcases h with h | h
    · have h2 := (hno i hi).resolve_left (not_not.2 h)
      rw [h, log_zero, log_pos (hpos _ _ h2)]
      rfl
    · have h1 := (hno i hi).resolve_right (not_not.2 h)
      rw [h, log_zero, log_pos (hpos _ _ h1)]
      rfl

/-- C148 violated: on grids of at most 13 points per side the second band contains no mode, and the error is undefined for
all predictions and targets. -/
theorem C148_small_violated {n : ℕ} (hn : 2 ≤ n) (hn' : n ≤ 13) (steps : ℕ) (pred target : ℕ → ℕ → Fin 2 → ℝ) :
    tkeError n steps pred target = .nan := by
  have hw := binWidth_pos hn
  have hempty : ∀ a b, ¬(((1 : ℕ) : ℝ) * binWidth n ≤ wave n a b ∧ wave n a b < (((1 : ℕ) : ℝ) + 1) * binWidth n) := by
    rintro a b ⟨h1, h2⟩
    have hm : ((n / 2 : ℕ) : ℝ) ≤ 6 := by exact_mod_cast (by omega : n / 2 ≤ 6)
    have hsq : Real.sqrt 2 ≤ 3 / 2 := by
      rw [Real.sqrt_le_left (by norm_num)]
      norm_num
    have hle : (((1 : ℕ) : ℝ) + 1) * binWidth n ≤ 1 := by
      unfold binWidth
      have : Real.sqrt 2 * ((n / 2 : ℕ) : ℝ) ≤ 3 / 2 * 6 := mul_le_mul hsq hm (Nat.cast_nonneg _) (by norm_num)
      push_cast at this ⊢
      linarith
    have hlt : wave n a b < 1 := lt_of_lt_of_le h2 hle
    unfold wave at hlt
    rw [Real.sqrt_lt' one_pos, one_pow] at hlt
    have hz : ((b : ℤ) - (n / 2 : ℕ)) ^ 2 + ((a : ℤ) - (n / 2 : ℕ)) ^ 2 < 1 := by exact_mod_cast hlt
    have hz0 : ((b : ℤ) - (n / 2 : ℕ)) ^ 2 + ((a : ℤ) - (n / 2 : ℕ)) ^ 2 = 0 := by
      have := sq_nonneg ((b : ℤ) - (n / 2 : ℕ))
      have := sq_nonneg ((a : ℤ) - (n / 2 : ℕ))
      omega
    have hw0 : wave n a b = 0 := by
      unfold wave
      rw [Real.sqrt_eq_zero']
      have : ((b : ℝ) - (n / 2 : ℕ)) ^ 2 + ((a : ℝ) - (n / 2 : ℕ)) ^ 2 = 0 := by exact_mod_cast hz0
      exact this.le
    rw [hw0] at h1
    push_cast at h1
    linarith
  have hz : ∀ u, bandEnergy n steps u 1 = 0 := by
    intro u
    unfold bandEnergy
    simp only [hempty, if_false, sum_const_zero, zero_div]
  exact C148_nan hn pred target (by norm_num) (hz pred) (hz target)

/-- C148 violated: on every grid, if the flows are uniform the error is undefined, even for perfect predictions (`c = d`). -/
theorem C148_uniform_violated {n : ℕ} (hn : 2 ≤ n) (steps : ℕ) (c d : Fin 2 → ℝ) :
    tkeError n steps (fun _ _ => c) (fun _ _ => d) = .nan := by
  have hz : ∀ c : Fin 2 → ℝ, bandEnergy n steps (fun _ _ => c) 1 = 0 := by
    intro c
    have h1 := (C87_partial hn c).2 1 (by norm_num) (by norm_num)
    rw [C86_bins hn _ (by norm_num), Option.some.injEq] at h1
    unfold bandEnergy
    simp only [h1, sum_const_zero, zero_div]
  exact C148_nan hn _ _ (by norm_num) (hz c) (hz d)

/-- C148 violated: one example with an undefined error makes the metric of the whole batch undefined. -/
theorem C148_batch_nan {n steps : ℕ} (batch : List ((ℕ → ℕ → Fin 2 → ℝ) × (ℕ → ℕ → Fin 2 → ℝ)))
    {e : (ℕ → ℕ → Fin 2 → ℝ) × (ℕ → ℕ → Fin 2 → ℝ)} (he : e ∈ batch) (h : tkeError n steps e.1 e.2 = .nan) :
    tkeErr n steps batch = .nan := by
  unfold tkeErr Flt.mean
  rw [fltSum_nan (List.mem_map.2 ⟨e, he, h⟩)]

/-- C148, partial: without empty bands the metric is the mean over the batch. -/
theorem C148_batch_partial {n steps : ℕ} (hn : 2 ≤ n) (hs : 1 ≤ steps)
    (batch : List ((ℕ → ℕ → Fin 2 → ℝ) × (ℕ → ℕ → Fin 2 → ℝ))) (hb : batch ≠ [])
    (hpos : ∀ e ∈ batch, ∀ i < 18, 0 < bandEnergy n steps e.1 i ∧ 0 < bandEnergy n steps e.2 i) :
    tkeErr n steps batch = .fin ((batch.map fun e =>
      ∑ i ∈ range 18, (Real.log (bandEnergy n steps e.1 i) - Real.log (bandEnergy n steps e.2 i)) ^ 2).sum /
        batch.length) := by
  unfold tkeErr Flt.mean
  have h : batch.map (fun e => tkeError n steps e.1 e.2) = batch.map fun e =>
      .fin (∑ i ∈ range 18, (Real.log (bandEnergy n steps e.1 i) - Real.log (bandEnergy n steps e.2 i)) ^ 2) :=
    List.map_congr_left fun e he =>
      C148_partial hn hs _ _ (fun i hi => (hpos e he i hi).1) (fun i hi => (hpos e he i hi).2)
  rw [h, fltSum_fin]
  simp [hb]

/-- C148: on grids of at least 38 points per side every band contains a mode. -/
theorem C148_bands {n : ℕ} (hn : 38 ≤ n) {i : ℕ} (hi : i < 18) :
    ∃ a < n, ∃ b < n, i * binWidth n ≤ wave n a b ∧ wave n a b < (i + 1) * binWidth n := by
  obtain ⟨m, hm⟩ : ∃ m, m = n / 2 := ⟨_, rfl⟩
  obtain ⟨j, hj⟩ : ∃ j, j = (i * m + 18) / 19 := ⟨_, rfl⟩
  have h1 : i * m ≤ 19 * j := by omega
  have h2 : 19 * j < (i + 1) * m := by
    have : 19 * j ≤ i * m + 18 := by omega
    have : (i + 1) * m = i * m + m := by ring
    omega
  have hjm : j ≤ m := by
    have : (i + 1) * m ≤ 19 * m := Nat.mul_le_mul_right _ (by omega)
    omega
  have hwave : wave n (m - j) (m - j) = Real.sqrt 2 * j := by
    unfold wave
    rw [← hm, Nat.cast_sub hjm, show ((m : ℝ) - j - m) ^ 2 + ((m : ℝ) - j - m) ^ 2 = 2 * (j : ℝ) ^ 2 by ring,
      Real.sqrt_mul (by norm_num), Real.sqrt_sq (Nat.cast_nonneg _)]
  have hs2 : (0 : ℝ) < Real.sqrt 2 := by positivity
  have h1' : (i : ℝ) * m ≤ 19 * j := by exact_mod_cast h1
  have h2' : (19 : ℝ) * j < (i + 1) * m := by exact_mod_cast h2
  refine ⟨m - j, by omega, m - j, by omega, ?_, ?_⟩
  · rw [hwave]
    unfold binWidth
    rw [← hm]
    calc (i : ℝ) * (Real.sqrt 2 * m / 19) = Real.sqrt 2 * (i * m) / 19 := by ring
      _ ≤ Real.sqrt 2 * (19 * j) / 19 := by gcongr
      _ = Real.sqrt 2 * j := by ring
  · rw [hwave]
    unfold binWidth
    rw [← hm]
    calc Real.sqrt 2 * (j : ℝ) = Real.sqrt 2 * (19 * j) / 19 := by ring
      _ < Real.sqrt 2 * ((i + 1) * m) / 19 := by gcongr
      _ = ((i : ℝ) + 1) * (Real.sqrt 2 * m / 19) := by ring

/-- A jet at one node: all modes have the same energy. -/
noncomputable def jet : ℕ → ℕ → Fin 2 → ℝ := fun _ p _ => if p = 0 then 1 else 0

private theorem getTke_jet {n : ℕ} (hn : 1 ≤ n) (t a b : ℕ) : getTke n (jet t) a b = 1 := by
  have h : ∀ a b : ℕ, dft2 n (fun x y => ((if x * n + y = 0 then (1 : ℝ) else 0 : ℝ) : ℂ)) a b = 1 := by
    intro a b
    unfold dft2
    rw [sum_eq_single 0, sum_eq_single 0]
    · simp
    · intro y _ hy
      simp [hy]
    · intro h
      exact absurd (mem_range.2 (by omega)) h
    · intro x _ hx
      refine sum_eq_zero fun y _ => ?_
      have : x * n + y ≠ 0 := by
        have := Nat.mul_pos (Nat.pos_of_ne_zero hx) hn
        omega
      simp only [if_neg this, Complex.ofReal_zero, zero_mul]
    · intro h
      exact absurd (mem_range.2 (by omega)) h
  unfold getTke jet
  simp only [h]
  simp

/-- C148: on such grids there are flows without empty bands, so the hypotheses can be met (default: 49 points per side). -/
theorem C148_jet {n steps : ℕ} (hn : 38 ≤ n) (hs : 1 ≤ steps) {i : ℕ} (hi : i < 18) : 0 < bandEnergy n steps jet i := by
  obtain ⟨a, ha, b, hb, hab⟩ := C148_bands hn hi
  unfold bandEnergy
  have hpos : (0 : ℝ) < ((steps - steps / 2 : ℕ) : ℝ) := by exact_mod_cast (by omega : 0 < steps - steps / 2)
  refine div_pos (sum_pos (fun t _ => ?_) ⟨steps / 2, mem_Ico.2 ⟨le_rfl, by omega⟩⟩) hpos
  simp only [getTke_jet (show 1 ≤ n by omega)]
  have hnn : ∀ a b, (0 : ℝ) ≤ if i * binWidth n ≤ wave n a b ∧ wave n a b < (i + 1) * binWidth n then 1 else 0 := by
    intro a b
    split_ifs <;> norm_num
  refine sum_pos' (fun a _ => sum_nonneg fun b _ => hnn a b) ⟨a, mem_range.2 ha, ?_⟩
  exact sum_pos' (fun b _ => hnn a b) ⟨b, mem_range.2 hb, by rw [if_pos hab]; norm_num⟩

example : tkeError 49 125 (fun t p k => 3 * jet t p k) jet = .fin (18 * (2 * Real.log 3) ^ 2) :=
  C148_scale (by norm_num) (by norm_num) jet (fun _ hi => C148_jet (by norm_num) (by norm_num) hi) (by norm_num)

example : tkeError 49 125 jet jet = .fin 0 :=
  (C148_zero (by norm_num) (by norm_num) jet jet (fun _ hi => C148_jet (by norm_num) (by norm_num) hi)
    (fun _ hi => C148_jet (by norm_num) (by norm_num) hi)).2 fun _ _ => rfl

/-- A uniform target and a jet: infinite error. -/
example : tkeError 49 125 jet (fun _ _ _ => 1) = .posInf := by
  refine C148_infinite (by norm_num) (by norm_num) _ _
    (fun j hj => Or.inl (C148_jet (by norm_num) (by norm_num) hj).ne') (i := 1) (by norm_num) (Or.inr ?_)
  have h1 := (C87_partial (n := 49) (by norm_num) (fun _ => 1)).2 1 (by norm_num) (by norm_num)
  rw [C86_bins (by norm_num) _ (by norm_num), Option.some.injEq] at h1
  unfold bandEnergy
  simp only [h1, sum_const_zero, zero_div]

example : tkeErr 49 125 [(jet, jet), (fun _ _ _ => 1, fun _ _ _ => 1)] = .nan :=
  C148_batch_nan _ (e := (fun _ _ _ => 1, fun _ _ _ => 1)) (by simp) (C148_uniform_violated (by norm_num) 125 _ _)

end Verif.Niles
