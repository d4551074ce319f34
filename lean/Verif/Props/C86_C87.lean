import Verif.Lemmas.Spectrum
import Mathlib.Analysis.SpecialFunctions.Trigonometric.Basic
import Mathlib.Analysis.Real.Sqrt
import Mathlib.Algebra.BigOperators.Field
import Mathlib.Tactic.NormNum
import Mathlib.Tactic.FinCases

/-!
# C86, C87: the energy spectrum of niles/train.py

`√2 (n / 2) / 19` is the width of a bin: the largest wave number divided by the number of intervals.
-/

namespace Verif.Niles

open Finset

/-- The wave number of entry `(a, b)` of the shifted transform. -/
noncomputable def wave (n a b : ℕ) : ℝ := Real.sqrt (((b : ℝ) - (n / 2 : ℕ)) ^ 2 + ((a : ℝ) - (n / 2 : ℕ)) ^ 2)

/-- The width of a bin. -/
noncomputable def binWidth (n : ℕ) : ℝ := Real.sqrt 2 * (n / 2 : ℕ) / 19

theorem waveNumber_eq {n a b : ℕ} (ha : a < n) (hb : b < n) : waveNumber n a b = wave n a b := by
  unfold waveNumber wave
  rw [freqs_eq ha, freqs_eq hb]

theorem binWidth_pos {n : ℕ} (hn : 2 ≤ n) : 0 < binWidth n := by
  have : (0 : ℝ) < (n / 2 : ℕ) := by exact_mod_cast (by omega : 0 < n / 2)
  unfold binWidth
  positivity

theorem digitize_wave {n a b : ℕ} (hn : 2 ≤ n) (ha : a < n) (hb : b < n) :
    digitize (bins n) (waveNumber n a b) = min 20 (⌊wave n a b / binWidth n⌋₊ + 1) := by
  rw [digitize_eq hn (waveNumber_nonneg n a b), waveNumber_eq ha hb, maxWave_eq (by omega)]
  rfl

/-- C86: the turbulent kinetic energy of all modes together is the kinetic energy of the sampled velocity, times the
number of samples. -/
theorem C86_parseval {n : ℕ} (hn : 1 ≤ n) (u : ℕ → Fin 2 → ℝ) :
    ∑ a ∈ range n, ∑ b ∈ range n, getTke n u a b = n ^ 2 * ∑ x ∈ range n, ∑ y ∈ range n, (1 / 2) * ∑ k, u (x * n + y) k ^ 2 := by
  unfold getTke
  simp only [← mul_sum]
  have h1 : ∑ a ∈ range n, ∑ b ∈ range n, ∑ k, ‖dft2 n (fun x y => (u (x * n + y) k : ℂ)) (unshift n a) (unshift n b)‖ ^ 2 =
      ∑ k, ∑ a ∈ range n, ∑ b ∈ range n, ‖dft2 n (fun x y => (u (x * n + y) k : ℂ)) a b‖ ^ 2 := by
    rw [sum_unshift hn (fun a => ∑ b ∈ range n, ∑ k, ‖dft2 n (fun x y => (u (x * n + y) k : ℂ)) a (unshift n b)‖ ^ 2)]
    simp only [fun a => sum_unshift hn (fun b => ∑ k, ‖dft2 n (fun x y => (u (x * n + y) k : ℂ)) a b‖ ^ 2)]
    simp only [sum_comm (t := (univ : Finset (Fin 2)))]
  rw [h1]
  simp only [parseval2 hn, ← mul_sum, Complex.norm_real, Real.norm_eq_abs, sq_abs]
  have h2 : ∑ k, ∑ x ∈ range n, ∑ y ∈ range n, u (x * n + y) k ^ 2 = ∑ x ∈ range n, ∑ y ∈ range n, ∑ k, u (x * n + y) k ^ 2 := by
    simp only [sum_comm (s := (univ : Finset (Fin 2)))]
  rw [h2]
  ring

/-- C86: entry `i` of the spectrum is the energy of the modes of bin `i`. -/
theorem C86_bins {n : ℕ} (hn : 2 ≤ n) (tke : ℕ → ℕ → ℝ) {i : ℕ} (hi : i < 18) :
    (energySpectrum n tke)[i]? = some (∑ a ∈ range n, ∑ b ∈ range n,
      if i * binWidth n ≤ wave n a b ∧ wave n a b < (i + 1) * binWidth n then tke a b else 0) := by
  have hw := binWidth_pos hn
  unfold energySpectrum numBins
  rw [List.getElem?_map, List.getElem?_range' (by omega)]
  simp only [Option.map_some, Option.some.injEq]
  refine sum_congr rfl fun a ha => sum_congr rfl fun b hb => ?_
  rw [digitize_wave hn (mem_range.1 ha) (mem_range.1 hb)]
  have h0 : 0 ≤ wave n a b / binWidth n := div_nonneg (Real.sqrt_nonneg _) hw.le
  have hiff : min 20 (⌊wave n a b / binWidth n⌋₊ + 1) = 1 + 1 * i ↔
      i * binWidth n ≤ wave n a b ∧ wave n a b < (i + 1) * binWidth n := by
    rw [show min 20 (⌊wave n a b / binWidth n⌋₊ + 1) = 1 + 1 * i ↔ ⌊wave n a b / binWidth n⌋₊ = i by omega,
      Nat.floor_eq_iff h0, le_div_iff₀ hw, div_lt_iff₀ hw]
  simp only [hiff]
  split_ifs <;> simp

theorem energySpectrum_length (n : ℕ) (tke : ℕ → ℕ → ℝ) : (energySpectrum n tke).length = 18 := by
  simp [energySpectrum, numBins]

/-- C86 as far as it holds: the spectrum adds up to the energy of the modes whose wave number is less than `18 / 19` of
the largest one. Missing: the modes above. -/
theorem C86_partial {n : ℕ} (hn : 2 ≤ n) (tke : ℕ → ℕ → ℝ) :
    (energySpectrum n tke).sum =
      ∑ a ∈ range n, ∑ b ∈ range n, if wave n a b < 18 * binWidth n then tke a b else 0 := by
  have hw := binWidth_pos hn
  have hsum : ∀ (f : ℕ → ℝ), ((List.range' 1 18).map f).sum = ∑ i ∈ range 18, f (1 + i) := by
    intro f
    simp [List.range', sum_range_succ]
    ring
  unfold energySpectrum numBins
  rw [hsum, sum_comm]
  refine sum_congr rfl fun a ha => ?_
  rw [sum_comm]
  refine sum_congr rfl fun b hb => ?_
  rw [digitize_wave hn (mem_range.1 ha) (mem_range.1 hb), ← mul_sum]
  have h0 : 0 ≤ wave n a b / binWidth n := div_nonneg (Real.sqrt_nonneg _) hw.le
  set m := ⌊wave n a b / binWidth n⌋₊ with hm
  have hlt : wave n a b < 18 * binWidth n ↔ m < 18 := by
    rw [hm, Nat.floor_lt h0, div_lt_iff₀ hw]
    norm_num
  have hind : ∀ i ∈ range 18, (if min 20 (m + 1) = 1 + i then (1 : ℝ) else 0) = if i = m then 1 else 0 := by
    intro i hi
    have := mem_range.1 hi
    congr 1
    exact propext (by omega)
  rw [sum_congr rfl hind, sum_ite_eq' (range 18) m]
  simp only [mem_range, hlt]
  split_ifs <;> simp

theorem ofReal_cos_chi (n : ℕ) (c : ℤ) :
    ((Real.cos (2 * Real.pi * c / n) : ℝ) : ℂ) = (chi n c + chi n (-c)) / 2 := by
  rw [Complex.ofReal_cos, Complex.cos]
  unfold chi
  push_cast
  congr 3 <;> ring_nf

theorem dft2_plane {n : ℕ} (hn : 1 ≤ n) (c : ℤ) (a b : ℕ) :
    dft2 n (fun x y => chi n (c * x + c * y)) a b =
      (if (n : ℤ) ∣ c - a then (n : ℂ) else 0) * (if (n : ℤ) ∣ c - b then (n : ℂ) else 0) := by
  rw [dft2_eq, ← chi_sum hn, ← chi_sum hn, sum_mul_sum]
  refine sum_congr rfl fun x _ => ?_
  rw [sum_mul]
  refine sum_congr rfl fun y _ => ?_
  rw [← chi_add, ← chi_add, ← chi_add]
  congr 1
  push_cast
  ring

theorem dft2_add (n : ℕ) (f g : ℕ → ℕ → ℂ) (a b : ℕ) :
    dft2 n (fun x y => (f x y + g x y) / 2) a b = (dft2 n f a b + dft2 n g a b) / 2 := by
  unfold dft2
  rw [← sum_add_distrib, sum_div]
  refine sum_congr rfl fun x _ => ?_
  rw [← sum_add_distrib, sum_div]
  refine sum_congr rfl fun y _ => ?_
  ring

/-- Only the extreme frequencies are congruent to `± n / 2`. -/
theorem extreme {n i : ℕ} (hi : i < n) {c : ℤ} (hc : c = (n / 2 : ℕ) ∨ c = -((n / 2 : ℕ) : ℤ))
    (h : (n : ℤ) ∣ c - unshift n i) : ((i : ℝ) - (n / 2 : ℕ)) ^ 2 = ((n / 2 : ℕ) : ℝ) ^ 2 := by
  have key : i = 0 ∨ i = n / 2 + n / 2 := by
    rw [unshift_eq hi] at h
    obtain ⟨k, hk⟩ := h
    have hk3 : k = 0 ∨ k = -1 ∨ k = -2 ∨ k = 1 := by
      have h1 : k < 2 := by
        by_contra h'
        have : (n : ℤ) * 2 ≤ n * k := by apply mul_le_mul_of_nonneg_left <;> omega
        split_ifs at hk <;> omega
      have h2 : -3 < k := by
        by_contra h'
        have : (n : ℤ) * k ≤ n * (-3) := by apply mul_le_mul_of_nonneg_left <;> omega
        split_ifs at hk <;> omega
      omega
    rcases hk3 with rfl | rfl | rfl | rfl <;> split_ifs at hk <;> omega
  rcases key with rfl | rfl
  · simp
  · push_cast; ring

/-- The velocity with the highest frequency in both directions. -/
noncomputable def fastest (n : ℕ) (v : ℕ) (k : Fin 2) : ℝ :=
  if k = 0 then Real.cos (2 * Real.pi * ((n / 2 : ℕ) * (v / n + v % n : ℕ) : ℕ) / n) else 0

/-- C86 is false: for every number of samples there is a velocity whose energy is not zero and whose spectrum is. -/
theorem C86_violated {n : ℕ} (hn : 2 ≤ n) : ∃ u : ℕ → Fin 2 → ℝ,
    0 < ∑ a ∈ range n, ∑ b ∈ range n, getTke n u a b ∧ ∀ e ∈ energySpectrum n (getTke n u), e = 0 := by
  have hw := binWidth_pos hn
  refine ⟨fastest n, ?_, ?_⟩
  · rw [C86_parseval (by omega)]
    have hn0 : (0 : ℝ) < n := by exact_mod_cast (by omega : 0 < n)
    have h1 : 0 < (1 / 2 : ℝ) * ∑ k, fastest n (0 * n + 0) k ^ 2 := by
      simp [fastest]
    have hnn : ∀ x y : ℕ, 0 ≤ (1 / 2 : ℝ) * ∑ k, fastest n (x * n + y) k ^ 2 := fun x y => by positivity
    have h2 : 0 < ∑ x ∈ range n, ∑ y ∈ range n, (1 / 2 : ℝ) * ∑ k, fastest n (x * n + y) k ^ 2 :=
      sum_pos' (fun x _ => sum_nonneg fun y _ => hnn x y)
        ⟨0, mem_range.2 (by omega), sum_pos' (fun y _ => hnn 0 y) ⟨0, mem_range.2 (by omega), h1⟩⟩
    exact mul_pos (pow_pos hn0 2) h2
  · have hzero : ∀ a < n, ∀ b < n, wave n a b < 18 * binWidth n → getTke n (fastest n) a b = 0 := by
      intro a ha b hb hlt
      unfold getTke
      rw [Fin.sum_univ_two]
      have h1 : dft2 n (fun x y => (fastest n (x * n + y) 1 : ℂ)) (unshift n a) (unshift n b) = 0 := by
        simp [dft2, fastest]
      have h0 : dft2 n (fun x y => (fastest n (x * n + y) 0 : ℂ)) (unshift n a) (unshift n b) = 0 := by
        have hfun : dft2 n (fun x y => (fastest n (x * n + y) 0 : ℂ)) (unshift n a) (unshift n b) =
            dft2 n (fun x y => (chi n (((n / 2 : ℕ) : ℤ) * x + ((n / 2 : ℕ) : ℤ) * y) +
              chi n ((-((n / 2 : ℕ) : ℤ)) * x + (-((n / 2 : ℕ) : ℤ)) * y)) / 2) (unshift n a) (unshift n b) := by
          unfold dft2
          refine sum_congr rfl fun x _ => sum_congr rfl fun y hy => ?_
          congr 1
          beta_reduce
          have hy' := mem_range.1 hy
          have hd : (x * n + y) / n = x := by
            rw [Nat.mul_comm, Nat.mul_add_div (by omega), Nat.div_eq_of_lt hy', Nat.add_zero]
          have hm : (x * n + y) % n = y := by
            rw [Nat.mul_comm, Nat.mul_add_mod, Nat.mod_eq_of_lt hy']
          have := ofReal_cos_chi n (((n / 2 : ℕ) : ℤ) * x + ((n / 2 : ℕ) : ℤ) * y)
          rw [show (-((n / 2 : ℕ) : ℤ)) * (x : ℤ) + (-((n / 2 : ℕ) : ℤ)) * y =
            -(((n / 2 : ℕ) : ℤ) * x + ((n / 2 : ℕ) : ℤ) * y) by ring, ← this]
          unfold fastest
          rw [if_pos rfl, hd, hm]
          clear this
          generalize n / 2 = h
          congr 3
          push_cast
          ring
        have hext : ∀ c : ℤ, c = (n / 2 : ℕ) ∨ c = -((n / 2 : ℕ) : ℤ) →
            (if (n : ℤ) ∣ c - unshift n a then (n : ℂ) else 0) * (if (n : ℤ) ∣ c - unshift n b then (n : ℂ) else 0) = 0 := by
          intro c hc
          split_ifs with h1 h2
          · exfalso
            have e1 := extreme ha hc h1
            have e2 := extreme hb hc h2
            unfold wave at hlt
            rw [e1, e2, ← two_mul, Real.sqrt_mul (by norm_num), Real.sqrt_sq (Nat.cast_nonneg _)] at hlt
            have : Real.sqrt 2 * (n / 2 : ℕ) = 19 * binWidth n := by unfold binWidth; ring
            rw [this] at hlt
            linarith
          all_goals simp
        rw [hfun, dft2_add, dft2_plane (by omega), dft2_plane (by omega), hext _ (Or.inl rfl), hext _ (Or.inr rfl)]
        simp
      rw [h0, h1]
      simp
    intro e he
    obtain ⟨i, hi, rfl⟩ := List.mem_iff_getElem.1 he
    have hi' : i < 18 := by rwa [energySpectrum_length] at hi
    have h := C86_bins hn (getTke n (fastest n)) hi'
    rw [List.getElem?_eq_getElem hi, Option.some.injEq] at h
    rw [h]
    refine sum_eq_zero fun a ha => sum_eq_zero fun b hb => ?_
    split_ifs with hc
    · refine hzero a (mem_range.1 ha) b (mem_range.1 hb) (hc.2.trans_le ?_)
      have : (i : ℝ) + 1 ≤ 18 := by exact_mod_cast hi'
      exact mul_le_mul_of_nonneg_right this hw.le
    · rfl

/-- C87 as far as it holds: the spectrum of a uniform velocity has its energy in the first bin. Missing: every other
velocity. -/
theorem C87_partial {n : ℕ} (hn : 2 ≤ n) (c : Fin 2 → ℝ) :
    (energySpectrum n (getTke n fun _ => c))[0]? = some (n ^ 4 * ((1 / 2) * ∑ k, c k ^ 2)) ∧
      ∀ i, 0 < i → i < 18 → (energySpectrum n (getTke n fun _ => c))[i]? = some 0 := by
  have hw := binWidth_pos hn
  have hn1 : 1 ≤ n := by omega
  have hd : ∀ (z : ℂ) (a b : ℕ), a < n → b < n → dft2 n (fun _ _ => z) a b = if a = 0 ∧ b = 0 then z * n ^ 2 else 0 := by
    intro z a b ha hb
    rw [dft2_eq]
    have h1 : ∀ m : ℕ, m < n → ∑ x ∈ range n, chi n (-(m * x : ℕ)) = if m = 0 then (n : ℂ) else 0 := by
      intro m hm
      have := chi_sum hn1 (-(m : ℤ))
      simp only [Int.dvd_neg] at this
      have hdv : (n : ℤ) ∣ (m : ℤ) ↔ m = 0 := by
        have := dvd_sub_iff hm (show 0 < n by omega)
        simpa using this
      simp only [hdv] at this
      rw [← this]
      refine sum_congr rfl fun x _ => ?_
      congr 1
      push_cast
      ring
    simp only [← mul_sum, h1 b hb, h1 a ha]
    split_ifs <;> simp_all <;> ring
  have htke : ∀ a < n, ∀ b < n, getTke n (fun _ => c) a b =
      if a = n / 2 ∧ b = n / 2 then n ^ 4 * ((1 / 2) * ∑ k, c k ^ 2) else 0 := by
    intro a ha b hb
    have hz : ∀ i < n, (unshift n i = 0 ↔ i = n / 2) := by
      intro i hi
      rw [unshift_eq hi]
      split_ifs <;> omega
    unfold getTke
    simp only [hd _ _ _ (unshift_lt hn1 a) (unshift_lt hn1 b), hz a ha, hz b hb]
    split_ifs
    · simp only [norm_mul, norm_pow, Complex.norm_real, Complex.norm_natCast, mul_pow, Real.norm_eq_abs, sq_abs, ← sum_mul]
      ring
    · simp
  have hwave : wave n (n / 2) (n / 2) = 0 := by simp [wave]
  have hmain : ∀ i < 18, (energySpectrum n (getTke n fun _ => c))[i]? =
      some (if i = 0 then n ^ 4 * ((1 / 2) * ∑ k, c k ^ 2) else 0) := by
    intro i hi
    rw [C86_bins hn _ hi, Option.some.injEq]
    have hterm : ∀ a ∈ range n, ∀ b ∈ range n,
        (if i * binWidth n ≤ wave n a b ∧ wave n a b < (i + 1) * binWidth n then getTke n (fun _ => c) a b else 0) =
        if a = n / 2 then (if b = n / 2 then (if i = 0 then n ^ 4 * ((1 / 2) * ∑ k, c k ^ 2) else 0) else 0) else 0 := by
      intro a ha b hb
      rw [htke a (mem_range.1 ha) b (mem_range.1 hb)]
      by_cases h1 : a = n / 2
      · by_cases h2 : b = n / 2
        · subst h1; subst h2
          rw [hwave]
          have : ((i : ℝ) * binWidth n ≤ 0 ∧ 0 < ((i : ℝ) + 1) * binWidth n) ↔ i = 0 := by
            constructor
            · rintro ⟨h, -⟩
              by_contra h0
              have : (0 : ℝ) < i := by exact_mod_cast Nat.pos_of_ne_zero h0
              have := mul_pos this hw
              linarith
            · rintro rfl; simp [hw]
          simp only [this]
          split_ifs <;> simp_all
        · simp [h2]
      · simp [h1]
    rw [sum_congr rfl fun a ha => sum_congr rfl (hterm a ha)]
    have hmem : n / 2 < n := by omega
    simp [hmem]
  refine ⟨?_, fun i h0 hi => ?_⟩
  · rw [hmain 0 (by omega)]; simp
  · rw [hmain i hi, if_neg (by omega)]

/-- The velocity `(cos (2 π m x), 0)` at the points `x / R`, both ends included, as `get_tke` receives it. -/
noncomputable def shear (R m : ℕ) (v : ℕ) (k : Fin 2) : ℝ :=
  if k = 0 then Real.cos (2 * Real.pi * (m * (v / (R + 1) : ℕ)) / R) else 0

/-- C87 is false: a velocity with the single wave number `m` has energy in the bin of the mean flow, although `m` is
outside of this bin. The cause is the last sample, which repeats the first one. -/
theorem C87_violated {R m : ℕ} (hR : 2 ≤ R) (h0 : 0 < m) (hm : m < R) (hout : binWidth (R + 1) ≤ m) :
    ∃ e, (energySpectrum (R + 1) (getTke (R + 1) (shear R m)))[0]? = some e ∧ (1 / 2 : ℝ) * (R + 1) ^ 2 ≤ e ∧
      ¬(m : ℝ) < binWidth (R + 1) := by
  have hw := binWidth_pos (n := R + 1) (by omega)
  refine ⟨_, C86_bins (by omega) _ (by omega), ?_, not_lt.2 hout⟩
  have hcos : ∑ x ∈ range (R + 1), Real.cos (2 * Real.pi * (m * (x : ℕ)) / R) = 1 := by
    rw [sum_range_succ]
    have hRr : (R : ℝ) ≠ 0 := by exact_mod_cast (by omega : R ≠ 0)
    have hlast : Real.cos (2 * Real.pi * (m * (R : ℕ)) / R) = 1 := by
      rw [show 2 * Real.pi * ((m : ℝ) * (R : ℕ)) / R = m * (2 * Real.pi) by field_simp, Real.cos_nat_mul_two_pi]
    have hz : ∑ x ∈ range R, Real.cos (2 * Real.pi * (m * (x : ℕ)) / R) = 0 := by
      apply Complex.ofReal_injective
      push_cast
      have h1 : ∀ x : ℕ, Complex.cos (2 * Real.pi * (m * (x : ℂ)) / R) = (chi R (m * x) + chi R ((-m : ℤ) * x)) / 2 := by
        intro x
        have := ofReal_cos_chi R (m * x)
        rw [show (-(m : ℤ)) * (x : ℤ) = -(m * x : ℤ) by ring, ← this]
        push_cast
        rfl
      simp only [h1]
      rw [← sum_div, sum_add_distrib, chi_sum (by omega), chi_sum (by omega)]
      have hnd : ¬(R : ℤ) ∣ m := by
        intro h
        have := Nat.le_of_dvd h0 (Int.natCast_dvd_natCast.1 h)
        omega
      simp [hnd]
    rw [hz, hlast, zero_add]
  have htke : getTke (R + 1) (shear R m) ((R + 1) / 2) ((R + 1) / 2) = (1 / 2 : ℝ) * (R + 1) ^ 2 := by
    have hz : unshift (R + 1) ((R + 1) / 2) = 0 := by
      rw [unshift_eq (by omega)]
      split_ifs <;> omega
    unfold getTke
    rw [hz, Fin.sum_univ_two]
    have h1 : dft2 (R + 1) (fun x y => (shear R m (x * (R + 1) + y) 1 : ℂ)) 0 0 = 0 := by
      simp [dft2, shear]
    have h0 : dft2 (R + 1) (fun x y => (shear R m (x * (R + 1) + y) 0 : ℂ)) 0 0 = ((R + 1 : ℝ) : ℂ) := by
      unfold dft2
      have : ∀ x ∈ range (R + 1), ∑ y ∈ range (R + 1), (shear R m (x * (R + 1) + y) 0 : ℂ) *
          Complex.exp (-(2 * Real.pi * Complex.I) * ((0 * x + 0 * y : ℕ) : ℂ) / (R + 1 : ℕ)) =
          ((R + 1 : ℝ) : ℂ) * (Real.cos (2 * Real.pi * (m * (x : ℕ)) / R) : ℝ) := by
        intro x _
        have hy : ∀ y ∈ range (R + 1), (shear R m (x * (R + 1) + y) 0 : ℂ) *
            Complex.exp (-(2 * Real.pi * Complex.I) * ((0 * x + 0 * y : ℕ) : ℂ) / (R + 1 : ℕ)) =
            (Real.cos (2 * Real.pi * (m * (x : ℕ)) / R) : ℝ) := by
          intro y hy
          have hd : (x * (R + 1) + y) / (R + 1) = x := by
            rw [Nat.mul_comm, Nat.mul_add_div (by omega), Nat.div_eq_of_lt (mem_range.1 hy), Nat.add_zero]
          unfold shear
          rw [if_pos rfl, hd]
          simp
        rw [sum_congr rfl hy, sum_const, card_range, nsmul_eq_mul]
        push_cast
        ring
      rw [sum_congr rfl this, ← mul_sum, ← Complex.ofReal_sum, hcos]
      simp
    rw [h0, h1, Complex.norm_real, Real.norm_eq_abs, sq_abs]
    simp
  have hnn : ∀ a b, 0 ≤ getTke (R + 1) (shear R m) a b := fun a b => by unfold getTke; positivity
  have hterm : ∀ a b : ℕ, 0 ≤ if ((0 : ℕ) : ℝ) * binWidth (R + 1) ≤ wave (R + 1) a b ∧
      wave (R + 1) a b < (((0 : ℕ) : ℝ) + 1) * binWidth (R + 1) then getTke (R + 1) (shear R m) a b else 0 := fun a b => by
    split_ifs
    · exact hnn a b
    · exact le_rfl
  have hmem : (R + 1) / 2 ∈ range (R + 1) := mem_range.2 (by omega)
  refine le_trans ?_ (single_le_sum (fun a _ => sum_nonneg fun b _ => hterm a b) hmem)
  refine le_trans ?_ (single_le_sum (fun b _ => hterm _ b) hmem)
  have hwave : wave (R + 1) ((R + 1) / 2) ((R + 1) / 2) = 0 := by simp [wave]
  rw [hwave, if_pos ⟨by simp, by simpa using hw⟩, htke]

/-- The default configuration has `R = 48` intervals per direction; wave number 4 is in the third bin. -/
example : ∃ e, (energySpectrum 49 (getTke 49 (shear 48 4)))[0]? = some e ∧ (1 / 2 : ℝ) * ((48 : ℕ) + 1) ^ 2 ≤ e ∧
    ¬((4 : ℕ) : ℝ) < binWidth 49 := by
  refine C87_violated (R := 48) (m := 4) (by norm_num) (by norm_num) (by norm_num) ?_
  have h2 : Real.sqrt 2 ≤ 2 := by
    rw [Real.sqrt_le_left (by norm_num)]; norm_num
  unfold binWidth
  norm_num
  linarith

example : ∃ u : ℕ → Fin 2 → ℝ, 0 < ∑ a ∈ range 49, ∑ b ∈ range 49, getTke 49 u a b ∧
    ∀ e ∈ energySpectrum 49 (getTke 49 u), e = 0 := C86_violated (by norm_num)

example : (energySpectrum 49 (getTke 49 fun _ => ![3, 4]))[0]? = some ((49 : ℕ) ^ 4 * ((1 / 2) * ∑ k, (![3, 4] : Fin 2 → ℝ) k ^ 2)) :=
  (C87_partial (by norm_num) ![3, 4]).1

end Verif.Niles
