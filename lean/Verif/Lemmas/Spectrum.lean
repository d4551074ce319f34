import Verif.Model.Spectrum
import Mathlib.Analysis.SpecialFunctions.Complex.Log
import Mathlib.Algebra.Field.GeomSum
import Mathlib.Algebra.BigOperators.Ring.Finset
import Mathlib.Algebra.Order.Floor.Semiring
import Mathlib.Algebra.BigOperators.Intervals
import Mathlib.Tactic.Linarith
import Mathlib.Tactic.Ring
import Mathlib.Tactic.FieldSimp
import Mathlib.Tactic.Positivity

/-!
# Lemmas for the energy spectrum: orthogonality, Parseval, frequencies and bins
-/

namespace Verif.Niles

open Finset

/-- The root of unity `exp (2 π i c / n)`. -/
noncomputable def chi (n : ℕ) (c : ℤ) : ℂ := Complex.exp (2 * Real.pi * Complex.I * c / n)

theorem chi_add (n : ℕ) (c d : ℤ) : chi n (c + d) = chi n c * chi n d := by
  unfold chi
  rw [← Complex.exp_add]
  push_cast
  ring_nf

theorem chi_zero (n : ℕ) : chi n 0 = 1 := by simp [chi]

theorem chi_mul_nat (n : ℕ) (c : ℤ) (x : ℕ) : chi n (c * x) = chi n c ^ x := by
  unfold chi
  rw [← Complex.exp_nat_mul]
  push_cast
  ring_nf

theorem chi_conj (n : ℕ) (c : ℤ) : (starRingEnd ℂ) (chi n c) = chi n (-c) := by
  unfold chi
  rw [← Complex.exp_conj]
  congr 1
  have h2 : (starRingEnd ℂ) 2 = 2 := Complex.conj_ofNat 2
  simp [Complex.conj_ofReal, h2]

theorem chi_eq_one {n : ℕ} (hn : 1 ≤ n) (c : ℤ) : chi n c = 1 ↔ (n : ℤ) ∣ c := by
  have hn' : (n : ℂ) ≠ 0 := by exact_mod_cast (by omega : n ≠ 0)
  unfold chi
  rw [Complex.exp_eq_one_iff]
  constructor
  · rintro ⟨k, hk⟩
    refine ⟨k, ?_⟩
    have h2 : (c : ℂ) = n * k := by
      have hpi := Complex.two_pi_I_ne_zero
      field_simp at hk
      exact hk
    exact_mod_cast h2
  · rintro ⟨k, rfl⟩
    refine ⟨k, ?_⟩
    push_cast
    field_simp

/-- The characters are orthogonal. -/
theorem chi_sum {n : ℕ} (hn : 1 ≤ n) (c : ℤ) :
    ∑ x ∈ range n, chi n (c * x) = if (n : ℤ) ∣ c then (n : ℂ) else 0 := by
  simp only [chi_mul_nat]
  split_ifs with h
  · rw [(chi_eq_one hn c).2 h]; simp
  · have h1 : chi n c ≠ 1 := fun h' => h ((chi_eq_one hn c).1 h')
    rw [geom_sum_eq h1, ← chi_mul_nat, (chi_eq_one hn _).2 (Dvd.intro_left c rfl), sub_self, zero_div]

theorem dvd_sub_iff {n x y : ℕ} (hx : x < n) (hy : y < n) : (n : ℤ) ∣ (x : ℤ) - y ↔ x = y := by
  constructor
  · intro h
    have := Int.eq_zero_of_abs_lt_dvd h (by rw [abs_lt]; omega)
    omega
  · rintro rfl; simp

/-- Parseval in one dimension. -/
theorem parseval1 {n : ℕ} (hn : 1 ≤ n) (f : ℕ → ℂ) :
    ∑ a ∈ range n, ‖∑ x ∈ range n, f x * chi n (-(a * x : ℕ))‖ ^ 2 = n * ∑ x ∈ range n, ‖f x‖ ^ 2 := by
  have key : ∀ z : ℂ, ((‖z‖ ^ 2 : ℝ) : ℂ) = z * (starRingEnd ℂ) z := fun z => by
    rw [Complex.mul_conj, Complex.normSq_eq_norm_sq]
  apply Complex.ofReal_injective
  push_cast
  simp only [← Complex.ofReal_pow, key, map_sum, map_mul, chi_conj, neg_neg, sum_mul_sum]
  rw [sum_comm, mul_sum]
  refine sum_congr rfl fun x hx => ?_
  rw [sum_comm]
  have hx' := mem_range.1 hx
  have : ∀ y ∈ range n, ∑ a ∈ range n, f x * chi n (-((a * x : ℕ) : ℤ)) * ((starRingEnd ℂ) (f y) * chi n ((a * y : ℕ) : ℤ)) =
      if y = x then (n : ℂ) * (f x * (starRingEnd ℂ) (f x)) else 0 := by
    intro y hy
    have h1 : ∀ a : ℕ, f x * chi n (-((a * x : ℕ) : ℤ)) * ((starRingEnd ℂ) (f y) * chi n ((a * y : ℕ) : ℤ)) =
        (f x * (starRingEnd ℂ) (f y)) * chi n (((y : ℤ) - x) * a) := fun a => by
      rw [show ((y : ℤ) - x) * a = -((a * x : ℕ) : ℤ) + ((a * y : ℕ) : ℤ) by push_cast; ring, chi_add]; ring
    simp only [h1, ← mul_sum, chi_sum hn, dvd_sub_iff (mem_range.1 hy) hx']
    split_ifs with h
    · subst h; ring
    · simp
  push_cast at this
  rw [sum_congr rfl this, sum_ite_eq' (range n) x, if_pos hx]

theorem dft2_eq (n : ℕ) (f : ℕ → ℕ → ℂ) (a b : ℕ) :
    dft2 n f a b = ∑ x ∈ range n, (∑ y ∈ range n, f x y * chi n (-(b * y : ℕ))) * chi n (-(a * x : ℕ)) := by
  unfold dft2
  refine sum_congr rfl fun x _ => ?_
  rw [sum_mul]
  refine sum_congr rfl fun y _ => ?_
  rw [mul_assoc (f x y), ← chi_add]
  unfold chi
  congr 2
  push_cast
  ring

/-- Parseval in two dimensions. -/
theorem parseval2 {n : ℕ} (hn : 1 ≤ n) (f : ℕ → ℕ → ℂ) :
    ∑ a ∈ range n, ∑ b ∈ range n, ‖dft2 n f a b‖ ^ 2 = n ^ 2 * ∑ x ∈ range n, ∑ y ∈ range n, ‖f x y‖ ^ 2 := by
  rw [sum_comm]
  simp only [dft2_eq]
  have h := fun b : ℕ => parseval1 hn (fun x => ∑ y ∈ range n, f x y * chi n (-(b * y : ℕ)))
  simp only [h]
  rw [← mul_sum, sum_comm]
  simp only [fun x => parseval1 hn (f x)]
  rw [← mul_sum]
  ring

theorem unshift_lt {n : ℕ} (hn : 1 ≤ n) (i : ℕ) : unshift n i < n := Nat.mod_lt _ hn

theorem unshift_eq {n i : ℕ} (hi : i < n) : unshift n i = if i < n / 2 then i + (n - n / 2) else i - n / 2 := by
  unfold unshift
  split_ifs with h
  · exact Nat.mod_eq_of_lt (by omega)
  · rw [show i + (n - n / 2) = (i - n / 2) + n by omega, Nat.add_mod_right, Nat.mod_eq_of_lt (by omega)]

theorem sum_unshift {M : Type*} [AddCommMonoid M] {n : ℕ} (hn : 1 ≤ n) (g : ℕ → M) :
    ∑ i ∈ range n, g (unshift n i) = ∑ i ∈ range n, g i := by
  refine sum_nbij (unshift n) (fun i _ => mem_range.2 (unshift_lt hn i)) ?_ ?_ (fun _ _ => rfl)
  · intro i hi j hj h
    simp only [coe_range, Set.mem_Iio] at hi hj
    simp only [unshift_eq hi, unshift_eq hj] at h
    split_ifs at h <;> omega
  · intro j hj
    simp only [coe_range, Set.mem_Iio] at hj
    simp only [Set.mem_image, coe_range, Set.mem_Iio]
    by_cases h : j < n - n / 2
    · exact ⟨j + n / 2, by omega, by rw [unshift_eq (by omega)]; split_ifs <;> omega⟩
    · exact ⟨j - (n - n / 2), by omega, by rw [unshift_eq (by omega)]; split_ifs <;> omega⟩

/-- After the shift the frequencies are the integers from `-(n / 2)` on. -/
theorem freqs_eq {n i : ℕ} (hi : i < n) : freqs n i = (i : ℝ) - (n / 2 : ℕ) := by
  have hn : (n : ℝ) ≠ 0 := by exact_mod_cast (by omega : n ≠ 0)
  unfold freqs fftfreq
  rw [mul_one_div_cancel hn, div_one, unshift_eq hi]
  split_ifs with h1 h2 h2
  · omega
  · have : i + (n - n / 2) + n / 2 = i + n := by omega
    have : ((i + (n - n / 2) : ℕ) : ℝ) + (n / 2 : ℕ) = i + n := by exact_mod_cast this
    linarith
  · rw [Nat.cast_sub (by omega)]
  · omega

theorem freqs_abs {n i : ℕ} (hi : i < n) : freqs n i ^ 2 ≤ ((n / 2 : ℕ) : ℝ) ^ 2 := by
  rw [freqs_eq hi]
  apply sq_le_sq'
  · have : (0 : ℝ) ≤ i := Nat.cast_nonneg i
    linarith
  · have : i ≤ n / 2 + n / 2 := by omega
    have : (i : ℝ) ≤ (n / 2 : ℕ) + (n / 2 : ℕ) := by exact_mod_cast this
    linarith

theorem waveNumber_nonneg (n i j : ℕ) : 0 ≤ waveNumber n i j := Real.sqrt_nonneg _

theorem foldr_max_eq {l : List ℝ} {m : ℝ} (h0 : 0 ≤ m) (hle : ∀ x ∈ l, x ≤ m) (hm : m ∈ l) : l.foldr max 0 = m := by
  have h1 : ∀ l : List ℝ, (∀ x ∈ l, x ≤ m) → l.foldr max 0 ≤ m := by
    intro l
    induction l with
    | nil => intro _; exact h0
    | cons a l ih =>
      intro h
      exact max_le (h a List.mem_cons_self) (ih fun x hx => h x (List.mem_cons_of_mem _ hx))
  have h2 : ∀ l : List ℝ, m ∈ l → m ≤ l.foldr max 0 := by
    intro l
    induction l with
    | nil => intro h; simp at h
    | cons a l ih =>
      intro h
      rcases List.mem_cons.1 h with rfl | h
      · exact le_max_left _ _
      · exact (ih h).trans (le_max_right _ _)
  exact le_antisymm (h1 l hle) (h2 l hm)

/-- The largest wave number is that of the corner. -/
theorem maxWave_eq {n : ℕ} (hn : 1 ≤ n) : maxWave n = Real.sqrt 2 * (n / 2 : ℕ) := by
  have hcorner : ∀ h : ℝ, 0 ≤ h → Real.sqrt (h ^ 2 + h ^ 2) = Real.sqrt 2 * h := fun h hh => by
    rw [← two_mul, Real.sqrt_mul (by norm_num), Real.sqrt_sq hh]
  have h0 : (0 : ℝ) ≤ (n / 2 : ℕ) := Nat.cast_nonneg _
  unfold maxWave
  apply foldr_max_eq (by positivity)
  · intro x hx
    simp only [List.mem_flatMap, List.mem_map, List.mem_range] at hx
    obtain ⟨i, hi, j, hj, rfl⟩ := hx
    rw [← hcorner _ h0]
    exact Real.sqrt_le_sqrt (add_le_add (freqs_abs hj) (freqs_abs hi))
  · simp only [List.mem_flatMap, List.mem_map, List.mem_range]
    refine ⟨0, hn, 0, hn, ?_⟩
    unfold waveNumber
    rw [freqs_eq (by omega), Nat.cast_zero, zero_sub, neg_sq, hcorner _ h0]

theorem filter_range_length (N m : ℕ) (P : ℕ → Bool) (hP : ∀ j, P j = true ↔ j ≤ m) :
    ((List.range N).filter P).length = min N (m + 1) := by
  induction N with
  | zero => simp
  | succ N ih =>
    rw [List.range_succ, List.filter_append, List.length_append, ih, List.filter_singleton]
    by_cases h : N ≤ m
    · rw [(hP N).2 h]; simp; omega
    · have : P N = false := by
        rw [Bool.eq_false_iff]; exact fun h' => h ((hP N).1 h')
      rw [this]; simp; omega

/-- The number of the bin of a wave number. -/
theorem digitize_eq {n : ℕ} (hn : 2 ≤ n) {x : ℝ} (hx : 0 ≤ x) :
    digitize (bins n) x = min 20 (⌊x / (maxWave n / 19)⌋₊ + 1) := by
  have hw : 0 < maxWave n / 19 := by
    rw [maxWave_eq (by omega)]
    have : (0 : ℝ) < (n / 2 : ℕ) := by exact_mod_cast (by omega : 0 < n / 2)
    positivity
  unfold digitize bins numBins
  rw [List.filter_map, List.length_map]
  apply filter_range_length
  intro j
  simp only [Function.comp_apply, decide_eq_true_eq]
  rw [Nat.le_floor_iff (by positivity), le_div_iff₀ hw]
  norm_num

end Verif.Niles
