import Verif.Props.C86_C87

/-! Shifts, reflections and transposition of the discrete Fourier transform. -/

namespace Verif.Niles

open Finset

theorem chi_congr {n : ℕ} (hn : 1 ≤ n) {c d : ℤ} (h : (n : ℤ) ∣ c - d) : chi n c = chi n d := by
  rw [show c = (c - d) + d by ring, chi_add, (chi_eq_one hn _).2 h, one_mul]

theorem chi_norm (n : ℕ) (c : ℤ) : ‖chi n c‖ = 1 := by
  unfold chi
  rw [show 2 * (Real.pi : ℂ) * Complex.I * c / n = ((2 * Real.pi * c / n : ℝ) : ℂ) * Complex.I by push_cast; ring,
    Complex.norm_exp_ofReal_mul_I]

theorem sum_roll {M : Type*} [AddCommMonoid M] {n : ℕ} (hn : 1 ≤ n) (r : ℕ) (h : ℕ → M) :
    ∑ x ∈ range n, h ((x + r) % n) = ∑ x ∈ range n, h x := by
  induction r generalizing h with
  | zero => exact sum_congr rfl fun x hx => by rw [add_zero, Nat.mod_eq_of_lt (mem_range.1 hx)]
  | succ r ih =>
    have e : ∀ x, (x + (r + 1)) % n = ((x + r) % n + 1) % n := fun x => by rw [Nat.mod_add_mod, add_assoc]
    simp only [e]
    rw [ih fun x => h ((x + 1) % n)]
    obtain ⟨m, rfl⟩ : ∃ m, n = m + 1 := ⟨n - 1, by omega⟩
    rw [sum_range_succ, Nat.mod_self, sum_range_succ' h]
    congr 1
    exact sum_congr rfl fun x hx => by rw [Nat.mod_eq_of_lt (by have := mem_range.1 hx; omega)]

/-- The transform of a rolled sequence. -/
theorem dft_roll {n : ℕ} (hn : 1 ≤ n) (r a : ℕ) (g : ℕ → ℂ) :
    ∑ x ∈ range n, g ((x + r) % n) * chi n (-(a * x : ℕ)) = chi n (a * r : ℕ) * ∑ x ∈ range n, g x * chi n (-(a * x : ℕ)) := by
  rw [← sum_roll hn r fun x => g x * chi n (-(a * x : ℕ)), mul_sum]
  refine sum_congr rfl fun x _ => ?_
  have : chi n (-(a * x : ℕ)) = chi n (a * r : ℕ) * chi n (-(a * ((x + r) % n) : ℕ)) := by
    rw [← chi_add]
    refine chi_congr hn ?_
    have h1 : (n : ℤ) ∣ ((x + r : ℕ) : ℤ) - ((x + r) % n : ℕ) := by
      rw [Int.natCast_mod]
      exact Int.dvd_self_sub_emod
    obtain ⟨q, hq⟩ := h1
    refine ⟨-(a * q), ?_⟩
    push_cast at hq ⊢
    linear_combination (-(a : ℤ)) * hq
  rw [this]
  ring

/-- The transform of a reversed sequence. -/
theorem dft_rev {n : ℕ} (hn : 1 ≤ n) {a a' : ℕ} (ha : n ∣ a + a') (g : ℕ → ℂ) :
    ∑ x ∈ range n, g (n - 1 - x) * chi n (-(a * x : ℕ)) = chi n (a : ℕ) * ∑ x ∈ range n, g x * chi n (-(a' * x : ℕ)) := by
  rw [← sum_range_reflect (fun x => g x * chi n (-(a' * x : ℕ))), mul_sum]
  refine sum_congr rfl fun x hx => ?_
  have hx := mem_range.1 hx
  have : chi n (-(a * x : ℕ)) = chi n (a : ℕ) * chi n (-(a' * (n - 1 - x) : ℕ)) := by
    rw [← chi_add]
    refine chi_congr hn ?_
    obtain ⟨q, hq⟩ := ha
    have hq' : (a : ℤ) + a' = n * q := by exact_mod_cast hq
    have hs : ((n - 1 - x : ℕ) : ℤ) = n - 1 - x := by omega
    refine ⟨(a' : ℤ) - q * x - q, ?_⟩
    push_cast [hs]
    linear_combination (-(x : ℤ) - 1) * hq'
  rw [this]
  ring

/-- A field given by its values on the grid, in the order of `get_tke`. -/
def onGrid (n : ℕ) (v : ℕ → ℕ → Fin 2 → ℝ) (i : ℕ) : Fin 2 → ℝ := v (i / n) (i % n)

theorem dft2_onGrid (n : ℕ) (v : ℕ → ℕ → Fin 2 → ℝ) (k : Fin 2) (a b : ℕ) :
    dft2 n (fun x y => (onGrid n v (x * n + y) k : ℂ)) a b = dft2 n (fun x y => (v x y k : ℂ)) a b := by
  unfold dft2
  refine sum_congr rfl fun x _ => sum_congr rfl fun y hy => ?_
  have hy := mem_range.1 hy
  have h1 : (x * n + y) / n = x := by
    rw [mul_comm, Nat.mul_add_div (by omega), Nat.div_eq_of_lt hy, add_zero]
  have h2 : (x * n + y) % n = y := by
    rw [mul_comm, Nat.mul_add_mod, Nat.mod_eq_of_lt hy]
  simp only [onGrid, h1, h2]

theorem getTke_onGrid (n : ℕ) (v : ℕ → ℕ → Fin 2 → ℝ) (a b : ℕ) :
    getTke n (onGrid n v) a b = (1 / 2) * ∑ k, ‖dft2 n (fun x y => (v x y k : ℂ)) (unshift n a) (unshift n b)‖ ^ 2 := by
  unfold getTke
  simp only [dft2_onGrid]

theorem dft2_transpose (n : ℕ) (f : ℕ → ℕ → ℂ) (a b : ℕ) : dft2 n (fun x y => f y x) a b = dft2 n f b a := by
  unfold dft2
  rw [sum_comm]
  refine sum_congr rfl fun x _ => sum_congr rfl fun y _ => ?_
  rw [add_comm (a * y) (b * x)]

theorem dft2_roll {n : ℕ} (hn : 1 ≤ n) (r s a b : ℕ) (f : ℕ → ℕ → ℂ) :
    ‖dft2 n (fun x y => f ((x + r) % n) ((y + s) % n)) a b‖ = ‖dft2 n f a b‖ := by
  rw [dft2_eq, dft2_eq]
  simp only [fun x => dft_roll hn s b fun y => f ((x + r) % n) y, mul_assoc]
  rw [← mul_sum, norm_mul, chi_norm, one_mul,
    dft_roll hn r a fun x => ∑ y ∈ range n, f x y * chi n (-(b * y : ℕ)), norm_mul, chi_norm, one_mul]

theorem dft2_rev {n : ℕ} (hn : 1 ≤ n) {a a' : ℕ} (ha : n ∣ a + a') (b : ℕ) (f : ℕ → ℕ → ℂ) :
    ‖dft2 n (fun x y => f (n - 1 - x) y) a b‖ = ‖dft2 n f a' b‖ := by
  rw [dft2_eq, dft2_eq, dft_rev hn ha fun x => ∑ y ∈ range n, f x y * chi n (-(b * y : ℕ)), norm_mul, chi_norm, one_mul]

/-- The entry of the shifted transform with the opposite frequency. -/
def opposite (n a : ℕ) : ℕ := if 2 * (n / 2) - a < n then 2 * (n / 2) - a else a

theorem opposite_lt {n a : ℕ} (ha : a < n) : opposite n a < n := by
  unfold opposite
  split_ifs <;> omega

theorem opposite_opposite {n a : ℕ} (ha : a < n) : opposite n (opposite n a) = a := by
  unfold opposite
  split_ifs <;> omega

theorem opposite_dvd {n a : ℕ} (ha : a < n) : n ∣ unshift n a + unshift n (opposite n a) := by
  have ho := opposite_lt ha
  rw [unshift_eq ha, unshift_eq ho]
  unfold opposite
  rw [Nat.dvd_iff_mod_eq_zero]
  have key : ∀ m, m = 0 ∨ m = n → m % n = 0 := by rintro m (rfl | rfl) <;> simp
  apply key
  split_ifs <;> omega

theorem opposite_freq {n a : ℕ} (ha : a < n) : ((opposite n a : ℕ) - (n / 2 : ℕ) : ℝ) ^ 2 = ((a : ℝ) - (n / 2 : ℕ)) ^ 2 := by
  unfold opposite
  split_ifs with h
  · have : 2 * (n / 2) - a + a = 2 * (n / 2) := by omega
    have h2 : ((2 * (n / 2) - a : ℕ) : ℝ) + a = 2 * (n / 2 : ℕ) := by exact_mod_cast this
    rw [show ((2 * (n / 2) - a : ℕ) : ℝ) = 2 * (n / 2 : ℕ) - a by linarith]
    ring
  · rfl

theorem sum_opposite {M : Type*} [AddCommMonoid M] (n : ℕ) (g : ℕ → M) :
    ∑ a ∈ range n, g (opposite n a) = ∑ a ∈ range n, g a :=
  sum_nbij' (opposite n) (opposite n) (fun a ha => mem_range.2 (opposite_lt (mem_range.1 ha)))
    (fun a ha => mem_range.2 (opposite_lt (mem_range.1 ha))) (fun a ha => opposite_opposite (mem_range.1 ha))
    (fun a ha => opposite_opposite (mem_range.1 ha)) fun _ _ => rfl

/-- Two spectra are equal if all entries are. -/
theorem spectrum_ext {n m : ℕ} {t t' : ℕ → ℕ → ℝ}
    (h : ∀ i < 18, (energySpectrum n t)[i]? = (energySpectrum m t')[i]?) : energySpectrum n t = energySpectrum m t' := by
  refine List.ext_getElem? fun i => ?_
  by_cases hi : i < 18
  · exact h i hi
  · rw [List.getElem?_eq_none (by rw [energySpectrum_length]; omega),
      List.getElem?_eq_none (by rw [energySpectrum_length]; omega)]

end Verif.Niles
