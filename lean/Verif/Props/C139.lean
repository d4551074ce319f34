import Verif.Lemmas.PScanFloat

/-! C139: `pscan` and `preduce` on floating point numbers.

Rounded addition and multiplication are not associative, so C02 and C03 do not apply. Whatever the operator is, all devices
end with the same all-reduce (`C139_agree`). Sums on `P ≤ 2^(k+1)` devices go through at most `2 k` roundings per term for
the prefixes and `k + 1` for the total (`C139_sums_partial`). The prefixes of numbers that are not negative need not grow from device
to device, and can exceed the total (`C139_violated`). -/

namespace Verif.Comm

open Verif.Core

variable {α : Type*}

/-- Any operator, associative or not, any unit, any inputs: `pscan(reduction=True)` and `preduce` succeed and return one and
the same reduction on all devices, and the prefixes do not depend on whether the reduction is asked for. -/
theorem C139_agree (P : ℕ) (op : α → α → α) (unit : α) (x : ℕ → α) :
    ∃ (r0 : ℕ → α) (r : ℕ → α × α) (r' : ℕ → α), pscan P op unit x = .ok r0 ∧ pscanReduce P op unit x = .ok r ∧
      preduce P op unit x = .ok r' ∧
      (∀ i < P, (r i).1 = r0 i) ∧ (∀ i < P, r' i = (r i).2) ∧ ∀ i < P, ∀ j < P, (r i).2 = (r j).2 := by
  obtain ⟨⟨r0, h0, h0'⟩, ⟨r, h1, h1'⟩, ⟨r', h2, h2'⟩⟩ := pscan_tree P op unit x
  refine ⟨r0, r, r', h0, h1, h2, fun i hi => ?_, fun i hi => ?_, fun i hi j hj => ?_⟩
  · rw [h0' i hi, h1' i hi]
  · rw [h2' i hi, h1' i hi]
  · rw [h1' i hi, h1' j hj]

/-- Subtraction is an operator that is far from associative. -/
example : (fun a b : ℤ => a - b) ((fun a b => a - b) 1 2) 3 ≠ (fun a b : ℤ => a - b) 1 ((fun a b => a - b) 2 3) := by decide

/-- Sums on up to `2^(k+1)` devices: the errors of prefix and total, for every rounding with relative error `ε`. Missing from
the full claim: that prefixes of numbers that are not negative grow (`C139_violated`). -/
theorem C139_sums_partial {fl : ℚ → ℚ} {ε : ℚ} (hε : 0 ≤ ε) (hfl : ∀ x, |fl x - x| ≤ ε * |x|) {P k : ℕ}
    (hk : P ≤ 2 ^ (k + 1)) (x : ℕ → ℚ) :
    ∃ r, pscanReduce P (addFl fl) 0 x = .ok r ∧ ∀ i < P,
      |(r i).1 - ∑ j ∈ Finset.range i, x j| ≤ ((1 + ε) ^ (2 * k) - 1) * ∑ j ∈ Finset.range i, |x j| ∧
      |(r i).2 - ∑ j ∈ Finset.range P, x j| ≤ ((1 + ε) ^ (k + 1) - 1) * ∑ j ∈ Finset.range P, |x j| := by
  obtain ⟨-, ⟨r, h1, h1'⟩, -⟩ := pscan_tree P (addFl fl) 0 x
  refine ⟨r, h1, fun i hi => ?_⟩
  rw [h1' i hi]
  have a1 := (prefixTree_near hε hfl x hi hk).2
  have a2 := (treeRed_near hε hfl x 0 (n := P) (by omega) hk).2
  simp only [zero_add, ← Finset.range_eq_Ico] at a1 a2
  exact ⟨a1, a2⟩

/-- In `float32`, on 8 devices: four roundings for a prefix. -/
example : (8 : ℕ) ≤ 2 ^ (2 + 1) ∧ ∀ x : ℚ, |flBin 24 x - x| ≤ (1 / 2) ^ 24 * |x| := ⟨by norm_num, flBin_rel 24⟩

/-- Products: the prefix of device `i` has at most `i` roundings, the total `P - 1`. -/
theorem C139_products {fl : ℚ → ℚ} {ε : ℚ} (hε : 0 ≤ ε) (hfl : ∀ x, |fl x - x| ≤ ε * |x|) (P : ℕ) (x : ℕ → ℚ) :
    ∃ r, pscanReduce P (mulFl fl) 1 x = .ok r ∧ ∀ i < P,
      |(r i).1 - ∏ j ∈ Finset.range i, x j| ≤ ((1 + ε) ^ i - 1) * |∏ j ∈ Finset.range i, x j| ∧
      |(r i).2 - ∏ j ∈ Finset.range P, x j| ≤ ((1 + ε) ^ (P - 1) - 1) * |∏ j ∈ Finset.range P, x j| := by
  obtain ⟨-, ⟨r, h1, h1'⟩, -⟩ := pscan_tree P (mulFl fl) 1 x
  refine ⟨r, h1, fun i hi => ?_⟩
  rw [h1' i hi]
  let Q : ℕ → ℕ → ℚ → Prop := fun a b v => a < b ∧
    |v - ∏ j ∈ Finset.Ico a b, x j| ≤ ((1 + ε) ^ (b - a - 1) - 1) * |∏ j ∈ Finset.Ico a b, x j|
  let R : ℕ → ℚ → Prop := fun b v =>
    |v - ∏ j ∈ Finset.Ico 0 b, x j| ≤ ((1 + ε) ^ b - 1) * |∏ j ∈ Finset.Ico 0 b, x j|
  have q1 : ∀ a, Q a (a + 1) (x a) := fun a => ⟨by omega, by simp⟩
  have qop : ∀ a b c v w, Q a b v → Q b c w → Q a c (mulFl fl v w) := by
    rintro a b c v w ⟨h1, h2⟩ ⟨h3, h4⟩
    refine ⟨by omega, ?_⟩
    have := mul_near hε hfl h2 h4
    rwa [Finset.prod_Ico_consecutive _ h1.le h3.le, show b - a - 1 + (c - b - 1) + 1 = c - a - 1 by omega] at this
  have rop : ∀ b c v w, R b v → Q b c w → R c (mulFl fl v w) := by
    rintro b c v w h2 ⟨h3, h4⟩
    have := mul_near hε hfl h2 h4
    rwa [Finset.prod_Ico_consecutive _ (Nat.zero_le b) h3.le, show b + (c - b - 1) + 1 = c by omega] at this
  have qr : ∀ b v, Q 0 b v → R b v := by
    rintro b v ⟨-, h⟩
    refine h.trans (mul_le_mul_of_nonneg_right ?_ (abs_nonneg _))
    have : (1 + ε) ^ (b - 0 - 1) ≤ (1 + ε) ^ b := pow_le_pow_right₀ (by linarith) (by omega)
    linarith
  have a1 : R i _ := prefixTree_pred (unit := 1) q1 qop rop qr (by simp [R]) hi
  have a2 : Q 0 (0 + P) _ := treeRed_pred q1 qop 0 (by omega)
  have a3 := a2.2
  simp only [R, zero_add, ← Finset.range_eq_Ico, Nat.sub_zero] at a1 a3
  exact ⟨a1, a3⟩

/-- Sums of multiples of a power of two are exact while the absolute values add up to at most `2^p` units: counts and
offsets are right. -/
theorem C139_exact {p : ℕ} (hp : 1 ≤ p) (P : ℕ) (e : ℤ) (z : ℕ → ℤ) (hz : ∑ j ∈ Finset.range P, |z j| ≤ 2 ^ p) :
    ∃ r, pscanReduce P (addFl (flBin p)) 0 (fun j => z j * 2 ^ e) = .ok r ∧ ∀ i < P,
      (r i).1 = (∑ j ∈ Finset.range i, z j : ℤ) * 2 ^ e ∧ (r i).2 = (∑ j ∈ Finset.range P, z j : ℤ) * 2 ^ e := by
  obtain ⟨-, ⟨r, h1, h1'⟩, -⟩ := pscan_tree P (addFl (flBin p)) 0 (fun j => (z j : ℚ) * 2 ^ e)
  refine ⟨r, h1, fun i hi => ?_⟩
  rw [h1' i hi]
  let Q : ℕ → ℕ → ℚ → Prop := fun a b v => a ≤ b ∧ (b ≤ P → v = (∑ j ∈ Finset.Ico a b, z j : ℤ) * 2 ^ e)
  have q1 : ∀ a, Q a (a + 1) (z a * 2 ^ e) := fun a => ⟨by omega, fun _ => by simp⟩
  have qop : ∀ a b c v w, Q a b v → Q b c w → Q a c (addFl (flBin p) v w) := by
    rintro a b c v w ⟨h1, h2⟩ ⟨h3, h4⟩
    refine ⟨h1.trans h3, fun hc => ?_⟩
    rw [h2 (by omega), h4 hc]
    unfold addFl
    rw [← add_mul, ← Int.cast_add, Finset.sum_Ico_consecutive _ h1 h3]
    apply flBin_fix hp
    refine (Finset.abs_sum_le_sum_abs _ _).trans (le_trans ?_ hz)
    refine Finset.sum_le_sum_of_subset_of_nonneg (fun j hj => ?_) (fun _ _ _ => abs_nonneg _)
    rw [Finset.mem_Ico] at hj
    rw [Finset.mem_range]; omega
  have a1 : Q 0 i _ := prefixTree_pred (unit := 0) (R := Q 0) q1 qop (fun b c v w => qop 0 b c v w) (fun _ _ h => h)
    ⟨le_rfl, by simp⟩ hi
  have a2 : Q 0 (0 + P) _ := treeRed_pred q1 qop 0 (by omega)
  rw [zero_add] at a2
  have b1 := a1.2 hi.le
  have b2 := a2.2 le_rfl
  rw [← Finset.range_eq_Ico] at b1 b2
  exact ⟨b1, b2⟩

/-- 16 devices that count up to a million each, in `float32`. -/
example : ∑ j ∈ Finset.range 16, |(fun _ => 1000000 : ℕ → ℤ) j| ≤ 2 ^ 24 := by decide +kernel

/-- The full claim is false, in `bfloat16`, `float16`, `float32` and `float64`. On 14 devices there are inputs that are not
negative for which the prefix of device 11 is smaller than that of device 10; on 8 devices there are such inputs for which
the prefix of the last device is larger than the total. -/
theorem C139_violated : ∀ p ∈ [8, 11, 24, 53],
    (∃ (x : ℕ → ℚ) (r : ℕ → ℚ), (∀ j, 0 ≤ x j ∧ flBin p (x j) = x j) ∧ pscan 14 (addFl (flBin p)) 0 x = .ok r ∧
      r 11 < r 10) ∧
    ∃ (x : ℕ → ℚ) (r : ℕ → ℚ × ℚ), (∀ j, 0 ≤ x j ∧ flBin p (x j) = x j) ∧
      pscanReduce 8 (addFl (flBin p)) 0 x = .ok r ∧ (r 7).2 < (r 7).1 := by
  intro p hp
  let x : ℕ → ℕ → ℚ := fun n j => if j = 0 then 1 else if j = n ∨ j = n + 2 then 5 / 2 ^ (p + 2) else 0
  have hx : ∀ n j, 0 ≤ x n j ∧ flBin p (x n j) = x n j := by
    intro n j
    simp only [x]
    split_ifs
    · fin_cases hp <;> decide +kernel
    · fin_cases hp <;> decide +kernel
    · fin_cases hp <;> decide +kernel
  obtain ⟨⟨r, h1, h1'⟩, -⟩ := pscan_tree 14 (addFl (flBin p)) 0 (x 7)
  obtain ⟨-, ⟨r', h2, h2'⟩, -⟩ := pscan_tree 8 (addFl (flBin p)) 0 (x 4)
  refine ⟨⟨x 7, r, hx 7, h1, ?_⟩, ⟨x 4, r', hx 4, h2, ?_⟩⟩
  · rw [h1' 11 (by norm_num), h1' 10 (by norm_num)]
    simp [prefixTree, treeScan_one, treeScan_lo, treeScan_hi, treeRed_one, treeRed_split, x]
    fin_cases hp <;> decide +kernel
  · rw [h2' 7 (by norm_num)]
    simp [prefixTree, treeScan_one, treeScan_lo, treeScan_hi, treeRed_one, treeRed_split, x]
    fin_cases hp <;> decide +kernel

end Verif.Comm
