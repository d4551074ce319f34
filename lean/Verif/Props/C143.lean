import Verif.Model.DatagenTimes
import Verif.Lemmas.InterpFloat
import Verif.Lemmas.ExchangeFloat
import Verif.Props.C58

/-! C143: the time stamps of the generated files.

A file starts with the last state of the file before it, and both copies carry a time stamp. With exact arithmetic the two
agree (C58); with `t += DT` in floating point they do not (`C143_violated`). What holds is that stamps are accurate and that
stamps of different steps are in the right order, within a file and across files. -/

namespace Verif.Niles

open Verif.Core

variable {fl : ℚ → ℚ} {ε DT : ℚ}

/-- The time `i` steps after the start of a cycle. -/
def clockFl (fl : ℚ → ℚ) (DT : ℚ) (start : ℕ) : ℕ → ℚ
  | 0 => fl (start * DT)
  | i + 1 => fl (clockFl fl DT start i + DT)

theorem stampLoop_eq (fl : ℚ → ℚ) (DT : ℚ) (start n : ℕ) : ∀ (j : ℕ) (ts : List ℚ),
    stampLoop fl DT n (j + 1) (clockFl fl DT start j) ts =
      (clockFl fl DT start (j + n), ts ++ ((List.range' (j + 1) n).filter (· % 10 = 0)).map (clockFl fl DT start)) := by
  induction n with
  | zero => intro j ts; simp [stampLoop]
  | succ n ih =>
    intro j ts
    have e : fl (clockFl fl DT start j + DT) = clockFl fl DT start (j + 1) := rfl
    rw [stampLoop]
    simp only [e]
    rw [ih (j + 1), show j + (n + 1) = j + 1 + n by omega]
    by_cases h10 : (j + 1) % 10 = 0
    · simp [List.range'_succ, h10]
    · simp [List.range'_succ, h10]

/-- The stamps of a file: the start and every tenth step. -/
theorem fileTimesFl_eq (fl : ℚ → ℚ) (DT : ℚ) (start n : ℕ) :
    fileTimesFl fl DT start n = (List.range (n / 10 + 1)).map fun i => clockFl fl DT start (10 * i) := by
  have h := stampLoop_eq fl DT start n 0 [clockFl fl DT start 0]
  have e : clockFl fl DT start 0 = fl (start * DT) := rfl
  rw [fileTimesFl, ← e, h]
  have h2 := congrArg (List.map (clockFl fl DT start)) (saved_steps n)
  rw [List.map_map] at h2
  rw [List.map_cons] at h2
  simpa [Function.comp_def] using h2

/-- Without rounding the stamps are those of `one_cycle`. -/
theorem C143_exact (hfl : ∀ x, fl x = x) {U P : Type*} (u : ℕ → U) (p : ℕ → P) (start n : ℕ) :
    fileTimesFl fl DT start n = (expectedFile DT u p start n).t := by
  have hc : ∀ i, clockFl fl DT start i = ((start + i : ℕ) : ℚ) * DT := by
    intro i
    induction i with
    | zero => simp [clockFl, hfl]
    | succ i ih => rw [clockFl, hfl, ih]; push_cast; ring
  rw [fileTimesFl_eq, expectedFile]
  simp only [List.map_map, Function.comp_def, hc]

theorem clockFl_error (hε : 0 ≤ ε) (hfl : ∀ x, |fl x - x| ≤ ε * |x|) (hDT : 0 ≤ DT) (start i : ℕ) :
    |clockFl fl DT start i - ((start + i : ℕ) : ℚ) * DT| ≤ ((1 + ε) ^ (i + 1) - 1) * (((start + i : ℕ) : ℚ) * DT) := by
  induction i with
  | zero =>
    have h0 : (0 : ℚ) ≤ ((start + 0 : ℕ) : ℚ) * DT := by positivity
    have := hfl (((start + 0 : ℕ) : ℚ) * DT)
    rw [abs_of_nonneg h0] at this
    simpa [clockFl] using this
  | succ i ih =>
    have h0 : (0 : ℚ) ≤ ((start + (i + 1) : ℕ) : ℚ) * DT := by positivity
    have hp : (1 : ℚ) ≤ (1 + ε) ^ (i + 1) := one_le_pow₀ (by linarith)
    have e : (((start + (i + 1) : ℕ) : ℚ)) * DT = ((start + i : ℕ) : ℚ) * DT + DT := by push_cast; ring
    have h1 : |clockFl fl DT start i + DT - ((start + (i + 1) : ℕ) : ℚ) * DT| ≤
        ((1 + ε) ^ (i + 1) - 1) * |((start + (i + 1) : ℕ) : ℚ) * DT| := by
      rw [abs_of_nonneg h0]
      have e2 : clockFl fl DT start i + DT - ((start + (i + 1) : ℕ) : ℚ) * DT =
          clockFl fl DT start i - ((start + i : ℕ) : ℚ) * DT := by rw [e]; ring
      rw [e2]
      refine ih.trans (mul_le_mul_of_nonneg_left ?_ (by linarith))
      rw [e]; linarith
    have h2 := rel_fl hε hfl h1
    rw [abs_of_nonneg h0] at h2
    rw [clockFl]
    refine h2.trans (le_of_eq ?_)
    ring

/-- The number of stamps, and the error of each of them: relative to the exact time, one rounding for the product and one for
each step of the cycle. Errors of earlier cycles do not carry over. -/
theorem C143_accuracy (hε : 0 ≤ ε) (hfl : ∀ x, |fl x - x| ≤ ε * |x|) (hDT : 0 ≤ DT) (start n : ℕ) :
    (fileTimesFl fl DT start n).length = n / 10 + 1 ∧
    ∀ (i : ℕ) (t : ℚ), (fileTimesFl fl DT start n)[i]? = some t →
      |t - ((start + 10 * i : ℕ) : ℚ) * DT| ≤ ((1 + ε) ^ (10 * i + 1) - 1) * (((start + 10 * i : ℕ) : ℚ) * DT) := by
  rw [fileTimesFl_eq]
  refine ⟨by simp, fun i t h => ?_⟩
  rw [List.getElem?_map, Option.map_eq_some_iff] at h
  obtain ⟨j, hj, rfl⟩ := h
  obtain ⟨hlt, rfl⟩ := List.getElem?_eq_some_iff.mp hj
  rw [List.getElem_range]
  exact clockFl_error hε hfl hDT start (10 * i)

/-- Stamps of different steps are in order, in one file or in two: `S` bounds the number of all steps, `n` the steps of a
cycle. -/
theorem C143_order (hε : 0 ≤ ε) (hfl : ∀ x, |fl x - x| ≤ ε * |x|) (hDT : 0 < DT) {n S : ℕ}
    (hS : 2 * ((1 + ε) ^ (n + 1) - 1) * (S : ℚ) < 1) {start start' i j : ℕ} {t t' : ℚ}
    (hstart : start + n ≤ S) (hstart' : start' + n ≤ S)
    (ht : (fileTimesFl fl DT start n)[i]? = some t) (ht' : (fileTimesFl fl DT start' n)[j]? = some t')
    (hlt : start + 10 * i < start' + 10 * j) : t < t' := by
  obtain ⟨hl, ha⟩ := C143_accuracy hε hfl hDT.le start n
  obtain ⟨hl', ha'⟩ := C143_accuracy hε hfl hDT.le start' n
  have hi : 10 * i ≤ n := by
    have := (List.getElem?_eq_some_iff.mp ht).1
    rw [hl] at this; omega
  have hj : 10 * j ≤ n := by
    have := (List.getElem?_eq_some_iff.mp ht').1
    rw [hl'] at this; omega
  have bound : ∀ s m : ℕ, 10 * m ≤ n → s + n ≤ S →
      ((1 + ε) ^ (10 * m + 1) - 1) * (((s + 10 * m : ℕ) : ℚ) * DT) ≤ ((1 + ε) ^ (n + 1) - 1) * (S * DT) := by
    intro s m hm hs
    have h1 : (1 + ε) ^ (10 * m + 1) ≤ (1 + ε) ^ (n + 1) := pow_le_pow_right₀ (by linarith) (by omega)
    have h2 : (1 : ℚ) ≤ (1 + ε) ^ (10 * m + 1) := one_le_pow₀ (by linarith)
    have h3 : ((s + 10 * m : ℕ) : ℚ) ≤ S := by exact_mod_cast (by omega)
    exact mul_le_mul (by linarith) (mul_le_mul_of_nonneg_right h3 hDT.le) (by positivity) (by linarith)
  have h1 := (ha i t ht).trans (bound start i hi hstart)
  have h2 := (ha' j t' ht').trans (bound start' j hj hstart')
  rw [abs_le] at h1 h2
  have h3 : ((start + 10 * i : ℕ) : ℚ) * DT + DT ≤ ((start' + 10 * j : ℕ) : ℚ) * DT := by
    have : ((start + 10 * i : ℕ) : ℚ) + 1 ≤ ((start' + 10 * j : ℕ) : ℚ) := by exact_mod_cast hlt
    nlinarith
  have h4 : 2 * ((1 + ε) ^ (n + 1) - 1) * (S : ℚ) * DT < 1 * DT := mul_lt_mul_of_pos_right hS hDT
  nlinarith [h1.1, h1.2, h2.1, h2.2]

/-- The constants of the code (500 cycles of 500 steps, `float64`) meet the hypothesis, and there are two such stamps. -/
example : 2 * ((1 + (1 / 2 : ℚ) ^ 53) ^ (500 + 1) - 1) * ((250000 : ℕ) : ℚ) < 1 := by decide +kernel

example : ∃ t t' : ℚ, (fileTimesFl (flBin 53) (1 / 10000) 500 500)[50]? = some t ∧
    (fileTimesFl (flBin 53) (1 / 10000) 1000 500)[1]? = some t' ∧ 500 + 10 * 50 < 1000 + 10 * 1 := by
  rw [fileTimesFl_eq, fileTimesFl_eq]
  exact ⟨_, _, rfl, rfl, by norm_num⟩

/-- The two stamps of the state at the end of one cycle and at the start of the next are close. Missing from
the full claim: that they are equal, which is false (`C143_violated`). -/
theorem C143_joint_partial (hε : 0 ≤ ε) (hfl : ∀ x, |fl x - x| ≤ ε * |x|) (hDT : 0 ≤ DT) (start m : ℕ) :
    ∃ t t', (fileTimesFl fl DT start (10 * m)).getLast? = some t ∧
      (fileTimesFl fl DT (start + 10 * m) (10 * m)).head? = some t' ∧
      |t - t'| ≤ ((1 + ε) ^ (10 * m + 1) - 1 + ε) * (((start + 10 * m : ℕ) : ℚ) * DT) := by
  have hm : 10 * m / 10 = m := by omega
  refine ⟨clockFl fl DT start (10 * m), clockFl fl DT (start + 10 * m) 0, ?_, ?_, ?_⟩
  · rw [fileTimesFl_eq, hm, List.range_succ]; simp
  · rw [fileTimesFl_eq, List.range_succ_eq_map]; simp
  · have h1 := clockFl_error hε hfl hDT start (10 * m)
    have h2 := clockFl_error hε hfl hDT (start + 10 * m) 0
    rw [add_zero, zero_add, pow_one, add_sub_cancel_left] at h2
    have h3 := abs_sub_le (clockFl fl DT start (10 * m)) (((start + 10 * m : ℕ) : ℚ) * DT) (clockFl fl DT (start + 10 * m) 0)
    rw [abs_sub_comm (((start + 10 * m : ℕ) : ℚ) * DT)] at h3
    linarith

/-- The bound with the constants of the code, for the last joint: below `10^-11`. -/
example : ((1 + (1 / 2 : ℚ) ^ 53) ^ (10 * 50 + 1) - 1 + (1 / 2 : ℚ) ^ 53) * (((249500 + 10 * 50 : ℕ) : ℚ) * (1 / 10000)) ≤ 1 / 10 ^ 11 := by
  decide +kernel

/-- A number rounds to the closest point of the grid of its binade. -/
theorem flBin_near {p : ℕ} {E z : ℤ} {x : ℚ} (hlo : (2 : ℚ) ^ (E + p - 1) ≤ x) (hhi : x < 2 ^ (E + p))
    (hz : |x - z * 2 ^ E| < 2 ^ E / 2) : flBin p x = z * 2 ^ E := by
  have hx : 0 < x := lt_of_lt_of_le (zpow_pos (by norm_num) _) hlo
  have hlog : Int.log 2 |x| = E + p - 1 := by
    rw [abs_of_pos hx]
    apply le_antisymm
    · have h1 := Int.zpow_log_le_self (b := 2) (r := x) (by norm_num) hx
      push_cast at h1
      have h2 := (zpow_lt_zpow_iff_right₀ (by norm_num : (1 : ℚ) < 2)).mp (lt_of_le_of_lt h1 hhi)
      omega
    · have h1 := Int.lt_zpow_succ_log_self (b := 2) (by norm_num) x
      push_cast at h1
      have h2 := (zpow_lt_zpow_iff_right₀ (by norm_num : (1 : ℚ) < 2)).mp (lt_of_le_of_lt hlo h1)
      omega
  have hu : ulp p x = 2 ^ E := by
    unfold ulp
    rw [hlog]
    congr 1
    omega
  have hU : (0 : ℚ) < 2 ^ E := zpow_pos (by norm_num) _
  have hr : roundEven (x / 2 ^ E) = z := by
    have h1 := roundEven_abs (x / 2 ^ E)
    have h2 : |x / 2 ^ E - z| < 1 / 2 := by
      have e : x / 2 ^ E - z = (x - z * 2 ^ E) / 2 ^ E := by field_simp
      rw [e, abs_div, abs_of_pos hU, div_lt_iff₀ hU]
      linarith
    have h3 : |((roundEven (x / 2 ^ E) - z : ℤ) : ℚ)| < 1 := by
      push_cast
      have := abs_sub_le ((roundEven (x / 2 ^ E) : ℤ) : ℚ) (x / 2 ^ E) z
      linarith
    have h4 : |roundEven (x / 2 ^ E) - z| < 1 := by exact_mod_cast h3
    have := Int.abs_lt_one_iff.mp h4
    omega
  rw [flBin, hu, hr]

/-- Steps that stay in one binade move by the same multiple of its grid. -/
theorem clock_run {start i m : ℕ} {E z k : ℤ} {t h : ℚ} {DT : ℚ} (hm : 1 ≤ m) (hc : clockFl (flBin 53) DT start i = t) (hDT : DT = h)
    (hlo : (2 : ℚ) ^ (E + 52) ≤ t + h) (hhi : t + h < 2 ^ (E + 53)) (hz : 2 ^ 52 ≤ z) (hk : 0 ≤ k)
    (hmax : z + (m - 1) * k + 1 ≤ 2 ^ 53) (h1 : |t + h - z * 2 ^ E| < 2 ^ E / 2) (hd : m = 1 ∨ 0 < h ∧ |h - k * 2 ^ E| < 2 ^ E / 2) :
    clockFl (flBin 53) DT start (i + m) = (z + (m - 1) * k) * 2 ^ E := by
  subst hDT
  have hU : (0 : ℚ) < 2 ^ E := zpow_pos (by norm_num) _
  have e52 : (2 : ℚ) ^ (E + 52) = 2 ^ 52 * 2 ^ E := by rw [zpow_add₀ (by norm_num), mul_comm]; norm_num
  have e53 : (2 : ℚ) ^ (E + 53) = 2 ^ 53 * 2 ^ E := by rw [zpow_add₀ (by norm_num), mul_comm]; norm_num
  have key : ∀ j, j < m → clockFl (flBin 53) DT start (i + 1 + j) = (z + j * k) * 2 ^ E := by
    intro j
    induction j with
    | zero =>
      intro _
      rw [add_zero, clockFl, hc, flBin_near (E := E) (z := z) (by simpa [add_sub_assoc] using hlo) (by simpa using hhi) h1]
      simp
    | succ j ih =>
      intro hj
      obtain ⟨hd0, hd⟩ := hd.resolve_left (by omega)
      have hzq : ((2 : ℚ) ^ 52) ≤ z := by exact_mod_cast hz
      have hkq : (0 : ℚ) ≤ k := by exact_mod_cast hk
      have hmq : (z : ℚ) + (m - 1) * k + 1 ≤ 2 ^ 53 := by exact_mod_cast hmax
      have hjq : (j : ℚ) + 1 ≤ m - 1 := by
        have : ((j + 1 + 1 : ℕ) : ℚ) ≤ m := by exact_mod_cast hj
        push_cast at this; linarith
      have hjk : ((j : ℚ) + 1) * k ≤ (m - 1) * k := mul_le_mul_of_nonneg_right hjq hkq
      have hjk0 : (0 : ℚ) ≤ j * k := by positivity
      rw [← add_assoc, clockFl, ih (by omega)]
      have hd' := abs_lt.mp hd
      rw [flBin_near (E := E) (z := z + (j + 1) * k)]
      · push_cast; ring
      · have e : (2 : ℚ) ^ (E + (53 : ℕ) - 1) = 2 ^ 52 * 2 ^ E := by rw [← e52]; congr 1; push_cast; ring
        rw [e]
        nlinarith [mul_le_mul_of_nonneg_right hzq hU.le, mul_nonneg hjk0 hU.le]
      · have e : (2 : ℚ) ^ (E + (53 : ℕ)) = 2 ^ 53 * 2 ^ E := by rw [← e53]; norm_num
        rw [e]
        have h5 : ((z : ℚ) + (j + 1) * k + 1) * 2 ^ E ≤ 2 ^ 53 * 2 ^ E := mul_le_mul_of_nonneg_right (by linarith) hU.le
        nlinarith
      · push_cast
        have e : ((z : ℚ) + j * k) * 2 ^ E + DT - (z + (j + 1) * k) * 2 ^ E = DT - k * 2 ^ E := by ring
        rw [e]
        exact hd
  have := key (m - 1) (by omega)
  rw [show i + 1 + (m - 1) = i + m by omega, Nat.cast_sub hm, Nat.cast_one] at this
  exact this

/-- The step size of the code in `float64`. -/
def dtDouble : ℚ := flBin 53 (1 / 10000)

theorem dtDouble_eq : dtDouble = 7378697629483821 / 73786976294838206464 := by decide +kernel

/-- The clock after 9 and after 500 steps. -/
theorem clock_double : clockFl (flBin 53) dtDouble 0 9 = 2075258708292325 / 2305843009213693952 ∧
    clockFl (flBin 53) dtDouble 0 500 = 1801439850948213 / 36028797018963968 := by
  have hdt := dtDouble_eq
  have c0 : clockFl (flBin 53) dtDouble 0 0 = 0 := by rw [clockFl, hdt]; simp [flBin, roundEven]
  have c1 : clockFl (flBin 53) dtDouble 0 1 = 7378697629483821 / 73786976294838206464 := by
    rw [clock_run (m := 1) (E := -66) (z := 7378697629483821) (k := 7378697629483821) (by norm_num) c0 hdt (by norm_num) (by norm_num) (by norm_num)
      (by norm_num) (by norm_num) (by rw [abs_lt]; constructor <;> norm_num) (by norm_num [abs_lt])]; norm_num
  have c2 : clockFl (flBin 53) dtDouble 0 2 = 7378697629483821 / 36893488147419103232 := by
    rw [clock_run (m := 1) (E := -65) (z := 7378697629483821) (k := 0) (by norm_num) c1 hdt (by norm_num) (by norm_num) (by norm_num)
      (by norm_num) (by norm_num) (by rw [abs_lt]; constructor <;> norm_num) (by norm_num [abs_lt])]; norm_num
  have c3 : clockFl (flBin 53) dtDouble 0 3 = 2767011611056433 / 9223372036854775808 := by
    rw [clock_run (m := 1) (E := -64) (z := 5534023222112866) (k := 0) (by norm_num) c2 hdt (by norm_num) (by norm_num) (by norm_num)
      (by norm_num) (by norm_num) (by rw [abs_lt]; constructor <;> norm_num) (by norm_num [abs_lt])]; norm_num
  have c4 : clockFl (flBin 53) dtDouble 0 4 = 7378697629483821 / 18446744073709551616 := by
    rw [clock_run (m := 1) (E := -64) (z := 7378697629483821) (k := 1844674407370955) (by norm_num) c3 hdt (by norm_num) (by norm_num) (by norm_num)
      (by norm_num) (by norm_num) (by rw [abs_lt]; constructor <;> norm_num) (by norm_num [abs_lt])]; norm_num
  have c5 : clockFl (flBin 53) dtDouble 0 5 = 1152921504606847 / 2305843009213693952 := by
    rw [clock_run (m := 1) (E := -63) (z := 4611686018427388) (k := 0) (by norm_num) c4 hdt (by norm_num) (by norm_num) (by norm_num)
      (by norm_num) (by norm_num) (by rw [abs_lt]; constructor <;> norm_num) (by norm_num [abs_lt])]; norm_num
  have c9 : clockFl (flBin 53) dtDouble 0 9 = 2075258708292325 / 2305843009213693952 := by
    rw [clock_run (m := 4) (E := -63) (z := 5534023222112866) (k := 922337203685478) (by norm_num) c5 hdt (by norm_num) (by norm_num) (by norm_num)
      (by norm_num) (by norm_num) (by rw [abs_lt]; constructor <;> norm_num) (by norm_num [abs_lt])]; norm_num
  have c19 : clockFl (flBin 53) dtDouble 0 19 = 1095275429376505 / 576460752303423488 := by
    rw [clock_run (m := 10) (E := -62) (z := 4611686018427389) (k := 461168601842739) (by norm_num) c9 hdt (by norm_num) (by norm_num) (by norm_num)
      (by norm_num) (by norm_num) (by rw [abs_lt]; constructor <;> norm_num) (by norm_num [abs_lt])]; norm_num
  have c39 : clockFl (flBin 53) dtDouble 0 39 = 1124098466991675 / 288230376151711744 := by
    rw [clock_run (m := 20) (E := -61) (z := 4611686018427389) (k := 230584300921369) (by norm_num) c19 hdt (by norm_num) (by norm_num) (by norm_num)
      (by norm_num) (by norm_num) (by rw [abs_lt]; constructor <;> norm_num) (by norm_num [abs_lt])]; norm_num
  have c78 : clockFl (flBin 53) dtDouble 0 78 = 8992787735933415 / 1152921504606846976 := by
    rw [clock_run (m := 39) (E := -60) (z := 4611686018427385) (k := 115292150460685) (by norm_num) c39 hdt (by norm_num) (by norm_num) (by norm_num)
      (by norm_num) (by norm_num) (by rw [abs_lt]; constructor <;> norm_num) (by norm_num [abs_lt])]; norm_num
  have c79 : clockFl (flBin 53) dtDouble 0 79 = 2277019971598525 / 288230376151711744 := by
    rw [clock_run (m := 1) (E := -59) (z := 4554039943197050) (k := 0) (by norm_num) c78 hdt (by norm_num) (by norm_num) (by norm_num)
      (by norm_num) (by norm_num) (by rw [abs_lt]; constructor <;> norm_num) (by norm_num [abs_lt])]; norm_num
  have c156 : clockFl (flBin 53) dtDouble 0 156 = 1124098466991673 / 72057594037927936 := by
    rw [clock_run (m := 77) (E := -59) (z := 4611686018427392) (k := 57646075230342) (by norm_num) c79 hdt (by norm_num) (by norm_num) (by norm_num)
      (by norm_num) (by norm_num) (by rw [abs_lt]; constructor <;> norm_num) (by norm_num [abs_lt])]; norm_num
  have c312 : clockFl (flBin 53) dtDouble 0 312 = 1124098466991671 / 36028797018963968 := by
    rw [clock_run (m := 156) (E := -58) (z := 4525216905581863) (k := 28823037615171) (by norm_num) c156 hdt (by norm_num) (by norm_num) (by norm_num)
      (by norm_num) (by norm_num) (by rw [abs_lt]; constructor <;> norm_num) (by norm_num [abs_lt])]; norm_num
  have c500 : clockFl (flBin 53) dtDouble 0 500 = 1801439850948213 / 36028797018963968 := by
    rw [clock_run (m := 188) (E := -57) (z := 4510805386774270) (k := 14411518807586) (by norm_num) c312 hdt (by norm_num) (by norm_num) (by norm_num)
      (by norm_num) (by norm_num) (by rw [abs_lt]; constructor <;> norm_num) (by norm_num [abs_lt])]; norm_num
  exact ⟨c9, c500⟩

/-- With the constants of the code (`DT = 1e-4`, 500 steps in a cycle) the last stamp of the first file is larger than the
first stamp of the second file, though they belong to the same state; and the stamp of step ten is not `10 * DT`. -/
theorem C143_violated : (∃ t t', (fileTimesFl (flBin 53) dtDouble 0 500).getLast? = some t ∧
      (fileTimesFl (flBin 53) dtDouble 500 500).head? = some t' ∧ t' < t) ∧
    (fileTimesFl (flBin 53) dtDouble 0 500)[1]? ≠ some (flBin 53 (10 * dtDouble)) := by
  obtain ⟨c9, c500⟩ := clock_double
  rw [fileTimesFl_eq, fileTimesFl_eq]
  refine ⟨⟨_, _, rfl, rfl, ?_⟩, fun h => ?_⟩
  · have e : flBin 53 (((500 : ℕ) : ℚ) * (7378697629483821 / 73786976294838206464)) < 1801439850948213 / 36028797018963968 := by
      decide +kernel
    rw [← dtDouble_eq, ← c500] at e
    exact e
  · have h2 : clockFl (flBin 53) dtDouble 0 10 = flBin 53 (10 * dtDouble) := Option.some.inj h
    rw [clockFl, c9, dtDouble_eq] at h2
    revert h2
    decide +kernel

end Verif.Niles
