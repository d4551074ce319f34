import Verif.Lemmas.SDEFloat

/-! C138: `sdeint` with floating point times takes all its steps.

The solver adds `dt` to the time in every step and skips the steps for which the time is not below the end time
(sdeint.py 121-123). With exact times no step is skipped (C47). With rounded times the sum can reach the end too early:
in `float32` this happens on `[0, 1]` with 8194 steps (`C138_violated`). Up to about `2^(p/2)` steps, 4093 in `float32`,
it cannot happen (`C138_partial`, `C138_unit_interval`). -/

namespace Verif.SDE

open Verif.Core

variable {E W : Type*} [AddCommGroup E] [Module ℚ E]

theorem stepFnFl_in {fl : ℚ → ℚ} {f : E → ℚ → W → E × E} {a b dt : ℚ} {s : ℚ × E} {w : W}
    (h : a ≤ s.1 ∧ s.1 < b) : (stepFnFl fl f (a, b) dt s w).2 = heunFl fl f dt s.1 s.2 w := by
  unfold stepFnFl
  rw [if_pos h]

theorem stepFnFl_out {fl : ℚ → ℚ} {f : E → ℚ → W → E × E} {a b dt : ℚ} {s : ℚ × E} {w : W}
    (h : b ≤ s.1) : (stepFnFl fl f (a, b) dt s w).2 = s.2 := by
  unfold stepFnFl
  rw [if_neg (fun hc => absurd hc.2 (not_lt.mpr h))]

theorem foldl_all_steps (fl : ℚ → ℚ) (f : E → ℚ → W → E × E) (a b dt : ℚ) (y0 : E) (dw : List W)
    (hin : ∀ k < dw.length, a ≤ timesFl fl a dt k ∧ timesFl fl a dt k < b) :
    ∃ X : ℕ → E, X 0 = y0 ∧ (∀ (k : ℕ) (hk : k < dw.length),
        X (k + 1) = X k + dt • (f (X k) (timesFl fl a dt k) dw[k]).1 +
          (1 / 2 : ℚ) • ((f (X k) (timesFl fl a dt k) dw[k]).2 +
            (f (X k + (f (X k) (timesFl fl a dt k) dw[k]).2) (timesFl fl a dt (k + 1)) dw[k]).2)) ∧
      (dw.foldl (stepFnFl fl f (a, b) dt) (a, y0)).2 = X dw.length := by
  refine ⟨fun k => ((dw.take k).foldl (stepFnFl fl f (a, b) dt) (a, y0)).2, by simp, ?_, by simp⟩
  intro k hk
  have ht := foldl_time fl f (a, b) dt (dw.take k) (a, y0)
  rw [List.length_take, min_eq_left hk.le] at ht
  simp only at ht
  have hs : (dw.take (k + 1)).foldl (stepFnFl fl f (a, b) dt) (a, y0) =
      stepFnFl fl f (a, b) dt ((dw.take k).foldl (stepFnFl fl f (a, b) dt) (a, y0)) dw[k] := by
    rw [← List.take_append_getElem hk, List.foldl_append]; rfl
  simp only
  rw [hs, stepFnFl_in (by rw [ht]; exact hin k hk), ht, timesFl_succ]
  unfold heunFl
  rfl

/-- If `n` times the rounding error of a time is smaller than the step, then all `n` steps are taken, forward or in
reverse, with a step size and at times that are close to the exact ones. Missing from the full claim: any number of
steps; `C138_violated` shows that larger numbers lose steps. -/
theorem C138_partial {fl : ℚ → ℚ} {ε a b T : ℚ} (hε0 : 0 ≤ ε) (hε : ε ≤ 1 / 4) (hr : ∀ x, |fl x - x| ≤ ε * |x|)
    (hab : a < b) (ha : |a| ≤ T) (hb : |b| ≤ T) (f : E → ℚ → W → E × E) (reverse : Bool) (y0 : E) (dw : List W)
    (hn : 0 < dw.length)
    (hsmall : dw.length * (ε * (T + 5 * ((b - a) / dw.length))) < (b - a) / dw.length) :
    ∃ (dt : ℚ) (τ : ℕ → ℚ) (X : ℕ → E), |dt - (b - a) / dw.length| ≤ 3 * ε * ((b - a) / dw.length) ∧
      (∀ k ≤ dw.length, |τ k - (a + k * ((b - a) / dw.length))| ≤ k * (ε * (T + 5 * ((b - a) / dw.length)))) ∧
      X 0 = y0 ∧
      (∀ (k : ℕ) (hk : k < dw.length),
        let w := if reverse then dw[dw.length - 1 - k]'(by omega) else dw[k]
        X (k + 1) = X k + dt • (f (X k) (τ k) w).1 +
          (1 / 2 : ℚ) • ((f (X k) (τ k) w).2 + (f (X k + (f (X k) (τ k) w).2) (τ (k + 1)) w).2)) ∧
      sdeintSegFl fl f reverse y0 (a, b) dw = X dw.length := by
  have herr := timesFl_error hε0 hε hr hab ha hb hn hsmall
  have hn' : (0 : ℚ) < dw.length := by exact_mod_cast hn
  have hh : 0 < (b - a) / dw.length := div_pos (by linarith) hn'
  have hnh : dw.length * ((b - a) / dw.length) = b - a := by field_simp
  have hT : 0 ≤ T := (abs_nonneg _).trans ha
  have hc : 0 ≤ ε * (T + 5 * ((b - a) / dw.length)) := mul_nonneg hε0 (by linarith)
  have hin : ∀ k < dw.length, a ≤ timesFl fl a (dtFl fl (a, b) dw.length) k ∧
      timesFl fl a (dtFl fl (a, b) dw.length) k < b := by
    intro k hk
    have h1 := abs_le.mp (herr k hk.le)
    have hk1 : (k : ℚ) + 1 ≤ dw.length := by exact_mod_cast hk
    have hk0 : (0 : ℚ) ≤ k := Nat.cast_nonneg k
    have hn1 : (1 : ℚ) ≤ dw.length := by exact_mod_cast hn
    generalize (b - a) / (dw.length : ℚ) = h at *
    generalize ε * (T + 5 * h) = c at *
    have hch : c ≤ h := by nlinarith
    have h2 : k * c ≤ k * h := mul_le_mul_of_nonneg_left hch hk0
    have h3 : k * c ≤ dw.length * c := mul_le_mul_of_nonneg_right (by linarith) hc
    have h4 : (k + 1) * h ≤ dw.length * h := mul_le_mul_of_nonneg_right hk1 hh.le
    constructor <;> nlinarith
  cases reverse with
  | false =>
    obtain ⟨X, h0, h1, h2⟩ := foldl_all_steps fl f a b _ y0 dw hin
    refine ⟨_, _, X, dtFl_error hε0 hε hr hab hn, herr, h0, ?_, ?_⟩
    · intro k hk
      simpa using h1 k hk
    · unfold sdeintSegFl; simpa using h2
  | true =>
    obtain ⟨X, h0, h1, h2⟩ := foldl_all_steps fl f a b (dtFl fl (a, b) dw.length) y0 dw.reverse
      (by rw [List.length_reverse]; exact hin)
    refine ⟨_, _, X, dtFl_error hε0 hε hr hab hn, herr, h0, ?_, ?_⟩
    · intro k hk
      have := h1 k (by rw [List.length_reverse]; exact hk)
      rw [List.getElem_reverse] at this
      simpa using this
    · unfold sdeintSegFl
      rw [List.length_reverse, List.foldl_reverse] at h2
      simpa using h2

/-- On the unit interval, in `p` digit arithmetic, all steps are taken when `n^2 + 5 n < 2^p`, in both directions. -/
theorem C138_unit_interval {p : ℕ} (hp : 2 ≤ p) (f : E → ℚ → W → E × E) (y0 : E) (dw : List W)
    (hn : 0 < dw.length) (hsmall : dw.length ^ 2 + 5 * dw.length < 2 ^ p) :
    ∃ (dt : ℚ) (τ : ℕ → ℚ) (X : ℕ → E), X 0 = y0 ∧ (∀ k ≤ dw.length, |τ k - k / dw.length| < 1 / dw.length) ∧
      (∀ (k : ℕ) (hk : k < dw.length),
        X (k + 1) = X k + dt • (f (X k) (τ k) dw[k]).1 +
          (1 / 2 : ℚ) • ((f (X k) (τ k) dw[k]).2 + (f (X k + (f (X k) (τ k) dw[k]).2) (τ (k + 1)) dw[k]).2)) ∧
      sdeintSegFl (flBin p) f false y0 (0, 1) dw = X dw.length := by
  have hn' : (0 : ℚ) < dw.length := by exact_mod_cast hn
  have hq : (dw.length : ℚ) ^ 2 + 5 * dw.length < 2 ^ p := by exact_mod_cast hsmall
  have h2p : (0 : ℚ) < 2 ^ p := by positivity
  have hcond : (dw.length : ℚ) * ((1 / 2) ^ p * (1 + 5 * ((1 - 0) / dw.length))) < (1 - 0) / dw.length := by
    rw [sub_zero, lt_div_iff₀ hn', one_div, inv_pow]
    have : (dw.length : ℚ) * ((2 ^ p)⁻¹ * (1 + 5 * (1 / dw.length))) * dw.length =
        (dw.length ^ 2 + 5 * dw.length) / 2 ^ p := by
      field_simp
    rw [this, div_lt_one h2p]
    exact hq
  have hε : ((1 : ℚ) / 2) ^ p ≤ 1 / 4 := by
    calc ((1 : ℚ) / 2) ^ p ≤ (1 / 2) ^ 2 := pow_le_pow_of_le_one (by norm_num) (by norm_num) hp
      _ = 1 / 4 := by norm_num
  obtain ⟨dt, τ, X, _, h2, h3, h4, h5⟩ := C138_partial (ε := (1 / 2) ^ p) (T := 1) (a := 0) (b := 1) (by positivity) hε
    (flBin_rel p) (by norm_num) (by norm_num) (by norm_num) f false y0 dw hn hcond
  refine ⟨dt, τ, X, h3, ?_, ?_, h5⟩
  · intro k hk
    have h6 := h2 k hk
    have hkn : (k : ℚ) ≤ dw.length := by exact_mod_cast hk
    have e : (0 : ℚ) + k * ((1 - 0) / dw.length) = k / dw.length := by ring
    rw [e] at h6
    refine h6.trans_lt (lt_of_le_of_lt (mul_le_mul_of_nonneg_right hkn ?_) (by rw [sub_zero] at hcond ⊢; exact hcond))
    positivity
  · intro k hk
    simpa using h4 k hk

/-- In `float32` this covers up to 4093 steps. -/
example : (4093 : ℕ) ^ 2 + 5 * 4093 < 2 ^ 24 := by norm_num

/-- A step after the carried time has reached the end is skipped: its noise has no effect. -/
theorem last_step_ignored {fl : ℚ → ℚ} {f : E → ℚ → W → E × E} {a b : ℚ} {n : ℕ}
    (h : b ≤ timesFl fl a (dtFl fl (a, b) (n + 1)) n) (y0 : E) (dw : List W) (hl : dw.length = n) (w : W) :
    sdeintSegFl fl f false y0 (a, b) (dw ++ [w]) =
      (dw.foldl (stepFnFl fl f (a, b) (dtFl fl (a, b) (n + 1))) (a, y0)).2 := by
  unfold sdeintSegFl
  simp only [Bool.false_eq_true, if_false, List.length_append, List.length_singleton, hl, List.foldl_append,
    List.foldl_cons, List.foldl_nil]
  have ht := foldl_time fl f (a, b) (dtFl fl (a, b) (n + 1)) dw (a, y0)
  rw [hl] at ht
  exact stepFnFl_out (by rw [ht]; exact h)

/-- The times of 8194 steps in `float32`: after 8193 steps the time is `1`. -/
theorem float32_times : timesFl (flBin 24) 0 (16773121 / 137438953472) 8193 = 1 := by
  have a1 : timesFl (flBin 24) 0 (16773121 / 137438953472) 128 = 16773121 / 1073741824 := by decide +kernel
  have a2 : timesFl (flBin 24) (16773121 / 1073741824) (16773121 / 137438953472) 128 = 16773121 / 536870912 := by
    decide +kernel
  have a3 : timesFl (flBin 24) (16773121 / 536870912) (16773121 / 137438953472) 128 = 12579841 / 268435456 := by
    decide +kernel
  have a4 : timesFl (flBin 24) (12579841 / 268435456) (16773121 / 137438953472) 129 = 8402941 / 134217728 := by
    decide +kernel
  have b1 := tick_run (p := 24) (dt := 16773121 / 137438953472) (by norm_num) (-27) 8402941 16380 511 (by norm_num)
    (by norm_num) (by norm_num) (by norm_num) (by norm_num [abs_lt])
  have c1 : timesFl (flBin 24) (16773121 / 134217728) (16773121 / 137438953472) 1 = 8394751 / 67108864 := by
    decide +kernel
  have b2 := tick_run (p := 24) (dt := 16773121 / 137438953472) (by norm_num) (-26) 8394751 8190 1023 (by norm_num)
    (by norm_num) (by norm_num) (by norm_num) (by norm_num [abs_lt])
  have c2 : timesFl (flBin 24) (16773121 / 67108864) (16773121 / 137438953472) 1 = 4097 / 16384 := by decide +kernel
  have b3 := tick_run (p := 24) (dt := 16773121 / 137438953472) (by norm_num) (-25) 8390656 4095 2047 (by norm_num)
    (by norm_num) (by norm_num) (by norm_num) (by norm_num [abs_lt])
  have c3 : timesFl (flBin 24) (16773121 / 33554432) (16773121 / 137438953472) 1 = 1 / 2 := by decide +kernel
  have b4 := tick_run (p := 24) (dt := 16773121 / 137438953472) (by norm_num) (-24) 8388608 2048 4096 (by norm_num)
    (by norm_num) (by norm_num) (by norm_num) (by norm_num [abs_lt])
  norm_num at b1 b2 b3 b4
  have split : (8193 : ℕ) = 128 + 128 + 128 + 129 + 511 + 1 + 1023 + 1 + 2047 + 1 + 4096 := by norm_num
  rw [split]
  simp only [timesFl_add, a1, a2, a3, a4, b1, c1, b2, c2, b3, c3, b4]

theorem float32_dt : dtFl (flBin 24) (0, 1) 8194 = 16773121 / 137438953472 := by decide +kernel

theorem foldl_clock_le (fl : ℚ → ℚ) (ts : ℚ × ℚ) (dt : ℚ) (hdt : 0 ≤ dt) (dw : List W) (s : ℚ × ℚ) :
    (dw.foldl (stepFnFl fl (fun (_ : ℚ) _ (_ : W) => (1, 0)) ts dt) s).2 ≤ s.2 + dw.length * dt := by
  induction dw generalizing s with
  | nil => simp
  | cons w l ih =>
    rw [List.foldl_cons]
    refine (ih _).trans ?_
    have : (stepFnFl fl (fun (_ : ℚ) _ (_ : W) => (1, 0)) ts dt s w).2 ≤ s.2 + dt := by
      unfold stepFnFl heunFl
      split_ifs <;> simp <;> linarith
    rw [List.length_cons]; push_cast
    linarith

/-- The full claim is false: in `float32`, on `[0, 1]` with 8194 steps, the last step is skipped. For every `f`, start
and noise the result does not depend on the last entry of `dw`, and `dy = dt` ends at less than `1 - 1/8195` instead of
at `1`. -/
theorem C138_violated :
    (∀ (f : E → ℚ → W → E × E) (y0 : E) (dw : List W) (w w' : W), dw.length = 8193 →
      sdeintSegFl (flBin 24) f false y0 (0, 1) (dw ++ [w]) = sdeintSegFl (flBin 24) f false y0 (0, 1) (dw ++ [w'])) ∧
    ∀ dw : List W, dw.length = 8194 →
      sdeintSegFl (flBin 24) (fun (_ : ℚ) _ (_ : W) => (1, 0)) false 0 (0, 1) dw < 1 - 1 / 8195 := by
  have ht : (1 : ℚ) ≤ timesFl (flBin 24) 0 (dtFl (flBin 24) (0, 1) (8193 + 1)) 8193 := by
    rw [float32_dt, float32_times]
  refine ⟨fun f y0 dw w w' hl => ?_, fun dw hl => ?_⟩
  · rw [last_step_ignored ht y0 dw hl w, last_step_ignored ht y0 dw hl w']
  · obtain ⟨l, w, rfl⟩ : ∃ l w, dw = l ++ [w] :=
      ⟨dw.dropLast, dw.getLast (by rintro rfl; simp at hl), (List.dropLast_append_getLast _).symm⟩
    have hl' : l.length = 8193 := by simpa using hl
    rw [last_step_ignored ht 0 l hl' w]
    refine (foldl_clock_le _ _ _ (by rw [float32_dt]; norm_num) l _).trans_lt ?_
    rw [float32_dt, hl']
    norm_num

/-- With `bfloat16` times 34 steps on `[0, 1]` are too many, with `float16` times 105. -/
theorem C138_half_violated (f : E → ℚ → W → E × E) (y0 : E) (dw : List W) (w w' : W) :
    (dw.length = 33 →
      sdeintSegFl (flBin 8) f false y0 (0, 1) (dw ++ [w]) = sdeintSegFl (flBin 8) f false y0 (0, 1) (dw ++ [w'])) ∧
    (dw.length = 104 →
      sdeintSegFl (flBin 11) f false y0 (0, 1) (dw ++ [w]) = sdeintSegFl (flBin 11) f false y0 (0, 1) (dw ++ [w'])) := by
  have h8 : (1 : ℚ) ≤ timesFl (flBin 8) 0 (dtFl (flBin 8) (0, 1) (33 + 1)) 33 := by decide +kernel
  have h11 : (1 : ℚ) ≤ timesFl (flBin 11) 0 (dtFl (flBin 11) (0, 1) (104 + 1)) 104 := by decide +kernel
  exact ⟨fun hl => by rw [last_step_ignored h8 y0 dw hl w, last_step_ignored h8 y0 dw hl w'],
    fun hl => by rw [last_step_ignored h11 y0 dw hl w, last_step_ignored h11 y0 dw hl w']⟩

/-- With exact times all steps are taken, so the last noise entry matters. -/
example : sdeintSegFl id (fun (_ : ℚ) _ (w : ℚ) => (0, w)) false 0 (0, 1) [0, 0] ≠
    sdeintSegFl id (fun (_ : ℚ) _ (w : ℚ) => (0, w)) false 0 (0, 1) [0, 1] := by decide +kernel

end Verif.SDE
