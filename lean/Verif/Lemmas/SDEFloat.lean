import Verif.Model.SDEFloat
import Verif.Lemmas.ExchangeFloat
import Mathlib.Logic.Function.Iterate

/-! Lemmas about the rounded times of `_sdeint`. -/

namespace Verif.SDE

open Verif.Core

variable {E W : Type*} [AddCommGroup E] [Module ℚ E]

/-- The times the solver carries along. -/
def timesFl (fl : ℚ → ℚ) (a dt : ℚ) (k : ℕ) : ℚ := (fun t => fl (t + dt))^[k] a

theorem timesFl_succ (fl : ℚ → ℚ) (a dt : ℚ) (k : ℕ) :
    timesFl fl a dt (k + 1) = fl (timesFl fl a dt k + dt) := by
  unfold timesFl; rw [Function.iterate_succ_apply']

theorem timesFl_add (fl : ℚ → ℚ) (a dt : ℚ) (j k : ℕ) :
    timesFl fl a dt (j + k) = timesFl fl (timesFl fl a dt j) dt k := by
  unfold timesFl; rw [add_comm, Function.iterate_add_apply]

theorem stepFnFl_time (fl : ℚ → ℚ) (f : E → ℚ → W → E × E) (ts : ℚ × ℚ) (dt : ℚ) (s : ℚ × E) (w : W) :
    (stepFnFl fl f ts dt s w).1 = fl (s.1 + dt) := by
  unfold stepFnFl; split <;> rfl

theorem foldl_time (fl : ℚ → ℚ) (f : E → ℚ → W → E × E) (ts : ℚ × ℚ) (dt : ℚ) (dw : List W) (s : ℚ × E) :
    (dw.foldl (stepFnFl fl f ts dt) s).1 = timesFl fl s.1 dt dw.length := by
  induction dw using List.reverseRecOn with
  | nil => rfl
  | append_singleton l w ih =>
    rw [List.foldl_append, List.foldl_cons, List.foldl_nil, stepFnFl_time, ih, List.length_append, List.length_singleton,
      timesFl_succ]

/-! ### Distance of the rounded times from the exact ones -/

theorem dtFl_error {fl : ℚ → ℚ} {ε a b : ℚ} (hε0 : 0 ≤ ε) (hε : ε ≤ 1 / 4) (hr : ∀ x, |fl x - x| ≤ ε * |x|) (hab : a < b)
    {n : ℕ} (hn : 0 < n) : |dtFl fl (a, b) n - (b - a) / n| ≤ 3 * ε * ((b - a) / n) := by
  have hn' : (0 : ℚ) < n := by exact_mod_cast hn
  have hd : 0 < b - a := by linarith
  have h1 := hr (b - a)
  rw [abs_of_pos hd] at h1
  have h2 := hr (fl (b - a) / n)
  have hh : 0 < (b - a) / n := by positivity
  set h := (b - a) / n with hdef
  have e1 : |fl (b - a) / n - h| ≤ ε * h := by
    rw [hdef, ← sub_div, abs_div, abs_of_pos hn', ← mul_div_assoc]
    gcongr
  have e2 : |fl (b - a) / n| ≤ (1 + ε) * h := by
    have := abs_add_le (fl (b - a) / n - h) h
    rw [sub_add_cancel, abs_of_pos hh] at this
    linarith
  have e3 := abs_sub_le (fl (fl (b - a) / n)) (fl (b - a) / n) h
  have e4 : ε * |fl (b - a) / n| ≤ ε * ((1 + ε) * h) := mul_le_mul_of_nonneg_left e2 hε0
  show |fl (fl (b - a) / n) - h| ≤ _
  have e5 : ε * (ε * h) ≤ 1 * (ε * h) := mul_le_mul_of_nonneg_right (by linarith) (by positivity)
  nlinarith

theorem timesFl_error {fl : ℚ → ℚ} {ε a b T : ℚ} (hε0 : 0 ≤ ε) (hε : ε ≤ 1 / 4) (hr : ∀ x, |fl x - x| ≤ ε * |x|)
    (hab : a < b) (ha : |a| ≤ T) (hb : |b| ≤ T) {n : ℕ} (hn : 0 < n)
    (hsmall : n * (ε * (T + 5 * ((b - a) / n))) < (b - a) / n) (k : ℕ) (hk : k ≤ n) :
    |timesFl fl a (dtFl fl (a, b) n) k - (a + k * ((b - a) / n))| ≤ k * (ε * (T + 5 * ((b - a) / n))) := by
  have hn' : (0 : ℚ) < n := by exact_mod_cast hn
  have hdt := dtFl_error hε0 hε hr hab hn
  have hd : 0 < b - a := by linarith
  have hh : 0 < (b - a) / n := by positivity
  have hnh : n * ((b - a) / n) = b - a := by field_simp
  set h := (b - a) / n
  set dt := dtFl fl (a, b) n
  have hT : 0 ≤ T := (abs_nonneg _).trans ha
  have hc : 0 ≤ ε * (T + 5 * h) := mul_nonneg hε0 (by linarith)
  induction k with
  | zero => simp [timesFl]
  | succ k ih =>
    have ih := ih (by omega)
    rw [timesFl_succ]
    set t := timesFl fl a dt k
    have hkn : (k : ℚ) + 1 ≤ n := by exact_mod_cast hk
    have hk0 : (0 : ℚ) ≤ k := Nat.cast_nonneg k
    have hek : |t - (a + k * h)| ≤ h := by
      have : k * (ε * (T + 5 * h)) ≤ n * (ε * (T + 5 * h)) := mul_le_mul_of_nonneg_right (by linarith) hc
      linarith
    have hs : |a + (k + 1) * h| ≤ T := by
      have h1 : (k + 1) * h ≤ n * h := mul_le_mul_of_nonneg_right hkn hh.le
      have h2 : 0 ≤ (k + 1) * h := by positivity
      rw [abs_le] at ha hb ⊢
      constructor <;> linarith
    have h3 : |t + dt| ≤ T + 2 * h := by
      have e : t + dt = (a + (k + 1) * h) + ((t - (a + k * h)) + (dt - h)) := by ring
      rw [e]
      refine (abs_add_le _ _).trans ?_
      have := abs_add_le (t - (a + k * h)) (dt - h)
      have h4 : 3 * ε * h ≤ 3 / 4 * h := mul_le_mul_of_nonneg_right (by linarith) hh.le
      linarith
    have h5 := hr (t + dt)
    have h6 : ε * |t + dt| ≤ ε * (T + 2 * h) := mul_le_mul_of_nonneg_left h3 hε0
    have h7 : |fl (t + dt) - (a + ((k + 1 : ℕ) : ℚ) * h)| ≤
        |fl (t + dt) - (t + dt)| + (|t - (a + k * h)| + |dt - h|) := by
      have e : fl (t + dt) - (a + ((k + 1 : ℕ) : ℚ) * h) =
          (fl (t + dt) - (t + dt)) + ((t - (a + k * h)) + (dt - h)) := by push_cast; ring
      rw [e]
      exact (abs_add_le _ _).trans (add_le_add le_rfl (abs_add_le _ _))
    push_cast at h7 ⊢
    nlinarith

/-! ### Runs of equal increments between two powers of two -/

theorem roundEven_close {y : ℚ} {k : ℤ} (h : |y - k| < 1 / 2) : roundEven y = k := by
  have h1 := roundEven_abs y
  have h2 : |(roundEven y : ℚ) - k| < 1 := by
    have := abs_sub_le (roundEven y : ℚ) y k
    linarith
  have h3 : |roundEven y - k| < 1 := by exact_mod_cast h2
  rw [Int.abs_lt_one_iff] at h3
  omega

theorem tick_one {p : ℕ} (hp : 1 ≤ p) {dt : ℚ} (e : ℤ) (m δ : ℤ) (hdt : 0 ≤ dt) (hm : 2 ^ (p - 1) ≤ m)
    (hhi : (m : ℚ) * 2 ^ e + dt < 2 ^ p * 2 ^ e) (hδ : |dt - δ * 2 ^ e| < 2 ^ e / 2) :
    flBin p ((m : ℚ) * 2 ^ e + dt) = ((m + δ : ℤ) : ℚ) * 2 ^ e := by
  have hu : (0 : ℚ) < 2 ^ e := zpow_pos (by norm_num) _
  have hmq : (2 : ℚ) ^ (p - 1) ≤ m := by exact_mod_cast hm
  have hpow : (0 : ℚ) < 2 ^ (p - 1) := by positivity
  have hx : 0 < (m : ℚ) * 2 ^ e + dt := by nlinarith
  have hlog : Int.log 2 |(m : ℚ) * 2 ^ e + dt| = (p : ℤ) - 1 + e := by
    rw [abs_of_pos hx]
    apply le_antisymm
    · have : Int.log 2 ((m : ℚ) * 2 ^ e + dt) < (p : ℤ) + e := by
        rw [← Int.lt_zpow_iff_log_lt (by norm_num) hx]
        push_cast
        rw [zpow_add₀ (by norm_num), zpow_natCast]; exact hhi
      omega
    · rw [← Int.zpow_le_iff_le_log (by norm_num) hx]
      have e1 : ((p : ℤ) - 1 + e) = ((p - 1 : ℕ) : ℤ) + e := by omega
      push_cast
      rw [e1, zpow_add₀ (by norm_num), zpow_natCast]
      nlinarith
  have hul : ulp p ((m : ℚ) * 2 ^ e + dt) = 2 ^ e := by
    unfold ulp; rw [hlog]; congr 1; ring
  unfold flBin
  rw [hul]
  have : roundEven (((m : ℚ) * 2 ^ e + dt) / 2 ^ e) = m + δ := by
    apply roundEven_close
    have e2 : ((m : ℚ) * 2 ^ e + dt) / 2 ^ e - ((m + δ : ℤ) : ℚ) = (dt - δ * 2 ^ e) / 2 ^ e := by
      push_cast; field_simp; ring
    rw [e2, abs_div, abs_of_pos hu, div_lt_iff₀ hu]
    linarith
  rw [this]

theorem tick_run {p : ℕ} (hp : 1 ≤ p) {dt : ℚ} (e : ℤ) (m δ : ℤ) (K : ℕ) (hdt : 0 ≤ dt) (hm : 2 ^ (p - 1) ≤ m)
    (hδ0 : 0 ≤ δ) (hhi : ((m + (K - 1) * δ : ℤ) : ℚ) * 2 ^ e + dt < 2 ^ p * 2 ^ e) (hδ : |dt - δ * 2 ^ e| < 2 ^ e / 2) :
    timesFl (flBin p) ((m : ℚ) * 2 ^ e) dt K = ((m + K * δ : ℤ) : ℚ) * 2 ^ e := by
  have hu : (0 : ℚ) < 2 ^ e := zpow_pos (by norm_num) _
  have key : ∀ k ≤ K, timesFl (flBin p) ((m : ℚ) * 2 ^ e) dt k = ((m + k * δ : ℤ) : ℚ) * 2 ^ e := by
    intro k
    induction k with
    | zero => intro _; simp [timesFl]
    | succ k ih =>
      intro hk
      rw [timesFl_succ, ih (by omega)]
      have hkK : (k : ℤ) ≤ K - 1 := by omega
      have h1 : (m + k * δ : ℤ) ≤ m + (K - 1) * δ := by nlinarith
      have h1q : ((m + k * δ : ℤ) : ℚ) ≤ ((m + (K - 1) * δ : ℤ) : ℚ) := by exact_mod_cast h1
      have h2 : (0 : ℤ) ≤ k * δ := mul_nonneg (by omega) hδ0
      rw [tick_one hp e (m + k * δ) δ hdt (by omega) (by nlinarith) hδ]
      push_cast; ring
  exact key K le_rfl

end Verif.SDE
