import Verif.Model.ExchangeFloat
import Verif.Lemmas.Exchange
import Mathlib.Tactic.Linarith
import Mathlib.Tactic.Ring
import Mathlib.Tactic.Positivity
import Mathlib.Tactic.FieldSimp
import Mathlib.Tactic.NormNum
import Mathlib.Algebra.Order.BigOperators.Group.Multiset
import Mathlib.Algebra.Order.BigOperators.Group.Finset

/-! Lemmas about rounded sums and the rounded exchange. -/

namespace Verif.Core

open Verif.Spec

/-! ### Rounding to `p` binary digits -/

theorem roundEven_abs (x : ℚ) : |(roundEven x : ℚ) - x| ≤ 1 / 2 := by
  unfold roundEven
  split_ifs with h1 h2
  · have := Int.floor_add_fract x
    rw [h1] at this
    rw [abs_le]; constructor <;> linarith
  · have := Int.floor_add_fract x
    rw [h1] at this
    push_cast
    rw [abs_le]; constructor <;> linarith
  · rw [abs_sub_comm]; exact abs_sub_round x

theorem roundEven_int (k : ℤ) : roundEven (k : ℚ) = k := by
  unfold roundEven
  rw [if_neg (by simp), round_intCast]

theorem ulp_pos (p : ℕ) (x : ℚ) : 0 < ulp p x := zpow_pos (by norm_num) _

theorem ulp_le (p : ℕ) {x : ℚ} (hx : x ≠ 0) : ulp p x ≤ 2 * (1 / 2) ^ p * |x| := by
  have h := Int.zpow_log_le_self (b := 2) (r := |x|) (by norm_num) (abs_pos.mpr hx)
  unfold ulp
  rw [zpow_add₀ (by norm_num), zpow_sub₀ (by norm_num), zpow_natCast, zpow_one, one_div, inv_pow]
  push_cast at h
  have hp : (0 : ℚ) < (2 : ℚ) ^ p := by positivity
  rw [div_mul_eq_mul_div, div_le_iff₀ hp]
  have : 2 * ((2 : ℚ) ^ p)⁻¹ * |x| * 2 ^ p = 2 * |x| := by field_simp
  rw [this]; linarith

theorem abs_lt_ulp (p : ℕ) (x : ℚ) : |x| < 2 ^ p * ulp p x := by
  have h := Int.lt_zpow_succ_log_self (b := 2) (by norm_num) |x|
  unfold ulp
  push_cast at h
  have : (2 : ℚ) ^ p * 2 ^ (Int.log 2 |x| - p + 1) = 2 ^ (Int.log 2 |x| + 1) := by
    rw [← zpow_natCast, ← zpow_add₀ (by norm_num)]; congr 1; ring
  rw [this]; exact h

/-- Relative error of rounding to `p` digits. -/
theorem flBin_rel (p : ℕ) (x : ℚ) : |flBin p x - x| ≤ (1 / 2) ^ p * |x| := by
  by_cases hx : x = 0
  · subst hx
    have : roundEven ((0 : ℚ) / ulp p 0) = 0 := by
      rw [zero_div]; exact_mod_cast roundEven_int 0
    rw [flBin, this]; simp
  · have hu := ulp_pos p x
    have h := roundEven_abs (x / ulp p x)
    have he : flBin p x - x = ((roundEven (x / ulp p x) : ℚ) - x / ulp p x) * ulp p x := by
      unfold flBin; rw [sub_mul, div_mul_cancel₀ _ hu.ne']
    rw [he, abs_mul, abs_of_pos hu]
    have h2 := ulp_le p hx
    nlinarith [mul_le_mul_of_nonneg_right h hu.le]

theorem flBin_of_div {p : ℕ} {x : ℚ} {k : ℤ} (h : x = k * ulp p x) : flBin p x = x := by
  unfold flBin
  have : x / ulp p x = k := by rw [div_eq_iff (ulp_pos p x).ne']; exact h
  rw [this, roundEven_int]; exact h.symm

/-- Numbers with at most `p` binary digits are not changed. -/
theorem flBin_fix {p : ℕ} (hp : 1 ≤ p) (k : ℤ) (q : ℤ) (hk : |k| ≤ 2 ^ p) :
    flBin p ((k : ℚ) * 2 ^ q) = k * 2 ^ q := by
  by_cases h0 : k = 0
  · subst h0
    apply flBin_of_div (k := 0); simp
  set x : ℚ := (k : ℚ) * 2 ^ q with hx
  have hq : (0 : ℚ) < 2 ^ q := zpow_pos (by norm_num) _
  have hk0 : (0 : ℚ) < |(k : ℚ)| := abs_pos.mpr (by exact_mod_cast h0)
  have hax : |x| = |(k : ℚ)| * 2 ^ q := by rw [hx, abs_mul, abs_of_pos hq]
  have hkq : |(k : ℚ)| ≤ 2 ^ p := by exact_mod_cast hk
  have hxpos : 0 < |x| := by rw [hax]; positivity
  have hlow := Int.zpow_log_le_self (b := 2) (r := |x|) (by norm_num) hxpos
  push_cast at hlow
  have hle : Int.log 2 |x| ≤ p + q := by
    have : (2 : ℚ) ^ Int.log 2 |x| ≤ 2 ^ ((p : ℤ) + q) := by
      rw [zpow_add₀ (by norm_num), zpow_natCast]
      refine hlow.trans ?_
      rw [hax]; gcongr
    exact (zpow_le_zpow_iff_right₀ (by norm_num)).mp this
  rcases lt_or_eq_of_le hle with hlt | heq
  · obtain ⟨m, hm⟩ : ∃ m : ℕ, q = (Int.log 2 |x| - p + 1) + m :=
      ⟨(q - (Int.log 2 |x| - p + 1)).toNat, by omega⟩
    apply flBin_of_div (k := k * 2 ^ m)
    have : (2 : ℚ) ^ q = ulp p x * 2 ^ m := by
      rw [hm, zpow_add₀ (by norm_num), zpow_natCast]; rfl
    push_cast
    have e : x = k * (2 : ℚ) ^ q := hx
    rw [this] at e
    linarith
  · have hge : (2 : ℚ) ^ p ≤ |(k : ℚ)| := by
      rw [heq, zpow_add₀ (by norm_num), zpow_natCast, hax] at hlow
      exact le_of_mul_le_mul_right hlow hq
    have habs : |(k : ℚ)| = 2 ^ p := le_antisymm hkq hge
    have hkz : |k| = 2 ^ p := by exact_mod_cast habs
    obtain ⟨r, rfl⟩ : ∃ r, p = r + 1 := ⟨p - 1, by omega⟩
    have hu : ulp (r + 1) x = 2 * 2 ^ q := by
      unfold ulp
      rw [heq, mul_comm, ← zpow_add_one₀ (by norm_num)]
      congr 1; push_cast; ring
    have hs : k = k.sign * 2 ^ (r + 1) := by
      conv_lhs => rw [← Int.sign_mul_abs k, hkz]
    apply flBin_of_div (k := k.sign * 2 ^ r)
    rw [hu, hx]
    conv_lhs => rw [hs]
    push_cast; ring

theorem flBin_idem {p : ℕ} (hp : 1 ≤ p) (x : ℚ) : flBin p (flBin p x) = flBin p x := by
  have hu := ulp_pos p x
  have hr := roundEven_abs (x / ulp p x)
  have hlt := abs_lt_ulp p x
  have hd : |x / ulp p x| < 2 ^ p := by
    rw [abs_div, abs_of_pos hu, div_lt_iff₀ hu]; exact hlt
  have hk : |roundEven (x / ulp p x)| ≤ 2 ^ p := by
    have h1 : |(roundEven (x / ulp p x) : ℚ)| < 2 ^ p + 1 := by
      have := abs_sub_abs_le_abs_sub (roundEven (x / ulp p x) : ℚ) (x / ulp p x)
      linarith
    have h2 : |roundEven (x / ulp p x)| < 2 ^ p + 1 := by exact_mod_cast h1
    omega
  exact flBin_fix hp (roundEven (x / ulp p x)) (Int.log 2 |x| - p + 1) hk

theorem flBin_int {p : ℕ} (hp : 1 ≤ p) {k : ℤ} (hk : |k| ≤ 2 ^ p) : flBin p (k : ℚ) = k := by
  have := flBin_fix hp k 0 hk
  simpa using this

/-- The first integer that is not representable is rounded down. -/
theorem flBin_tie {p : ℕ} (hp : 2 ≤ p) : flBin p ((2 : ℚ) ^ p + 1) = 2 ^ p := by
  obtain ⟨r, rfl⟩ : ∃ r, p = r + 2 := ⟨p - 2, by omega⟩
  have hlog : Int.log 2 |((2 : ℚ) ^ (r + 2) + 1)| = ((r + 2 : ℕ) : ℤ) := by
    rw [abs_of_pos (by positivity)]
    have : ((2 : ℚ) ^ (r + 2) + 1) = ((2 ^ (r + 2) + 1 : ℕ) : ℚ) := by push_cast; rfl
    rw [this, Int.log_natCast]
    congr 1
    rw [Nat.log_eq_iff (Or.inl (by omega))]
    have : 1 ≤ 2 ^ r := Nat.one_le_two_pow
    constructor
    · omega
    · rw [pow_succ 2 (r + 2), pow_succ, pow_succ]; omega
  have hu : ulp (r + 2) ((2 : ℚ) ^ (r + 2) + 1) = 2 := by
    unfold ulp; rw [hlog]; simp
  have hx : ((2 : ℚ) ^ (r + 2) + 1) / 2 = ((2 ^ (r + 1) : ℤ) : ℚ) + 1 / 2 := by
    push_cast; ring
  have hfl : ⌊((2 ^ (r + 1) : ℤ) : ℚ) + 1 / 2⌋ = 2 ^ (r + 1) := by
    rw [Int.floor_intCast_add]; norm_num
  unfold flBin
  rw [hu, hx]
  have : roundEven (((2 ^ (r + 1) : ℤ) : ℚ) + 1 / 2) = 2 ^ (r + 1) := by
    unfold roundEven
    rw [if_pos (by rw [Int.fract, hfl]; push_cast; ring), hfl, if_pos]
    exact ⟨2 ^ r, by ring⟩
  rw [this]; push_cast; ring

/-! ### Rounded sums -/

theorem RoundedSum.pos {fl : ℚ → ℚ} {M : Multiset ℚ} {s : ℚ} (h : RoundedSum fl M s) : 1 ≤ M.card := by
  induction h with
  | one a => simp
  | add _ _ h1 h2 => rw [Multiset.card_add]; omega

/-- Error of a rounded sum. -/
theorem RoundedSum.error {fl : ℚ → ℚ} {ε : ℚ} (hε : 0 ≤ ε) (hfl : ∀ x, |fl x - x| ≤ ε * |x|)
    {M : Multiset ℚ} {s : ℚ} (h : RoundedSum fl M s) :
    |s - M.sum| ≤ ((1 + ε) ^ (M.card - 1) - 1) * (M.map abs).sum := by
  induction h with
  | one a => simp
  | @add M M' a b ha hb iha ihb =>
    have hca := ha.pos
    have hcb := hb.pos
    have hAa : 0 ≤ (M.map abs).sum := Multiset.sum_nonneg (by simp only [Multiset.mem_map]; rintro x ⟨y, _, rfl⟩; exact abs_nonneg y)
    have hAb : 0 ≤ (M'.map abs).sum := Multiset.sum_nonneg (by simp only [Multiset.mem_map]; rintro x ⟨y, _, rfl⟩; exact abs_nonneg y)
    have hMa : |M.sum| ≤ (M.map abs).sum := M.abs_sum_le_sum_abs
    have hMb : |M'.sum| ≤ (M'.map abs).sum := M'.abs_sum_le_sum_abs
    rw [Multiset.sum_add, Multiset.map_add, Multiset.sum_add, Multiset.card_add]
    obtain ⟨n, hn⟩ : ∃ n, M.card + M'.card - 1 = n + 1 := ⟨M.card + M'.card - 2, by omega⟩
    have h1 : (1 + ε) ^ (M.card - 1) ≤ (1 + ε) ^ n := pow_le_pow_right₀ (by linarith) (by omega)
    have h2 : (1 + ε) ^ (M'.card - 1) ≤ (1 + ε) ^ n := pow_le_pow_right₀ (by linarith) (by omega)
    rw [hn, pow_succ]
    set G := (1 + ε) ^ n
    set A := (M.map abs).sum
    set B := (M'.map abs).sum
    have ea : |a - M.sum| ≤ (G - 1) * A := iha.trans (by gcongr)
    have eb : |b - M'.sum| ≤ (G - 1) * B := ihb.trans (by gcongr)
    have hab : |a + b| ≤ G * (A + B) := by
      have e1 := abs_add_le (a - M.sum) M.sum
      have e2 := abs_add_le (b - M'.sum) M'.sum
      have e3 := abs_add_le a b
      rw [sub_add_cancel] at e1 e2
      nlinarith
    have hf := hfl (a + b)
    have h3 : |fl (a + b) - (M.sum + M'.sum)| ≤ |fl (a + b) - (a + b)| + (|a - M.sum| + |b - M'.sum|) := by
      have : fl (a + b) - (M.sum + M'.sum) = (fl (a + b) - (a + b)) + ((a - M.sum) + (b - M'.sum)) := by ring
      rw [this]
      exact (abs_add_le _ _).trans (add_le_add le_rfl (abs_add_le _ _))
    have h4 : ε * |a + b| ≤ ε * (G * (A + B)) := mul_le_mul_of_nonneg_left hab hε
    nlinarith

theorem multiset_multiple {q : ℚ} (M : Multiset ℚ) (h : ∀ x ∈ M, ∃ k : ℤ, x = k * q) :
    ∃ k : ℤ, M.sum = k * q := by
  induction M using Multiset.induction_on with
  | empty => exact ⟨0, by simp⟩
  | cons a M ih =>
    obtain ⟨k1, h1⟩ := h a (by simp)
    obtain ⟨k2, h2⟩ := ih (fun x hx => h x (by simp [hx]))
    exact ⟨k1 + k2, by rw [Multiset.sum_cons, h1, h2]; push_cast; ring⟩

theorem multiset_abs_nonneg (M : Multiset ℚ) : 0 ≤ (M.map abs).sum :=
  Multiset.sum_nonneg (by simp only [Multiset.mem_map]; rintro x ⟨y, _, rfl⟩; exact abs_nonneg y)

/-- A multiple of the unit `q` of size at most `K * q` is not changed by the rounding. -/
theorem fix_of_multiple {fl : ℚ → ℚ} {q : ℚ} (hq : 0 < q) {K : ℤ}
    (hfl : ∀ k : ℤ, |k| ≤ K → fl (k * q) = k * q) {x : ℚ} (h : ∃ k : ℤ, x = k * q) (hx : |x| ≤ K * q) :
    fl x = x := by
  obtain ⟨k, rfl⟩ := h
  apply hfl
  rw [abs_mul, abs_of_pos hq] at hx
  exact_mod_cast le_of_mul_le_mul_right hx hq

/-- A rounded sum of small multiples of a unit is exact. -/
theorem RoundedSum.exact {fl : ℚ → ℚ} {q : ℚ} (hq : 0 < q) {K : ℤ}
    (hfl : ∀ k : ℤ, |k| ≤ K → fl (k * q) = k * q)
    {M : Multiset ℚ} {s : ℚ} (h : RoundedSum fl M s) (hM : ∀ x ∈ M, ∃ k : ℤ, x = k * q)
    (hK : (M.map abs).sum ≤ K * q) : s = M.sum := by
  induction h with
  | one a => simp
  | @add M M' a b ha hb iha ihb =>
    have n1 := multiset_abs_nonneg M
    have n2 := multiset_abs_nonneg M'
    have hall := multiset_multiple _ hM
    have habs : |(M + M').sum| ≤ K * q := (M + M').abs_sum_le_sum_abs.trans hK
    rw [Multiset.map_add, Multiset.sum_add] at hK
    rw [iha (fun x hx => hM x (by simp [hx])) (by linarith), ihb (fun x hx => hM x (by simp [hx])) (by linarith),
      ← Multiset.sum_add]
    exact fix_of_multiple hq hfl hall habs

theorem roundedSum_foldl {fl : ℚ → ℚ} (l : List ℚ) (M : Multiset ℚ) (a : ℚ) (h : RoundedSum fl M a) :
    RoundedSum fl (M + (l : Multiset ℚ)) (l.foldl (fun s x => fl (s + x)) a) := by
  induction l generalizing M a with
  | nil => simpa using h
  | cons x l ih =>
    have := ih (M + {x}) (fl (a + x)) (RoundedSum.add h (RoundedSum.one x))
    rw [List.foldl_cons]
    convert this using 1
    rw [add_assoc]; rfl

theorem roundedSum_left {fl : ℚ → ℚ} {l : List ℚ} (h : l ≠ []) : RoundedSum fl (l : Multiset ℚ) (sumLeft fl l) := by
  cases l with
  | nil => exact absurd rfl h
  | cons a l => exact roundedSum_foldl l {a} a (RoundedSum.one a)

/-! ### Scatter-add with rounding -/

theorem foldl_no_effect {fl : ℚ → ℚ} {N j : ℕ} (L : List (ℤ × ℚ)) (b : ℚ) (hb : fl b = b)
    (h : ∀ e ∈ L, writePos N e.1 = some j → e.2 = 0) :
    L.foldl (fun b e => if writePos N e.1 = some j then fl (b + e.2) else b) b = b := by
  induction L with
  | nil => rfl
  | cons e L ih =>
    rw [List.foldl_cons]
    by_cases hw : writePos N e.1 = some j
    · rw [if_pos hw, h e (by simp) hw, add_zero, hb]
      exact ih (fun e he => h e (by simp [he]))
    · rw [if_neg hw]
      exact ih (fun e he => h e (by simp [he]))

/-- One effective update at position `j`, among updates elsewhere and updates by zero. -/
theorem atAddFl_hit {fl : ℚ → ℚ} (hid : ∀ x, fl (fl x) = fl x) {N j : ℕ} {base : ℕ → ℚ} (hb : fl (base j) = base j)
    (L1 L2 : List (ℤ × ℚ)) (e : ℤ × ℚ) (he : writePos N e.1 = some j)
    (h1 : ∀ e ∈ L1, writePos N e.1 = some j → e.2 = 0) (h2 : ∀ e ∈ L2, writePos N e.1 = some j → e.2 = 0) :
    atAddFl fl N base (L1 ++ e :: L2) j = fl (base j + e.2) := by
  unfold atAddFl
  rw [List.foldl_append, foldl_no_effect L1 _ hb h1, List.foldl_cons, if_pos he,
    foldl_no_effect L2 _ (hid _) h2]

theorem atAddFl_miss {fl : ℚ → ℚ} {N j : ℕ} {base : ℕ → ℚ} (hb : fl (base j) = base j)
    (L : List (ℤ × ℚ)) (h : ∀ e ∈ L, writePos N e.1 = some j → e.2 = 0) :
    atAddFl fl N base L j = base j := foldl_no_effect L _ hb h

/-! ### One copy -/

theorem copy_error {fl : ℚ → ℚ} {ε : ℚ} (hε : 0 ≤ ε) (hfl : ∀ x, |fl x - x| ≤ ε * |x|) {M : Multiset ℚ}
    {s : ℚ} (h : RoundedSum fl M s) {a : ℚ} (ha : |a| ≤ (M.map abs).sum) :
    |fl (a + fl (s - a)) - s| ≤ ((1 + ε) * (1 + 2 * ε) - 1) * (1 + ε) ^ (M.card - 1) * (M.map abs).sum ∧
    |fl (a + fl (s - a)) - M.sum| ≤ ((1 + ε) ^ M.card * (1 + 2 * ε) - 1) * (M.map abs).sum := by
  have hs := h.error hε hfl
  have hpos := h.pos
  have hG : 1 ≤ (1 + ε) ^ (M.card - 1) := one_le_pow₀ (by linarith)
  have hGs : (1 + ε) ^ M.card = (1 + ε) ^ (M.card - 1) * (1 + ε) := by
    rw [← pow_succ]; congr 1; omega
  have hA := multiset_abs_nonneg M
  have hM := M.abs_sum_le_sum_abs
  rw [hGs]
  set G := (1 + ε) ^ (M.card - 1)
  set A := (M.map abs).sum
  have hsA : |s| ≤ G * A := by
    have := abs_add_le (s - M.sum) M.sum
    rw [sub_add_cancel] at this
    nlinarith
  have h1 := hfl (s - a)
  have h2 := hfl (a + fl (s - a))
  have h3 : |s - a| ≤ G * A + A := (abs_sub s a).trans (add_le_add hsA ha)
  have h4 : |a + fl (s - a)| ≤ |s| + |fl (s - a) - (s - a)| := by
    have : a + fl (s - a) = s + (fl (s - a) - (s - a)) := by ring
    rw [this]; exact abs_add_le _ _
  have h5 : |fl (a + fl (s - a)) - s| ≤ |fl (a + fl (s - a)) - (a + fl (s - a))| + |fl (s - a) - (s - a)| := by
    have : fl (a + fl (s - a)) - s = (fl (a + fl (s - a)) - (a + fl (s - a))) + (fl (s - a) - (s - a)) := by ring
    rw [this]; exact abs_add_le _ _
  have hAG : A ≤ G * A := by nlinarith
  have h6 : |fl (s - a) - (s - a)| ≤ ε * (2 * (G * A)) :=
    h1.trans (mul_le_mul_of_nonneg_left (by linarith) hε)
  have h7 : |fl (a + fl (s - a)) - (a + fl (s - a))| ≤ ε * (G * A + ε * (2 * (G * A))) :=
    h2.trans (mul_le_mul_of_nonneg_left (by linarith) hε)
  have h8 : |fl (a + fl (s - a)) - s| ≤ ((1 + ε) * (1 + 2 * ε) - 1) * G * A := by nlinarith
  refine ⟨h8, ?_⟩
  have h9 : |fl (a + fl (s - a)) - M.sum| ≤ |fl (a + fl (s - a)) - s| + |s - M.sum| := by
    have : fl (a + fl (s - a)) - M.sum = (fl (a + fl (s - a)) - s) + (s - M.sum) := by ring
    rw [this]; exact abs_add_le _ _
  nlinarith

theorem copy_exact {fl : ℚ → ℚ} {q : ℚ} (hq : 0 < q) {K : ℤ}
    (hfl : ∀ k : ℤ, |k| ≤ K → fl (k * q) = k * q)
    {M : Multiset ℚ} {s : ℚ} (h : RoundedSum fl M s) (hM : ∀ x ∈ M, ∃ k : ℤ, x = k * q)
    (hK : (M.map abs).sum ≤ K * q) {a : ℚ} (ha : a ∈ M) : fl (a + fl (s - a)) = M.sum := by
  have hs := h.exact hq hfl hM hK
  obtain ⟨M', rfl⟩ := Multiset.exists_cons_of_mem ha
  have h1 : s - a = M'.sum := by rw [hs, Multiset.sum_cons]; ring
  have h2 : fl (s - a) = s - a := by
    rw [h1]
    refine fix_of_multiple hq hfl (multiset_multiple M' (fun x hx => hM x (by simp [hx]))) ?_
    refine M'.abs_sum_le_sum_abs.trans (le_trans ?_ hK)
    rw [Multiset.map_cons, Multiset.sum_cons]
    linarith [abs_nonneg a]
  rw [h2]
  have h3 : a + (s - a) = (a ::ₘ M').sum := by rw [← hs]; ring
  rw [h3]
  exact fix_of_multiple hq hfl (multiset_multiple _ hM) (Multiset.abs_sum_le_sum_abs.trans hK)

/-! ### The unpartitioned exchange -/

/-- The values held by the copies of node `x`. -/
def copyValues (N : ℕ) (node : ℕ → ℤ) (u : ℕ → ℚ) (x : ℤ) : List ℚ :=
  ((List.range N).filter (fun k => node k = x)).map u

theorem scatterTerms_eq (N : ℕ) (node : ℕ → ℤ) (u : ℕ → ℚ) {j : ℕ}
    (hjx : node j ∈ indicesToExchange ((List.range N).map node)) :
    scatterTerms (exchangeIndices N node).2 (initialValues N u (exchangeIndices N node).1)
      ((indicesToExchange ((List.range N).map node)).idxOf (node j)) = 0 :: copyValues N node u (node j) := by
  have hgi : (exchangeIndices N node).1 = ((List.range N).filter
      (fun p => node p ∈ indicesToExchange ((List.range N).map node))).map (fun p : ℕ => (p : ℤ)) := rfl
  have hui : (exchangeIndices N node).2 = ((List.range N).filter
      (fun p => node p ∈ indicesToExchange ((List.range N).map node))).map
      (fun p => (indicesToExchange ((List.range N).map node)).idxOf (node p)) := rfl
  rw [hgi, hui]
  generalize indicesToExchange ((List.range N).map node) = ex at hjx ⊢
  have hinit : initialValues N u (((List.range N).filter (fun p => node p ∈ ex)).map (fun p : ℕ => (p : ℤ))) =
      ((List.range N).filter (fun p => node p ∈ ex)).map u := by
    unfold initialValues
    rw [List.map_map]
    apply List.map_congr_left
    intro p hp
    simp only [List.mem_filter, List.mem_range] at hp
    simp only [Function.comp]
    rw [maskOf_natCast, readPos_natCast hp.1, one_mul]
  rw [hinit]
  unfold scatterTerms copyValues
  rw [List.zip_map', List.filter_map, List.map_map, List.filter_filter]
  congr 1
  have : (List.range N).filter (fun a => ((fun e : ℕ × ℚ => decide (e.1 = ex.idxOf (node j))) ∘
      fun a => (ex.idxOf (node a), u a)) a && decide (node a ∈ ex)) =
      (List.range N).filter (fun k => node k = node j) := by
    apply List.filter_congr
    intro k _
    simp only [Function.comp]
    rw [Bool.eq_iff_iff]
    simp only [Bool.and_eq_true, decide_eq_true_eq]
    constructor
    · rintro ⟨h1, _⟩; exact idxOf_inj_of_mem hjx h1
    · intro h; exact ⟨by rw [h], by rw [h]; exact hjx⟩
  rw [this]
  rfl

theorem exchangeFl_apply {fl : ℚ → ℚ} (hid : ∀ x, fl (fl x) = fl x) (N : ℕ) (node : ℕ → ℤ) (u : ℕ → ℚ)
    (updates : ℕ → ℚ) {j : ℕ} (hj : j < N) (hrep : fl (u j) = u j) :
    exchangeFl fl N u (exchangeIndices N node).1 (exchangeIndices N node).2 updates j =
      if node j ∈ indicesToExchange ((List.range N).map node) then
        fl (u j + fl (updates ((indicesToExchange ((List.range N).map node)).idxOf (node j)) - u j)) else u j := by
  have hgi : (exchangeIndices N node).1 = ((List.range N).filter
      (fun p => node p ∈ indicesToExchange ((List.range N).map node))).map (fun p : ℕ => (p : ℤ)) := rfl
  have hui : (exchangeIndices N node).2 = ((List.range N).filter
      (fun p => node p ∈ indicesToExchange ((List.range N).map node))).map
      (fun p => (indicesToExchange ((List.range N).map node)).idxOf (node p)) := rfl
  rw [hgi, hui]
  generalize indicesToExchange ((List.range N).map node) = ex
  generalize hpos : (List.range N).filter (fun p => node p ∈ ex) = pos
  have hmem : ∀ p, p ∈ pos ↔ p < N ∧ node p ∈ ex := by
    intro p; rw [← hpos]; simp
  have hnd : pos.Nodup := by rw [← hpos]; exact List.nodup_range.filter _
  unfold exchangeFl
  by_cases hempty : pos = []
  · subst hempty
    have hn : node j ∉ ex := fun h => by simpa using (hmem j).mpr ⟨hj, h⟩
    simp [hn]
  have hne : (pos.map (fun p : ℕ => (p : ℤ))).isEmpty = false := by
    cases pos with
    | nil => exact absurd rfl hempty
    | cons a b => rfl
  rw [hne]
  simp only [Bool.false_eq_true, if_false]
  have hL : (((pos.map (fun p : ℕ => (p : ℤ))).zip (((pos.map (fun p => ex.idxOf (node p))).map updates).zip
      (initialValues N u (pos.map (fun p : ℕ => (p : ℤ)))))).map
      (fun e => (e.1, (maskOf e.1 * fl (e.2.1 - e.2.2) : ℚ)))) =
      pos.map (fun p : ℕ => ((p : ℤ), fl (updates (ex.idxOf (node p)) - u p))) := by
    unfold initialValues
    simp only [List.map_map, List.zip_map']
    apply List.map_congr_left
    intro p hp
    simp only [Function.comp]
    rw [maskOf_natCast, readPos_natCast ((hmem p).mp hp).1, one_mul, one_mul]
  rw [hL]
  by_cases hjx : node j ∈ ex
  · rw [if_pos hjx]
    obtain ⟨l1, l2, hl⟩ := List.append_of_mem ((hmem j).mpr ⟨hj, hjx⟩)
    have hmiss : ∀ l : List ℕ, (∀ p ∈ l, p ∈ pos ∧ p ≠ j) →
        ∀ e ∈ l.map (fun p : ℕ => ((p : ℤ), fl (updates (ex.idxOf (node p)) - u p))),
        writePos N e.1 = some j → e.2 = 0 := by
      intro l hl e he hw
      obtain ⟨p, hp, rfl⟩ := List.mem_map.mp he
      simp only at hw
      rw [writePos_natCast ((hmem p).mp (hl p hp).1).1, Option.some.injEq] at hw
      exact absurd hw (hl p hp).2
    rw [hl] at hnd
    have hnd' := List.nodup_append.mp hnd
    rw [hl, List.map_append, List.map_cons]
    refine atAddFl_hit hid hrep _ _ _ (writePos_natCast hj) (hmiss l1 ?_) (hmiss l2 ?_)
    · intro p hp
      exact ⟨by rw [hl]; simp [hp], hnd'.2.2 p hp j (by simp)⟩
    · intro p hp
      refine ⟨by rw [hl]; simp [hp], ?_⟩
      rintro rfl
      exact (List.nodup_cons.mp hnd'.2.1).1 hp
  · rw [if_neg hjx]
    apply atAddFl_miss hrep
    intro e he hw
    obtain ⟨p, hp, rfl⟩ := List.mem_map.mp he
    simp only at hw
    rw [writePos_natCast ((hmem p).mp hp).1, Option.some.injEq] at hw
    exact absurd (hw ▸ ((hmem p).mp hp).2) hjx

theorem copyValues_sum (N : ℕ) (node : ℕ → ℤ) (u : ℕ → ℚ) (j : ℕ) :
    (copyValues N node u (node j)).sum = copiesSum N node u j := by
  unfold copyValues copiesSum
  rw [sum_map_filter_range, Finset.sum_filter]
  simp

theorem copyValues_length (N : ℕ) (node : ℕ → ℤ) (u : ℕ → ℚ) (x : ℤ) :
    (copyValues N node u x).length = ((Finset.range N).filter (fun k => node k = x)).card := by
  unfold copyValues
  rw [List.length_map, ← count_map_range, List.count, List.countP_map, List.countP_eq_length_filter]
  congr 1

/-! ### The partitioned exchange -/

theorem psumTerms_sum {P N : ℕ} {node : ℕ → ℕ → ℤ} (h : NoRepeats P N node) (u : ℕ → ℕ → ℚ)
    {ex : List ℤ} (hex : ex = indicesToExchange (flattenNodes P N node)) {g : ℕ → ℕ → ℤ}
    (hg : ∀ p < P, (∀ i < N, node p i ∈ ex → g p (ex.idxOf (node p i)) = (i : ℤ)) ∧
        (∀ k, g p k = -1 ∨ ∃ i < N, node p i ∈ ex ∧ k = ex.idxOf (node p i)))
    {x : ℤ} (hx : x ∈ ex) : (psumTerms P N g u (ex.idxOf x)).sum = holdersSum P N node u x := by
  have hinit : ∀ q < P, (maskOf (g q (ex.idxOf x)) * u q (readPos N (g q (ex.idxOf x))) : ℚ) =
      ∑ i ∈ Finset.range N, if node q i = x then u q i else 0 := by
    intro q hq
    by_cases hex2 : ∃ i < N, node q i = x
    · obtain ⟨i, hi, rfl⟩ := hex2
      rw [(hg q hq).1 i hi hx, maskOf_natCast, readPos_natCast hi, one_mul, Finset.sum_eq_single i]
      · simp
      · intro b hb hbi
        rw [if_neg]
        intro he
        have hs : node q i ≠ -1 := by rw [hex] at hx; exact (mem_indicesToExchange.mp hx).1
        exact hbi (h q hq b (Finset.mem_range.mp hb) i hi he (he ▸ hs))
      · intro hn; exact absurd (Finset.mem_range.mpr hi) hn
    · have hneg : g q (ex.idxOf x) = -1 := by
        rcases (hg q hq).2 (ex.idxOf x) with h' | ⟨i, hi, h2, h3⟩
        · exact h'
        · exact absurd ⟨i, hi, (idxOf_inj_of_mem h2 h3).symm⟩ hex2
      rw [hneg, maskOf_sentinel, zero_mul, Finset.sum_eq_zero]
      intro i hi
      rw [if_neg]
      intro he
      exact hex2 ⟨i, Finset.mem_range.mp hi, he⟩
  unfold psumTerms holdersSum
  rw [sum_map_range, Finset.sum_filter, Finset.sum_product]
  exact Finset.sum_congr rfl (fun q hq => hinit q (Finset.mem_range.mp hq))

theorem psumTerms_abs (P N : ℕ) (g : ℕ → ℕ → ℤ) (u : ℕ → ℕ → ℚ) (k : ℕ) :
    (psumTerms P N g u k).map abs = psumTerms P N g (fun p i => |u p i|) k := by
  unfold psumTerms
  rw [List.map_map]
  apply List.map_congr_left
  intro p _
  simp only [Function.comp]
  unfold maskOf
  split_ifs <;> simp

/-- Every term is zero or the value of a holder. -/
theorem psumTerms_mem {P N : ℕ} {node : ℕ → ℕ → ℤ} (u : ℕ → ℕ → ℚ)
    {ex : List ℤ} {g : ℕ → ℕ → ℤ}
    (hg : ∀ p < P, (∀ i < N, node p i ∈ ex → g p (ex.idxOf (node p i)) = (i : ℤ)) ∧
        (∀ k, g p k = -1 ∨ ∃ i < N, node p i ∈ ex ∧ k = ex.idxOf (node p i)))
    {x : ℤ} {y : ℚ} (hy : y ∈ psumTerms P N g u (ex.idxOf x)) :
    y = 0 ∨ ∃ p < P, ∃ i < N, node p i = x ∧ y = u p i := by
  unfold psumTerms at hy
  obtain ⟨p, hp, rfl⟩ := List.mem_map.mp hy
  rw [List.mem_range] at hp
  rcases (hg p hp).2 (ex.idxOf x) with h' | ⟨i, hi, h2, h3⟩
  · left; rw [h', maskOf_sentinel, zero_mul]
  · right
    have hx : x = node p i := idxOf_inj_of_mem h2 h3
    refine ⟨p, hp, i, hi, hx.symm, ?_⟩
    rw [h3, (hg p hp).1 i hi h2, maskOf_natCast, readPos_natCast hi, one_mul]

theorem exchangePartFl_apply {fl : ℚ → ℚ} (hid : ∀ x, fl (fl x) = fl x) {P N : ℕ} {node : ℕ → ℕ → ℤ}
    (u : ℕ → ℕ → ℚ) (updates : ℕ → ℚ) {ex : List ℤ} {g : ℕ → ℕ → ℤ}
    (hg : ∀ p < P, (∀ i < N, node p i ∈ ex → g p (ex.idxOf (node p i)) = (i : ℤ)) ∧
        (∀ k, g p k = -1 ∨ ∃ i < N, node p i ∈ ex ∧ k = ex.idxOf (node p i)))
    {p j : ℕ} (hp : p < P) (hj : j < N) (hrep : fl (u p j) = u p j) :
    exchangePartFl fl N ex.length g u updates p j =
      if node p j ∈ ex then fl (u p j + fl (updates (ex.idxOf (node p j)) - u p j)) else u p j := by
  unfold exchangePartFl
  by_cases hK : ex.length = 0
  · rw [if_pos hK, if_neg]
    rw [List.length_eq_zero_iff.mp hK]; simp
  rw [if_neg hK]
  set F : ℕ → ℤ × ℚ := fun k =>
    (g p k, maskOf (g p k) * fl (updates k - maskOf (g p k) * u p (readPos N (g p k)))) with hF
  have hmiss : ∀ l : List ℕ, (node p j ∈ ex → ∀ k ∈ l, k ≠ ex.idxOf (node p j)) →
      ∀ e ∈ l.map F, writePos N e.1 = some j → e.2 = 0 := by
    intro l hl e he hw
    obtain ⟨k, hk, rfl⟩ := List.mem_map.mp he
    rcases (hg p hp).2 k with h' | ⟨i, hi, h2, rfl⟩
    · simp only [hF]; rw [h', maskOf_sentinel, zero_mul]
    · simp only [hF] at hw
      rw [(hg p hp).1 i hi h2, writePos_natCast hi, Option.some.injEq] at hw
      subst hw
      exact absurd rfl (hl h2 _ hk)
  by_cases hjx : node p j ∈ ex
  · rw [if_pos hjx]
    have hlt : ex.idxOf (node p j) < ex.length := List.idxOf_lt_length_iff.mpr hjx
    obtain ⟨l1, l2, hl⟩ := List.append_of_mem (List.mem_range.mpr hlt)
    have hnd : (List.range ex.length).Nodup := List.nodup_range
    rw [hl] at hnd
    have hnd' := List.nodup_append.mp hnd
    have hFj : F (ex.idxOf (node p j)) = ((j : ℤ), fl (updates (ex.idxOf (node p j)) - u p j)) := by
      simp only [hF]
      rw [(hg p hp).1 j hj hjx, maskOf_natCast, readPos_natCast hj, one_mul, one_mul]
    rw [hl, List.map_append, List.map_cons]
    have := atAddFl_hit (fl := fl) (N := N) (j := j) (base := u p) hid hrep (l1.map F) (l2.map F)
      (F (ex.idxOf (node p j))) (by rw [hFj]; exact writePos_natCast hj)
      (hmiss l1 (fun _ k hk => hnd'.2.2 k hk _ (by simp)))
      (hmiss l2 (fun _ k hk h => (List.nodup_cons.mp hnd'.2.1).1 (h ▸ hk)))
    rw [this, hFj]
  · rw [if_neg hjx]
    exact atAddFl_miss hrep _ (hmiss _ (fun h => absurd h hjx))

end Verif.Core
