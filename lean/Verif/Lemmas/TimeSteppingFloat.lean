import Verif.Model.TimeSteppingFloat
import Verif.Lemmas.InterpFloat
import Verif.Props.C36_C37
import Mathlib.Algebra.Order.Ring.Pow

/-! Lemmas for C142. -/

namespace Verif.Core

open Polynomial

variable {fl : ℚ → ℚ} {ε : ℚ}

/-- `evaluate` with computed nodes and point, in terms of the relative errors of the computed differences. -/
theorem evaluateFl_diff {n r : ℕ} (hε : 0 ≤ ε) (hfl : ∀ x, |fl x - x| ≤ ε * |x|) (w nodes nodes' : Fin n → ℚ)
    (hw : TrueWeights w nodes) (hnodes : Function.Injective nodes) (x x' : ℚ) (hx : ∀ k, x ≠ nodes k)
    (hr : (1 + ε) ^ r - 1 ≤ 1 / 2)
    (hd : ∀ j, |fl (x' - nodes' j) - (x - nodes j)| ≤ ((1 + ε) ^ r - 1) * |x - nodes j|)
    (hsmall : 2 * (((1 + ε) ^ (n + (2 * r + 1)) - 1) * ∑ j, |(Lagrange.basis Finset.univ nodes j).eval x|) ≤ 1)
    (i : Fin n) :
    ∃ v, evaluateFl fl w nodes' x' i = .fin v ∧
      |v - (Lagrange.basis Finset.univ nodes i).eval x| ≤
        ((1 + ε) ^ (2 * r + 2) * (1 + 2 * (((1 + ε) ^ (n + (2 * r + 1)) - 1) *
          ∑ j, |(Lagrange.basis Finset.univ nodes j).eval x|)) - 1) * |(Lagrange.basis Finset.univ nodes i).eval x| := by
  have hfl0 : fl 0 = 0 := by
    have := hfl 0
    simpa using this
  have hr1 : (1 : ℚ) ≤ (1 + ε) ^ r := one_le_pow₀ (by linarith)
  have hd0 : ∀ j, fl (x' - nodes' j) ≠ 0 := fun j => rel_ne (by linarith) (sub_ne_zero.mpr (hx j)) (hd j)
  have hx' : ∀ j, x' ≠ nodes' j := fun j hj => hd0 j (by rw [hj, sub_self, hfl0])
  have hterm : ∀ j, ∃ t, baryTermFl fl w nodes' x' j = .fin t ∧
      |t - w j / (x - nodes j)| ≤ ((1 + ε) ^ (2 * r + 1) - 1) * |w j / (x - nodes j)| := by
    intro j
    refine ⟨fl (w j / fl (x' - nodes' j)), by simp [baryTermFl, Ext.div, hd0 j, Ext.round], ?_⟩
    have h1 := rel_inv hr (sub_ne_zero.mpr (hx j)) (hd j)
    have h2 := rel_mul (v := w j) (x := w j) (a := 0) le_rfl (by simp) h1
    have h3 := rel_fl hε hfl h2
    rw [div_eq_mul_inv, div_eq_mul_inv]
    refine rel_mono ?_ h3
    have e : (1 + ε) ^ (2 * r + 1) = ((1 + ε) ^ r) ^ 2 * (1 + ε) := by ring
    rw [e]
    have h4 : 1 + 2 * ((1 + ε) ^ r - 1) ≤ ((1 + ε) ^ r) ^ 2 := two_le_sq
    nlinarith [mul_le_mul_of_nonneg_right h4 (by linarith : 0 ≤ 1 + ε)]
  choose t ht hterr using hterm
  obtain ⟨hD, hb⟩ := bary_basis w nodes hw hnodes x hx i
  set D := ∑ j, w j / (x - nodes j) with hDdef
  have hlam : (∑ j, |(Lagrange.basis Finset.univ nodes j).eval x|) * |D| = ∑ j, |w j / (x - nodes j)| := by
    rw [Finset.sum_mul]
    refine Finset.sum_congr rfl fun j _ => ?_
    rw [(bary_basis w nodes hw hnodes x hx j).2, ← hDdef, ← abs_mul, div_mul_cancel₀ _ hD]
  obtain ⟨S, hS⟩ : ∃ S, S = ((List.finRange n).map t).foldl (fun s x => fl (s + x)) 0 := ⟨_, rfl⟩
  have hsum : Ext.sumFl fl ((List.finRange n).map (baryTermFl fl w nodes' x')) = .fin S := by
    unfold Ext.sumFl
    have : (List.finRange n).map (baryTermFl fl w nodes' x') = ((List.finRange n).map t).map Ext.fin := by
      rw [List.map_map]
      exact List.map_congr_left fun j _ => ht j
    rw [this, sumFl_fin, hS]
  have hSerr : |S - D| ≤ ((1 + ε) ^ (n + (2 * r + 1)) - 1) * (∑ j, |(Lagrange.basis Finset.univ nodes j).eval x|) * |D| := by
    have h1 := roundedSum_foldl (fl := fl) ((List.finRange n).map t) {0} 0 (RoundedSum.one 0)
    rw [← hS] at h1
    have h2 := sum_error hε hfl (fun j => w j / (x - nodes j)) t hterr h1 (by simp [add_comm])
      (by simp [Fin.sum_univ_def]) (by simp [Fin.sum_univ_def, Function.comp_def]) hDdef
    rw [mul_assoc, hlam]
    exact h2
  set lam := ∑ j, |(Lagrange.basis Finset.univ nodes j).eval x| with hlamdef
  have hS0 : S ≠ 0 := rel_ne (by linarith) hD hSerr
  refine ⟨fl (t i / S), ?_, ?_⟩
  · unfold evaluateFl
    rw [if_neg (hx' i), hsum, ht i]
    simp [Ext.div, hS0, Ext.round]
  · rw [hb]
    have hp3 : (1 : ℚ) ≤ (1 + ε) ^ (2 * r + 1) := one_le_pow₀ (by linarith)
    have h1 := rel_mul (by linarith) (hterr i) (rel_inv (by linarith) hD hSerr)
    have h2 := rel_fl hε hfl h1
    rw [div_eq_mul_inv, div_eq_mul_inv (w i / _)]
    refine rel_mono (le_of_eq ?_) h2
    ring

/-- A rounded sum of zeros and at most one other number. -/
theorem RoundedSum.single {d : ℚ} (h0 : fl 0 = 0) (hd : fl d = d) {M : Multiset ℚ} {s : ℚ} (h : RoundedSum fl M s)
    (h1 : ∀ x ∈ M, x = 0 ∨ x = d) (h2 : (M.filter (· ≠ 0)).card ≤ 1) :
    s = M.sum ∧ (s = 0 ∨ s = d) ∧ ((M.filter (· ≠ 0)).card = 0 → s = 0) := by
  induction h with
  | one a =>
    refine ⟨by simp, h1 a (by simp), fun h => ?_⟩
    by_contra hc
    rw [Multiset.filter_singleton, if_pos hc] at h
    simp at h
  | @add M M' a b ha hb iha ihb =>
    rw [Multiset.filter_add, Multiset.card_add] at h2
    obtain ⟨a1, a2, a3⟩ := iha (fun x hx => h1 x (Multiset.mem_add.mpr (Or.inl hx))) (by omega)
    obtain ⟨b1, b2, b3⟩ := ihb (fun x hx => h1 x (Multiset.mem_add.mpr (Or.inr hx))) (by omega)
    have hfix : ∀ y, y = 0 ∨ y = d → fl y = y := by
      rintro y (rfl | rfl)
      · exact h0
      · exact hd
    rw [Multiset.sum_add, ← a1, ← b1, Multiset.filter_add, Multiset.card_add]
    rcases Nat.eq_zero_or_pos (M.filter (· ≠ 0)).card with hz | hz
    · have := a3 hz
      rw [this, zero_add, hfix b b2]
      exact ⟨rfl, b2, fun h => b3 (by omega)⟩
    · have := b3 (by omega)
      rw [this, add_zero, hfix a a2]
      exact ⟨rfl, a2, fun h => a3 (by omega)⟩

end Verif.Core

namespace Verif.NS

open Verif.Core

variable {fl : ℚ → ℚ} {ε : ℚ}

theorem ncNode_eq {k : ℕ} (i : Fin (k + 1)) : (ncNode (k + 1) i : ℚ) = -1 + (i : ℕ) * (2 / (k : ℚ)) := by
  simp [ncNode]

/-- Computed nodes are exact up to six rounding errors. -/
theorem linspaceFl_error (hε : 0 ≤ ε) (hε8 : ε ≤ 1 / 8) (hfl : ∀ x, |fl x - x| ≤ ε * |x|) {k : ℕ} (hk : 1 ≤ k)
    (i : Fin (k + 1)) : |linspaceFl fl k i - ncNode (k + 1) i| ≤ 6 * ε := by
  have hk' : (1 : ℚ) ≤ k := by exact_mod_cast hk
  have hk0 : (k : ℚ) ≠ 0 := by linarith
  unfold linspaceFl
  rw [ncNode_eq]
  split_ifs with hi
  · subst hi
    rw [Fin.val_last]
    have : (1 : ℚ) - (-1 + (k : ℚ) * (2 / k)) = 0 := by field_simp; ring
    rw [this, abs_zero]; linarith
  · obtain ⟨a, ha⟩ : ∃ a : ℚ, a = (i : ℕ) * (2 / (k : ℚ)) := ⟨_, rfl⟩
    have ha0 : 0 ≤ a := by rw [ha]; positivity
    have ha2 : a ≤ 2 := by
      rw [ha]
      have : ((i : ℕ) : ℚ) ≤ k := by exact_mod_cast Nat.lt_succ_iff.mp i.2
      calc ((i : ℕ) : ℚ) * (2 / k) ≤ k * (2 / k) := mul_le_mul_of_nonneg_right this (by positivity)
        _ = 2 := by field_simp
    have h1 := rel_mul (v := ((i : ℕ) : ℚ)) (x := ((i : ℕ) : ℚ)) (a := 0) le_rfl (by simp) (hfl (2 / (k : ℚ)))
    have h2 := rel_fl hε hfl h1
    rw [← ha, abs_of_nonneg ha0] at h2
    obtain ⟨b, hb⟩ : ∃ b, b = fl (((i : ℕ) : ℚ) * fl (2 / (k : ℚ))) := ⟨_, rfl⟩
    rw [← hb] at h2 ⊢
    rw [← ha]
    have h3 := hfl (b + -1)
    have h2' : |b - a| ≤ 2 * ((1 + ε) * (1 + ε) - 1) := by
      refine h2.trans ?_
      have : ((1 + ε) * (1 + (((1 : ℚ) + 0) * (1 + ε) - 1)) - 1) = (1 + ε) * (1 + ε) - 1 := by ring
      rw [this]
      have h0 : 0 ≤ (1 + ε) * (1 + ε) - 1 := by nlinarith
      nlinarith
    have h4 : |b + -1| ≤ 1 + 2 * ((1 + ε) * (1 + ε) - 1) := by
      have e : b + -1 = (b - a) + (a - 1) := by ring
      rw [e]
      have : |a - 1| ≤ 1 := by rw [abs_le]; constructor <;> linarith
      linarith [abs_add_le (b - a) (a - 1)]
    have e : fl (b + -1) - (-1 + a) = (fl (b + -1) - (b + -1)) + (b - a) := by ring
    rw [e]
    have h5 := abs_add_le (fl (b + -1) - (b + -1)) (b - a)
    have h6 := mul_le_mul_of_nonneg_left h4 hε
    nlinarith [mul_nonneg hε hε, mul_nonneg hε (mul_nonneg hε hε)]

/-- Relative error of a computed difference from two absolute errors. -/
theorem diff_rel (hε : 0 ≤ ε) (hfl : ∀ x, |fl x - x| ≤ ε * |x|) {k : ℕ} (hk : 1 ≤ k) {x x' y y' : ℚ}
    (h1 : |x' - x| ≤ 6 * ε) (h2 : |y' - y| ≤ 6 * ε) (hgap : 2 / (k : ℚ) ≤ |x - y|) :
    |fl (x' - y') - (x - y)| ≤ ((1 + ε) ^ (6 * k + 1) - 1) * |x - y| := by
  have hk' : (1 : ℚ) ≤ k := by exact_mod_cast hk
  have h3 : |(x' - y') - (x - y)| ≤ (6 * k * ε) * |x - y| := by
    have e : (x' - y') - (x - y) = (x' - x) - (y' - y) := by ring
    rw [e]
    have h4 := abs_sub (x' - x) (y' - y)
    have h5 : 12 * ε ≤ 6 * k * ε * |x - y| := by
      have h6 : (6 * k * ε) * (2 / (k : ℚ)) ≤ (6 * k * ε) * |x - y| := mul_le_mul_of_nonneg_left hgap (by positivity)
      have h7 : (6 * k * ε) * (2 / (k : ℚ)) = 12 * ε := by field_simp; ring
      linarith
    linarith
  refine rel_mono ?_ (rel_fl hε hfl h3)
  have hb := one_add_mul_le_pow (a := ε) (by linarith) (6 * k)
  rw [pow_succ]
  push_cast at hb
  nlinarith

theorem ncNode_gap {k : ℕ} (hk : 1 ≤ k) {i j : Fin (k + 1)} (h : i ≠ j) :
    2 / (k : ℚ) ≤ |(ncNode (k + 1) i : ℚ) - ncNode (k + 1) j| := by
  rw [ncNode_eq, ncNode_eq]
  have e : (-1 + ((i : ℕ) : ℚ) * (2 / k)) - (-1 + ((j : ℕ) : ℚ) * (2 / k)) = (((i : ℕ) : ℤ) - ((j : ℕ) : ℤ) : ℤ) * (2 / (k : ℚ)) := by
    push_cast; ring
  have hk' : (0 : ℚ) < 2 / k := by
    have : (0 : ℚ) < k := by exact_mod_cast hk
    positivity
  rw [e, abs_mul, abs_of_pos hk']
  have : (1 : ℚ) ≤ |((((i : ℕ) : ℤ) - ((j : ℕ) : ℤ) : ℤ) : ℚ)| := by
    rw [← Int.cast_abs]
    have h1 : ((i : ℕ) : ℤ) - ((j : ℕ) : ℤ) ≠ 0 := fun hc => h (Fin.ext (by omega))
    exact_mod_cast Int.one_le_abs h1
  nlinarith

theorem ncNode_injective {k : ℕ} (hk : 1 ≤ k) : Function.Injective (ncNode (k + 1) : Fin (k + 1) → ℚ) := by
  intro i j h
  by_contra hne
  have := ncNode_gap hk hne
  rw [h, sub_self, abs_zero] at this
  have hk' : (0 : ℚ) < k := by exact_mod_cast hk
  have : (0 : ℚ) < 2 / k := by positivity
  linarith

end Verif.NS
