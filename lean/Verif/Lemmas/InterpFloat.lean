import Verif.Model.InterpFloat
import Verif.Lemmas.ExchangeFloat
import Verif.Props.C31_C33

/-! Lemmas for C140: relative errors through products, quotients and the barycentric formula. -/

namespace Verif.Core

open Polynomial

variable {fl : ℚ → ℚ} {ε : ℚ}

theorem rel_le {a x v : ℚ} (h : |v - x| ≤ a * |x|) : |v| ≤ (1 + a) * |x| := by
  have : |v| ≤ |v - x| + |x| := by
    have := abs_add_le (v - x) x
    simpa using this
  linarith

theorem rel_mono {a b x v : ℚ} (hab : a ≤ b) (h : |v - x| ≤ a * |x|) : |v - x| ≤ b * |x| :=
  h.trans (mul_le_mul_of_nonneg_right hab (abs_nonneg _))

theorem rel_mul {a b x y v w : ℚ} (ha : 0 ≤ a) (h1 : |v - x| ≤ a * |x|) (h2 : |w - y| ≤ b * |y|) :
    |v * w - x * y| ≤ ((1 + a) * (1 + b) - 1) * |x * y| := by
  have hv := rel_le h1
  have e : v * w - x * y = v * (w - y) + (v - x) * y := by ring
  rw [e, abs_mul x y]
  have := abs_add_le (v * (w - y)) ((v - x) * y)
  rw [abs_mul, abs_mul] at this
  have t1 : |v| * |w - y| ≤ ((1 + a) * |x|) * (b * |y|) :=
    mul_le_mul hv h2 (abs_nonneg _) (mul_nonneg (by linarith) (abs_nonneg _))
  have t2 : |v - x| * |y| ≤ (a * |x|) * |y| := mul_le_mul_of_nonneg_right h1 (abs_nonneg _)
  nlinarith [this, t1, t2]

theorem rel_ne {b y w : ℚ} (hb : b < 1) (hy : y ≠ 0) (h : |w - y| ≤ b * |y|) : w ≠ 0 := by
  rintro rfl
  rw [zero_sub, abs_neg] at h
  have := abs_pos.mpr hy
  nlinarith

theorem rel_inv {b y w : ℚ} (hb : b ≤ 1 / 2) (hy : y ≠ 0) (h : |w - y| ≤ b * |y|) :
    |w⁻¹ - y⁻¹| ≤ 2 * b * |y⁻¹| := by
  have hw : w ≠ 0 := rel_ne (by linarith) hy h
  have hy' := abs_pos.mpr hy
  have hw' := abs_pos.mpr hw
  have hge : |y| ≤ 2 * |w| := by
    have := abs_sub_abs_le_abs_sub y w
    rw [abs_sub_comm] at this
    nlinarith
  have e : w⁻¹ - y⁻¹ = (y - w) / (w * y) := by field_simp
  rw [e, abs_div, abs_mul, abs_inv, div_le_iff₀ (by positivity), abs_sub_comm]
  have : 2 * b * |y|⁻¹ * (|w| * |y|) = b * (2 * |w|) := by field_simp
  rw [this]
  have hb0 : 0 ≤ b := by
    by_contra hc
    have := abs_nonneg (w - y)
    nlinarith
  exact h.trans (mul_le_mul_of_nonneg_left hge hb0)

theorem rel_fl (hε : 0 ≤ ε) (hfl : ∀ x, |fl x - x| ≤ ε * |x|) {a x v : ℚ} (h : |v - x| ≤ a * |x|) :
    |fl v - x| ≤ ((1 + ε) * (1 + a) - 1) * |x| := by
  have hv := rel_le h
  have := abs_add_le (fl v - v) (v - x)
  rw [sub_add_sub_cancel] at this
  nlinarith [hfl v, mul_le_mul_of_nonneg_left hv hε]

theorem two_le_sq {y : ℚ} : 1 + 2 * (y - 1) ≤ y ^ 2 := by nlinarith [sq_nonneg (y - 1)]

/-! ### Sums of extended numbers -/

theorem sumFl_inf (s : Bool) (l : List (Ext ℚ)) (acc : Ext ℚ)
    (hl : ∀ t ∈ l, (∃ x, t = .fin x) ∨ t = .inf s)
    (hacc : acc = .inf s ∨ ((∃ x, acc = .fin x) ∧ Ext.inf s ∈ l)) :
    l.foldl (fun s t => Ext.round fl (Ext.add s t)) acc = .inf s := by
  induction l generalizing acc with
  | nil =>
    rcases hacc with h | h
    · exact h
    · simp at h
  | cons t l ih =>
    rw [List.foldl_cons]
    apply ih
    · exact fun u hu => hl u (List.mem_cons_of_mem _ hu)
    · rcases hl t List.mem_cons_self with ⟨x, rfl⟩ | rfl
      · rcases hacc with rfl | ⟨⟨y, rfl⟩, hm⟩
        · left; rfl
        · right
          refine ⟨⟨fl (y + x), rfl⟩, ?_⟩
          simpa using hm
      · left
        rcases hacc with rfl | ⟨⟨y, rfl⟩, _⟩
        · simp [Ext.add, Ext.round]
        · rfl

theorem sumFl_fin (l : List ℚ) (acc : ℚ) :
    (l.map Ext.fin).foldl (fun s t => Ext.round fl (Ext.add s t)) (.fin acc) =
      .fin (l.foldl (fun s x => fl (s + x)) acc) := by
  induction l generalizing acc with
  | nil => rfl
  | cons x l ih => exact ih (fl (acc + x))

/-- The Kronecker delta at the nodes, whatever the rounding. -/
theorem evaluateFl_node {n : ℕ} (h0 : fl 0 = 0) (hne : ∀ x, x ≠ 0 → fl x ≠ 0) (w nodes : Fin n → ℚ)
    (hw : ∀ i, w i ≠ 0) (hnodes : Function.Injective nodes) (k i : Fin n) :
    evaluateFl fl w nodes (nodes k) i = .fin (if i = k then 1 else 0) := by
  unfold evaluateFl
  by_cases h : i = k
  · subst h; simp
  · have hk : baryTermFl fl w nodes (nodes k) k = .inf (decide (w k < 0)) := by
      simp [baryTermFl, h0, Ext.div, hw k, Ext.round]
    have hj : ∀ j, j ≠ k → ∃ x, baryTermFl fl w nodes (nodes k) j = .fin x := by
      intro j hj
      have : fl (nodes k - nodes j) ≠ 0 := hne _ (sub_ne_zero.mpr (fun hc => hj (hnodes hc).symm))
      exact ⟨fl (w j / fl (nodes k - nodes j)), by simp [baryTermFl, Ext.div, this, Ext.round]⟩
    have hsum : Ext.sumFl fl ((List.finRange n).map (baryTermFl fl w nodes (nodes k))) = .inf (decide (w k < 0)) := by
      unfold Ext.sumFl
      apply sumFl_inf
      · intro t ht
        obtain ⟨j, _, rfl⟩ := List.mem_map.mp ht
        by_cases hjk : j = k
        · subst hjk; exact Or.inr hk
        · exact Or.inl (hj j hjk)
      · exact Or.inr ⟨⟨0, rfl⟩, List.mem_map.mpr ⟨k, List.mem_finRange k, hk⟩⟩
    rw [if_neg (fun hc => h (hnodes hc).symm), hsum, if_neg h]
    obtain ⟨x, hx⟩ := hj i h
    rw [hx]
    simp [Ext.div, Ext.round, h0]

/-- The barycentric formula away from the nodes. -/
theorem bary_basis {n : ℕ} (w nodes : Fin n → ℚ) (hw : TrueWeights w nodes) (hnodes : Function.Injective nodes) (x : ℚ)
    (hx : ∀ k, x ≠ nodes k) (i : Fin n) : (∑ j, w j / (x - nodes j)) ≠ 0 ∧
      (Lagrange.basis Finset.univ nodes i).eval x = (w i / (x - nodes i)) / ∑ j, w j / (x - nodes j) := by
  have h := evaluate_eq_basis w nodes hw hnodes x i
  have hne : ∀ k, x - nodes k ≠ 0 := fun k => sub_ne_zero.mpr (hx k)
  have hterms : baryTerms w nodes x = ((List.finRange n).map (fun j => w j / (x - nodes j))).map Ext.fin := by
    unfold baryTerms
    rw [List.map_map]
    apply List.map_congr_left
    intro j _
    simp [Ext.div, hne j]
  have hsum : Ext.sum (baryTerms w nodes x) = .fin (∑ j, w j / (x - nodes j)) := by
    unfold Ext.sum
    rw [hterms, Ext.foldl_add_fin, zero_add, Fin.sum_univ_def]
  unfold evaluate at h
  rw [if_neg (hx i), hsum] at h
  have hi : Ext.div (.fin (w i)) (.fin (x - nodes i)) = .fin (w i / (x - nodes i)) := by simp [Ext.div, hne i]
  rw [hi] at h
  by_cases hD : (∑ j, w j / (x - nodes j)) = 0
  · rw [hD] at h
    simp only [Ext.div, if_true] at h
    split_ifs at h
  · refine ⟨hD, ?_⟩
    simp only [Ext.div, hD, if_false, Ext.fin.injEq] at h
    exact h.symm

/-- A computed term. -/
theorem baryTermFl_error {n : ℕ} (hε : 0 ≤ ε) (hε2 : ε ≤ 1 / 2) (hfl : ∀ x, |fl x - x| ≤ ε * |x|) {m : ℕ}
    (w w' nodes : Fin n → ℚ) (hw' : ∀ j, |w' j - w j| ≤ ((1 + ε) ^ m - 1) * |w j|) (x : ℚ) (j : Fin n)
    (hx : x ≠ nodes j) : ∃ t, baryTermFl fl w' nodes x j = .fin t ∧
      |t - w j / (x - nodes j)| ≤ ((1 + ε) ^ (m + 3) - 1) * |w j / (x - nodes j)| := by
  have hd : x - nodes j ≠ 0 := sub_ne_zero.mpr hx
  have hfd := hfl (x - nodes j)
  have hfd0 : fl (x - nodes j) ≠ 0 := rel_ne (by linarith) hd hfd
  refine ⟨fl (w' j / fl (x - nodes j)), by simp [baryTermFl, Ext.div, hfd0, Ext.round], ?_⟩
  have hm1 : (1 : ℚ) ≤ (1 + ε) ^ m := one_le_pow₀ (by linarith)
  have h2 := rel_mul (by linarith) (hw' j) (rel_inv hε2 hd hfd)
  have h3 := rel_fl hε hfl h2
  rw [div_eq_mul_inv, div_eq_mul_inv]
  refine rel_mono ?_ h3
  have : (1 + ε) ^ (m + 3) = (1 + ε) ^ m * (1 + ε) ^ 2 * (1 + ε) := by ring
  rw [this]
  have h4 : 1 + 2 * ε ≤ (1 + ε) ^ 2 := by nlinarith
  have h5 : (1 + ε) ^ m * (1 + 2 * ε) ≤ (1 + ε) ^ m * (1 + ε) ^ 2 := mul_le_mul_of_nonneg_left h4 (by linarith)
  nlinarith [mul_le_mul_of_nonneg_right h5 (by linarith : 0 ≤ 1 + ε)]

/-- The computed sum of the terms. -/
theorem sum_error {n : ℕ} (hε : 0 ≤ ε) (hfl : ∀ x, |fl x - x| ≤ ε * |x|) {k : ℕ} (t t' : Fin n → ℚ)
    (h : ∀ j, |t' j - t j| ≤ ((1 + ε) ^ k - 1) * |t j|) {M : Multiset ℚ} {c s : ℚ} (hs : RoundedSum fl M s)
    (hM : M.card ≤ n + 1) (hsum : M.sum = ∑ j, t' j) (habs : (M.map abs).sum = ∑ j, |t' j|) (hc : c = ∑ j, t j) :
    |s - c| ≤ ((1 + ε) ^ (n + k) - 1) * ∑ j, |t j| := by
  have h1 := hs.error hε hfl
  rw [hsum, habs] at h1
  have hT : 0 ≤ ∑ j, |t j| := Finset.sum_nonneg fun j _ => abs_nonneg _
  have hk1 : (1 : ℚ) ≤ (1 + ε) ^ k := one_le_pow₀ (by linarith)
  have hn1 : (1 : ℚ) ≤ (1 + ε) ^ n := one_le_pow₀ (by linarith)
  have hn2 : (1 + ε) ^ (M.card - 1) ≤ (1 + ε) ^ n := pow_le_pow_right₀ (by linarith) (by omega)
  have h2 : ∑ j, |t' j| ≤ (1 + ε) ^ k * ∑ j, |t j| := by
    rw [Finset.mul_sum]
    refine Finset.sum_le_sum fun j _ => ?_
    have := rel_le (h j)
    simpa using this
  have h3 : |(∑ j, t' j) - c| ≤ ((1 + ε) ^ k - 1) * ∑ j, |t j| := by
    rw [hc, ← Finset.sum_sub_distrib, Finset.mul_sum]
    exact (Finset.abs_sum_le_sum_abs _ _).trans (Finset.sum_le_sum fun j _ => h j)
  have h4 := abs_add_le (s - ∑ j, t' j) ((∑ j, t' j) - c)
  rw [sub_add_sub_cancel] at h4
  have h5 : ((1 + ε) ^ (M.card - 1) - 1) * ∑ j, |t' j| ≤ ((1 + ε) ^ n - 1) * ((1 + ε) ^ k * ∑ j, |t j|) :=
    mul_le_mul (by linarith) h2 (Finset.sum_nonneg fun j _ => abs_nonneg _) (by linarith)
  rw [pow_add]
  nlinarith

end Verif.Core
