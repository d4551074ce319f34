import Verif.Props.C36_C37
import Mathlib.Analysis.Normed.Module.Basic
import Mathlib.Algebra.Polynomial.AlgebraMap

/-!
# Zero stability of the BDF formulas of order at most six

A polynomial multiple of the characteristic polynomial is `X - 1` times a polynomial whose leading coefficient exceeds the
sum of the others. Hence the differences of consecutive values are summable, with a bound by the starting values and the
sum of the right hand sides.
-/

namespace Verif.NS

open Verif.Core Polynomial

/-- The polynomial with the given coefficients, lowest first. -/
noncomputable def ofList (l : List ℝ) : ℝ[X] := ∑ i ∈ Finset.range l.length, C (l.getD i 0) * X ^ i

/-- The linear recurrence with the given coefficients does not amplify: its values are bounded by the starting values and
the right hand sides. -/
def Stable (ρ : List ℝ) (k : ℕ) : Prop :=
  ∃ Z, 0 < Z ∧ ∀ (V : Type) [NormedAddCommGroup V] [NormedSpace ℝ V] (e : ℕ → V) (N : ℕ),
    ‖e (N + k)‖ ≤ Z * (∑ i ∈ Finset.range k, ‖e i‖ +
      ∑ j ∈ Finset.range (N + 1), ‖∑ i ∈ Finset.range (k + 1), ρ.getD i 0 • e (j + i)‖)

section

variable {V : Type} [NormedAddCommGroup V] [NormedSpace ℝ V]

/-- The shift of sequences. -/
def seqShift : Module.End ℝ (ℕ → V) where
  toFun e := fun n => e (n + 1)
  map_add' _ _ := rfl
  map_smul' _ _ := rfl

theorem seqShift_pow (i : ℕ) (e : ℕ → V) (n : ℕ) : (seqShift ^ i) e n = e (n + i) := by
  induction i generalizing n with
  | zero => rfl
  | succ i ih =>
    rw [pow_succ', Module.End.mul_apply]
    change ((seqShift ^ i) e) (n + 1) = _
    rw [ih]
    congr 1
    omega

theorem aeval_ofList (l : List ℝ) (e : ℕ → V) (n : ℕ) :
    aeval (seqShift : Module.End ℝ (ℕ → V)) (ofList l) e n = ∑ i ∈ Finset.range l.length, l.getD i 0 • e (n + i) := by
  unfold ofList
  rw [map_sum, LinearMap.sum_apply, Finset.sum_apply]
  refine Finset.sum_congr rfl fun i _ => ?_
  rw [map_mul, aeval_C, map_pow, aeval_X, Module.End.mul_apply, Module.algebraMap_end_apply, Pi.smul_apply, seqShift_pow]

/-- Summability of the solutions of a recurrence with a dominant leading coefficient. -/
theorem sum_dominant (c : ℕ → ℝ) (M : ℕ) (hpos : 0 ≤ c M) (d s : ℕ → V) (N : ℕ)
    (h : ∀ n < N, ∑ j ∈ Finset.range (M + 1), c j • d (n + j) = s n) :
    (c M - ∑ j ∈ Finset.range M, |c j|) * ∑ n ∈ Finset.range N, ‖d (n + M)‖ ≤
      ∑ n ∈ Finset.range N, ‖s n‖ + (∑ j ∈ Finset.range M, |c j|) * ∑ i ∈ Finset.range M, ‖d i‖ := by
  have h1 : ∀ n < N, c M * ‖d (n + M)‖ ≤ ‖s n‖ + ∑ j ∈ Finset.range M, |c j| * ‖d (n + j)‖ := by
    intro n hn
    have e1 : c M • d (n + M) = s n - ∑ j ∈ Finset.range M, c j • d (n + j) := by
      rw [← h n hn, Finset.sum_range_succ]; abel
    have e2 : c M * ‖d (n + M)‖ = ‖c M • d (n + M)‖ := by rw [norm_smul, Real.norm_eq_abs, abs_of_nonneg hpos]
    rw [e2, e1]
    refine (norm_sub_le _ _).trans (add_le_add le_rfl ((norm_sum_le _ _).trans (le_of_eq ?_)))
    exact Finset.sum_congr rfl fun j _ => by rw [norm_smul, Real.norm_eq_abs]
  have h2 : ∀ j < M, ∑ n ∈ Finset.range N, ‖d (n + j)‖ ≤
      ∑ i ∈ Finset.range M, ‖d i‖ + ∑ n ∈ Finset.range N, ‖d (n + M)‖ := by
    intro j hj
    have e1 : ∑ n ∈ Finset.range N, ‖d (n + j)‖ ≤ ∑ n ∈ Finset.range (M + N), ‖d n‖ := by
      have : ∑ n ∈ Finset.range N, ‖d (n + j)‖ = ∑ n ∈ (Finset.range N).map (addRightEmbedding j), ‖d n‖ := by
        rw [Finset.sum_map]; rfl
      rw [this]
      refine Finset.sum_le_sum_of_subset_of_nonneg (fun n hn => ?_) fun _ _ _ => norm_nonneg _
      obtain ⟨m, hm, rfl⟩ := Finset.mem_map.mp hn
      simp only [addRightEmbedding_apply, Finset.mem_range] at hm ⊢
      omega
    refine e1.trans_eq ?_
    rw [Finset.sum_range_add]
    congr 1
    exact Finset.sum_congr rfl fun n _ => by rw [add_comm]
  have h3 : c M * ∑ n ∈ Finset.range N, ‖d (n + M)‖ ≤ ∑ n ∈ Finset.range N, ‖s n‖ +
      ∑ j ∈ Finset.range M, |c j| * ∑ n ∈ Finset.range N, ‖d (n + j)‖ := by
    rw [Finset.mul_sum]
    refine (Finset.sum_le_sum fun n hn => h1 n (Finset.mem_range.mp hn)).trans_eq ?_
    rw [Finset.sum_add_distrib, Finset.sum_comm]
    congr 1
    exact Finset.sum_congr rfl fun j _ => by rw [Finset.mul_sum]
  have h4 : ∑ j ∈ Finset.range M, |c j| * ∑ n ∈ Finset.range N, ‖d (n + j)‖ ≤
      ∑ j ∈ Finset.range M, |c j| * (∑ i ∈ Finset.range M, ‖d i‖ + ∑ n ∈ Finset.range N, ‖d (n + M)‖) :=
    Finset.sum_le_sum fun j hj => mul_le_mul_of_nonneg_left (h2 j (Finset.mem_range.mp hj)) (abs_nonneg _)
  rw [← Finset.sum_mul, mul_add] at h4
  rw [sub_mul]
  linarith

end

theorem stable_of {ρ : List ℝ} {k : ℕ} (m P : List ℝ) (D M : ℕ) (hid : ofList m * ofList ρ = (X - 1) * ofList P)
    (hρ : ρ.length = k + 1) (hm : m.length = D + 1) (hP : P.length = M + 1) (hk : M + 1 = D + k)
    (hdom : ∑ j ∈ Finset.range M, |P.getD j 0| < P.getD M 0) : Stable ρ k := by
  obtain ⟨θ, hθ⟩ : ∃ θ, θ = P.getD M 0 - ∑ j ∈ Finset.range M, |P.getD j 0| := ⟨_, rfl⟩
  obtain ⟨A, hA⟩ : ∃ A, A = ∑ j ∈ Finset.range (D + 1), |m.getD j 0| := ⟨_, rfl⟩
  obtain ⟨R, hR⟩ : ∃ R, R = ∑ j ∈ Finset.range (k + 1), |ρ.getD j 0| := ⟨_, rfl⟩
  have hθ0 : 0 < θ := by rw [hθ]; linarith
  have hA0 : 0 ≤ A := by rw [hA]; exact Finset.sum_nonneg fun _ _ => abs_nonneg _
  have hR0 : 0 ≤ R := by rw [hR]; exact Finset.sum_nonneg fun _ _ => abs_nonneg _
  have hPM : 0 ≤ P.getD M 0 := (Finset.sum_nonneg fun _ _ => abs_nonneg _).trans hdom.le
  refine ⟨A / θ * ((M + 1) * R + 1) + 1, by positivity, fun V _ _ e N => ?_⟩
  obtain ⟨S, hS⟩ : ∃ S, S = ∑ i ∈ Finset.range k, ‖e i‖ := ⟨_, rfl⟩
  have hS0 : 0 ≤ S := by rw [hS]; exact Finset.sum_nonneg fun _ _ => norm_nonneg _
  obtain ⟨r, hr⟩ : ∃ r : ℕ → V, r = fun j => ∑ i ∈ Finset.range (k + 1), ρ.getD i 0 • e (j + i) := ⟨_, rfl⟩
  -- zeros before the starting values
  obtain ⟨e', he'⟩ : ∃ e' : ℕ → V, e' = fun n => if n < M + 1 then 0 else e (n - (M + 1)) := ⟨_, rfl⟩
  obtain ⟨r', hr'⟩ : ∃ r' : ℕ → V, r' = fun j => ∑ i ∈ Finset.range (k + 1), ρ.getD i 0 • e' (j + i) := ⟨_, rfl⟩
  obtain ⟨d', hd'⟩ : ∃ d' : ℕ → V, d' = fun n => e' (n + 1) - e' n := ⟨_, rfl⟩
  have hbelow : ∀ n < M + 1, e' n = 0 := fun n hn => by rw [he']; exact if_pos hn
  have habove : ∀ n, e' (n + (M + 1)) = e n := fun n => by
    rw [he']
    simp only
    rw [if_neg (by omega), Nat.add_sub_cancel]
  have hrec : ∀ n, ∑ j ∈ Finset.range (M + 1), P.getD j 0 • d' (n + j) =
      ∑ j ∈ Finset.range (D + 1), m.getD j 0 • r' (n + j) := by
    intro n
    have h1 := congrArg (fun p => aeval (seqShift : Module.End ℝ (ℕ → V)) p e' n) hid
    simp only [map_mul, Module.End.mul_apply] at h1
    have h2 : aeval (seqShift : Module.End ℝ (ℕ → V)) (ofList ρ) e' = r' := by
      funext j; rw [aeval_ofList, hρ, hr']
    have h3 : ∀ x : ℕ → V, aeval (seqShift : Module.End ℝ (ℕ → V)) (X - 1 : ℝ[X]) x = fun n => x (n + 1) - x n := by
      intro x
      rw [map_sub, aeval_X, map_one]
      rfl
    have h4 : aeval (seqShift : Module.End ℝ (ℕ → V)) (X - 1 : ℝ[X]) (aeval seqShift (ofList P) e') =
        aeval seqShift (ofList P) d' := by
      rw [← Module.End.mul_apply, ← map_mul, mul_comm, map_mul, Module.End.mul_apply, h3, hd']
    rw [h2, h4, aeval_ofList, aeval_ofList, hm, hP] at h1
    exact h1.symm
  have hsum := sum_dominant (fun j => P.getD j 0) M hPM d' _ (N + k + 1) (fun n _ => hrec n)
  have hd0 : ∑ i ∈ Finset.range M, ‖d' i‖ = 0 := Finset.sum_eq_zero fun i hi => by
    have := Finset.mem_range.mp hi
    rw [hd']
    simp only
    rw [hbelow _ (by omega), hbelow _ (by omega), sub_zero, norm_zero]
  rw [hd0, mul_zero, add_zero, ← hθ] at hsum
  -- the right hand sides
  have hr1 : ∀ t, r' (t + (M + 1)) = r t := by
    intro t
    rw [hr', hr]
    refine Finset.sum_congr rfl fun i _ => ?_
    rw [show t + (M + 1) + i = t + i + (M + 1) by omega, habove]
  have hr2 : ∀ t < M + 1, ‖r' t‖ ≤ R * S := by
    intro t ht
    rw [hr', hR, Finset.sum_mul]
    refine (norm_sum_le _ _).trans (Finset.sum_le_sum fun i hi => ?_)
    rw [norm_smul, Real.norm_eq_abs]
    refine mul_le_mul_of_nonneg_left ?_ (abs_nonneg _)
    by_cases hlt : t + i < M + 1
    · rw [hbelow _ hlt, norm_zero]; exact hS0
    · obtain ⟨s, hs⟩ : ∃ s, t + i = s + (M + 1) := ⟨t + i - (M + 1), by omega⟩
      have := Finset.mem_range.mp hi
      rw [hs, habove, hS]
      exact Finset.single_le_sum (f := fun i => ‖e i‖) (fun _ _ => norm_nonneg _) (Finset.mem_range.mpr (by omega))
  have hr3 : ∑ t ∈ Finset.range (N + (M + 1) + 1), ‖r' t‖ ≤ (M + 1) * (R * S) + ∑ t ∈ Finset.range (N + 1), ‖r t‖ := by
    rw [show N + (M + 1) + 1 = M + 1 + (N + 1) by omega, Finset.sum_range_add]
    refine add_le_add ?_ (le_of_eq (Finset.sum_congr rfl fun t _ => by rw [add_comm, hr1]))
    refine (Finset.sum_le_sum fun t ht => hr2 t (Finset.mem_range.mp ht)).trans_eq ?_
    rw [Finset.sum_const, Finset.card_range, nsmul_eq_mul]
    push_cast
    ring
  have hs : ∑ n ∈ Finset.range (N + k + 1), ‖∑ j ∈ Finset.range (D + 1), m.getD j 0 • r' (n + j)‖ ≤
      A * ∑ t ∈ Finset.range (N + (M + 1) + 1), ‖r' t‖ := by
    rw [hA, Finset.sum_mul]
    have h1 : ∀ n ∈ Finset.range (N + k + 1), ‖∑ j ∈ Finset.range (D + 1), m.getD j 0 • r' (n + j)‖ ≤
        ∑ j ∈ Finset.range (D + 1), |m.getD j 0| * ‖r' (n + j)‖ := fun n _ =>
      (norm_sum_le _ _).trans (le_of_eq (Finset.sum_congr rfl fun j _ => by rw [norm_smul, Real.norm_eq_abs]))
    refine (Finset.sum_le_sum h1).trans ?_
    rw [Finset.sum_comm]
    refine Finset.sum_le_sum fun j hj => ?_
    rw [← Finset.mul_sum]
    refine mul_le_mul_of_nonneg_left ?_ (abs_nonneg _)
    have e1 : ∑ n ∈ Finset.range (N + k + 1), ‖r' (n + j)‖ =
        ∑ n ∈ (Finset.range (N + k + 1)).map (addRightEmbedding j), ‖r' n‖ := by rw [Finset.sum_map]; rfl
    rw [e1]
    refine Finset.sum_le_sum_of_subset_of_nonneg (fun n hn => ?_) fun _ _ _ => norm_nonneg _
    obtain ⟨l, hl, rfl⟩ := Finset.mem_map.mp hn
    have := Finset.mem_range.mp hj
    simp only [addRightEmbedding_apply, Finset.mem_range] at hl ⊢
    omega
  -- telescoping
  have htel : ∀ n, e' n = ∑ i ∈ Finset.range n, d' i := by
    intro n
    rw [hd', Finset.sum_range_sub, hbelow 0 (by omega), sub_zero]
  have hend : ‖e (N + k)‖ ≤ ∑ n ∈ Finset.range (N + k + 1), ‖d' (n + M)‖ := by
    rw [← habove, htel, show N + k + (M + 1) = M + (N + k + 1) by omega, Finset.sum_range_add]
    have h0 : ∑ i ∈ Finset.range M, d' i = 0 := Finset.sum_eq_zero fun i hi =>
      norm_eq_zero.mp ((Finset.sum_eq_zero_iff_of_nonneg fun _ _ => norm_nonneg _).mp hd0 i hi)
    rw [h0, zero_add]
    refine (norm_sum_le _ _).trans (le_of_eq (Finset.sum_congr rfl fun i _ => by rw [add_comm]))
  have hT0 : 0 ≤ ∑ t ∈ Finset.range (N + 1), ‖r t‖ := Finset.sum_nonneg fun _ _ => norm_nonneg _
  have hfin : θ * ‖e (N + k)‖ ≤ A * ((M + 1) * (R * S) + ∑ t ∈ Finset.range (N + 1), ‖r t‖) :=
    (mul_le_mul_of_nonneg_left hend hθ0.le).trans (hsum.trans (hs.trans (mul_le_mul_of_nonneg_left hr3 hA0)))
  have hfin' : ‖e (N + k)‖ ≤ A / θ * ((M + 1) * (R * S) + ∑ t ∈ Finset.range (N + 1), ‖r t‖) := by
    rw [div_mul_eq_mul_div, le_div_iff₀ hθ0]
    linarith
  have hrr : ∑ j ∈ Finset.range (N + 1), ‖∑ i ∈ Finset.range (k + 1), ρ.getD i 0 • e (j + i)‖ =
      ∑ t ∈ Finset.range (N + 1), ‖r t‖ := by rw [hr]
  rw [hrr, ← hS]
  refine hfin'.trans ?_
  obtain ⟨T, hT⟩ : ∃ T, T = ∑ t ∈ Finset.range (N + 1), ‖r t‖ := ⟨_, rfl⟩
  rw [← hT] at hT0 ⊢
  have hq : 0 ≤ A / θ := by positivity
  have : 0 ≤ A / θ * ((M + 1) * R * T + S) + (S + T) := by positivity
  nlinarith [this]

/-- The moments of the coefficients. -/
theorem bdf_moments {k : ℕ} (hk : 1 ≤ k) {b : Fin (k + 1) → ℝ} (hb : bdfkCoeffs k = some b) (e : ℕ) (he : e ≤ k) :
    ∑ i : Fin (k + 1), b i * ((i : ℕ) : ℝ) ^ e = e * (k : ℝ) ^ (e - 1) := by
  obtain ⟨b', hb', h⟩ := C37_exact (K := ℝ) k hk
  rw [hb, Option.some.injEq] at hb'
  subst hb'
  have := h (X ^ e) 0 1 (by rw [degree_X_pow]; exact_mod_cast he)
  simpa [derivative_X_pow] using this

/-- The coefficients of order 1. -/
theorem bdf_values_1 {b : Fin (1 + 1) → ℝ} (hb : bdfkCoeffs 1 = some b) :
    ∀ i, b i = ([-1, 1] : List ℝ).getD i 0 := by
  have h : ∀ e : ℕ, e ≤ 1 → ∑ i : Fin 2, b i * ((i : ℕ) : ℝ) ^ e = e * ((1 : ℕ) : ℝ) ^ (e - 1) :=
    fun e he => bdf_moments (by norm_num) hb e he
  have h0 := h 0 (by norm_num)
  have h1 := h 1 (by norm_num)
  simp only [Fin.sum_univ_two] at h0 h1
  norm_num at h0 h1
  intro i
  fin_cases i <;> simp <;> linarith

theorem bdf_stable_1 : Stable [-1, 1] 1 := by
  refine stable_of [1] [1] 0 0 ?_ rfl rfl rfl rfl ?_
  · refine Polynomial.funext fun x => ?_
    simp [ofList, Finset.sum_range_succ]
    ring
  · norm_num [Finset.sum_range_succ]

/-- The coefficients of order 2. -/
theorem bdf_values_2 {b : Fin (2 + 1) → ℝ} (hb : bdfkCoeffs 2 = some b) :
    ∀ i, b i = ([1 / 2, -2, 3 / 2] : List ℝ).getD i 0 := by
  have h : ∀ e : ℕ, e ≤ 2 → ∑ i : Fin 3, b i * ((i : ℕ) : ℝ) ^ e = e * (2 : ℝ) ^ (e - 1) :=
    fun e he => bdf_moments (by norm_num) hb e he
  have h0 := h 0 (by norm_num)
  have h1 := h 1 (by norm_num)
  have h2 := h 2 (by norm_num)
  simp only [Fin.sum_univ_three] at h0 h1 h2
  norm_num at h0 h1 h2
  intro i
  fin_cases i <;> simp <;> linarith

theorem bdf_stable_2 : Stable [1 / 2, -2, 3 / 2] 2 := by
  refine stable_of [1] [-1 / 2, 3 / 2] 0 1 ?_ rfl rfl rfl rfl ?_
  · refine Polynomial.funext fun x => ?_
    simp [ofList, Finset.sum_range_succ]
    ring
  · norm_num [Finset.sum_range_succ]

/-- The coefficients of order 3. -/
theorem bdf_values_3 {b : Fin (3 + 1) → ℝ} (hb : bdfkCoeffs 3 = some b) :
    ∀ i, b i = ([-1 / 3, 3 / 2, -3, 11 / 6] : List ℝ).getD i 0 := by
  have h : ∀ e : ℕ, e ≤ 3 → ∑ i : Fin 4, b i * ((i : ℕ) : ℝ) ^ e = e * (3 : ℝ) ^ (e - 1) :=
    fun e he => bdf_moments (by norm_num) hb e he
  have h0 := h 0 (by norm_num)
  have h1 := h 1 (by norm_num)
  have h2 := h 2 (by norm_num)
  have h3 := h 3 (by norm_num)
  simp only [Fin.sum_univ_four] at h0 h1 h2 h3
  norm_num at h0 h1 h2 h3
  intro i
  fin_cases i <;> simp <;> linarith

theorem bdf_stable_3 : Stable [-1 / 3, 3 / 2, -3, 11 / 6] 3 := by
  refine stable_of [1] [1 / 3, -7 / 6, 11 / 6] 0 2 ?_ rfl rfl rfl rfl ?_
  · refine Polynomial.funext fun x => ?_
    simp [ofList, Finset.sum_range_succ]
    ring
  · norm_num [Finset.sum_range_succ]

/-- The coefficients of order 4. -/
theorem bdf_values_4 {b : Fin (4 + 1) → ℝ} (hb : bdfkCoeffs 4 = some b) :
    ∀ i, b i = ([1 / 4, -4 / 3, 3, -4, 25 / 12] : List ℝ).getD i 0 := by
  have h : ∀ e : ℕ, e ≤ 4 → ∑ i : Fin 5, b i * ((i : ℕ) : ℝ) ^ e = e * (4 : ℝ) ^ (e - 1) :=
    fun e he => bdf_moments (by norm_num) hb e he
  have h0 := h 0 (by norm_num)
  have h1 := h 1 (by norm_num)
  have h2 := h 2 (by norm_num)
  have h3 := h 3 (by norm_num)
  have h4 := h 4 (by norm_num)
  simp only [Fin.sum_univ_five] at h0 h1 h2 h3 h4
  norm_num at h0 h1 h2 h3 h4
  intro i
  fin_cases i <;> simp <;> linarith

theorem bdf_stable_4 : Stable [1 / 4, -4 / 3, 3, -4, 25 / 12] 4 := by
  refine stable_of [9 / 10, 1] [-9 / 40, 29 / 40, -77 / 120, -1 / 24, 25 / 12] 1 4 ?_ rfl rfl rfl rfl ?_
  · refine Polynomial.funext fun x => ?_
    simp [ofList, Finset.sum_range_succ]
    ring
  · norm_num [Finset.sum_range_succ]

/-- The coefficients of order 5. -/
theorem bdf_values_5 {b : Fin (5 + 1) → ℝ} (hb : bdfkCoeffs 5 = some b) :
    ∀ i, b i = ([-1 / 5, 5 / 4, -10 / 3, 5, -5, 137 / 60] : List ℝ).getD i 0 := by
  have h : ∀ e : ℕ, e ≤ 5 → ∑ i : Fin 6, b i * ((i : ℕ) : ℝ) ^ e = e * (5 : ℝ) ^ (e - 1) :=
    fun e he => bdf_moments (by norm_num) hb e he
  have h0 := h 0 (by norm_num)
  have h1 := h 1 (by norm_num)
  have h2 := h 2 (by norm_num)
  have h3 := h 3 (by norm_num)
  have h4 := h 4 (by norm_num)
  have h5 := h 5 (by norm_num)
  simp only [Fin.sum_univ_six] at h0 h1 h2 h3 h4 h5
  norm_num at h0 h1 h2 h3 h4 h5
  intro i
  fin_cases i <;> simp <;> linarith

theorem bdf_stable_5 : Stable [-1 / 5, 5 / 4, -10 / 3, 5, -5, 137 / 60] 5 := by
  refine stable_of [2 / 5, 6 / 5, 1] [2 / 25, -9 / 50, -11 / 75, 181 / 300, -19 / 300, 7 / 300, 137 / 60] 2 6 ?_ rfl rfl rfl rfl ?_
  · refine Polynomial.funext fun x => ?_
    simp [ofList, Finset.sum_range_succ]
    ring
  · norm_num [Finset.sum_range_succ]

/-- The coefficients of order 6. -/
theorem bdf_values_6 {b : Fin (6 + 1) → ℝ} (hb : bdfkCoeffs 6 = some b) :
    ∀ i, b i = ([1 / 6, -6 / 5, 15 / 4, -20 / 3, 15 / 2, -6, 49 / 20] : List ℝ).getD i 0 := by
  have h : ∀ e : ℕ, e ≤ 6 → ∑ i : Fin 7, b i * ((i : ℕ) : ℝ) ^ e = e * (6 : ℝ) ^ (e - 1) :=
    fun e he => bdf_moments (by norm_num) hb e he
  have h0 := h 0 (by norm_num)
  have h1 := h 1 (by norm_num)
  have h2 := h 2 (by norm_num)
  have h3 := h 3 (by norm_num)
  have h4 := h 4 (by norm_num)
  have h5 := h 5 (by norm_num)
  have h6 := h 6 (by norm_num)
  simp only [Fin.sum_univ_seven] at h0 h1 h2 h3 h4 h5 h6
  norm_num at h0 h1 h2 h3 h4 h5 h6
  intro i
  fin_cases i <;> simp <;> linarith

theorem bdf_stable_6 : Stable [1 / 6, -6 / 5, 15 / 4, -20 / 3, 15 / 2, -6, 49 / 20] 6 := by
  refine stable_of [-2 / 5, -1 / 2, 1 / 2, 7 / 5, 1] [1 / 15, -33 / 100, 73 / 150, 37 / 600, -19 / 30, 0, -14 / 75, 41 / 200, -3 / 25, 49 / 20] 4 9 ?_ rfl rfl rfl rfl ?_
  · refine Polynomial.funext fun x => ?_
    simp [ofList, Finset.sum_range_succ]
    ring
  · norm_num [Finset.sum_range_succ]

/-- The coefficients of order 7. -/
theorem bdf_values_7 {b : Fin (7 + 1) → ℝ} (hb : bdfkCoeffs 7 = some b) :
    ∀ i, b i = ([-1 / 7, 7 / 6, -21 / 5, 35 / 4, -35 / 3, 21 / 2, -7, 363 / 140] : List ℝ).getD i 0 := by
  have h : ∀ e : ℕ, e ≤ 7 → ∑ i : Fin 8, b i * ((i : ℕ) : ℝ) ^ e = e * (7 : ℝ) ^ (e - 1) :=
    fun e he => bdf_moments (by norm_num) hb e he
  have h0 := h 0 (by norm_num)
  have h1 := h 1 (by norm_num)
  have h2 := h 2 (by norm_num)
  have h3 := h 3 (by norm_num)
  have h4 := h 4 (by norm_num)
  have h5 := h 5 (by norm_num)
  have h6 := h 6 (by norm_num)
  have h7 := h 7 (by norm_num)
  simp only [Fin.sum_univ_eight] at h0 h1 h2 h3 h4 h5 h6 h7
  norm_num at h0 h1 h2 h3 h4 h5 h6 h7
  intro i
  fin_cases i <;> simp <;> linarith

end Verif.NS
