import Verif.Model.CGFloat
import Verif.Lemmas.ExchangeFloat
import Mathlib.LinearAlgebra.Matrix.Notation
import Mathlib.Tactic.LinearCombination

/-! C137: `cg` in floating point.

`cg` tests the residual it updates along the way, not the residual of the vector it returns (cg.py 72, 81). In exact
arithmetic the two are equal (C44). In floating point they drift apart by the rounding errors of all iterations:
`C137_partial` bounds the gap, `C137_violated` shows that it can be as large as the right hand side. -/

namespace Verif.Linalg

open Verif.Core

variable {ι : Type*}

/-- The states after `k` turns of the loop, without the test. -/
def cgIterFl (fl : ℚ → ℚ) (dot : (ι → ℚ) → (ι → ℚ) → ℚ) (A M : (ι → ℚ) → ι → ℚ) (b x0 : ι → ℚ) :
    ℕ → Option (CGState ℚ (ι → ℚ))
  | 0 => some (cgInitFl fl dot A M b x0)
  | k + 1 => (cgIterFl fl dot A M b x0 k).bind (cgBodyFl fl dot A M)

theorem cgBodyFl_eq {fl : ℚ → ℚ} {dot : (ι → ℚ) → (ι → ℚ) → ℚ} {A M : (ι → ℚ) → ι → ℚ}
    {s s' : CGState ℚ (ι → ℚ)} (h : cgBodyFl fl dot A M s = some s') :
    ∃ a : ℚ, s'.x = addMulFl fl s.x a s.p ∧ s'.r = subMulFl fl s.r a (A s.p) ∧ s'.gamma = dot s'.r (M s'.r) ∧
      s'.k = s.k + 1 := by
  unfold cgBodyFl at h
  simp only at h
  split_ifs at h
  simp only [Option.some.injEq] at h
  subst h
  exact ⟨_, rfl, rfl, rfl, rfl⟩

theorem cgLoopFl_spec {fl : ℚ → ℚ} {dot : (ι → ℚ) → (ι → ℚ) → ℚ} {A M : (ι → ℚ) → ι → ℚ} {b x0 : ι → ℚ}
    {atol2 : ℚ} {maxiter : ℕ} (fuel : ℕ) (s t : CGState ℚ (ι → ℚ)) (hfuel : maxiter ≤ s.k + fuel) (hk : s.k ≤ maxiter)
    (hs : cgIterFl fl dot A M b x0 s.k = some s) (hg : s.gamma = dot s.r (M s.r))
    (h : cgLoopFl fl dot A M atol2 maxiter fuel s = some t) :
    cgIterFl fl dot A M b x0 t.k = some t ∧ t.k ≤ maxiter ∧ t.gamma = dot t.r (M t.r) ∧
      (t.k < maxiter → t.gamma ≤ atol2) := by
  induction fuel generalizing s with
  | zero =>
    simp only [cgLoopFl, Option.some.injEq] at h
    subst h
    exact ⟨hs, hk, hg, fun h => by omega⟩
  | succ fuel ih =>
    unfold cgLoopFl at h
    by_cases hc : cgCond atol2 maxiter s
    · rw [if_pos hc] at h
      split at h
      · exact absurd h (by simp)
      · rename_i s' hb
        obtain ⟨_, _, _, hg', hk'⟩ := cgBodyFl_eq hb
        refine ih s' (by omega) (by rw [hk']; exact hc.2) ?_ hg' h
        rw [hk']
        simp only [cgIterFl, hs, Option.bind_some, hb]
    · rw [if_neg hc] at h
      simp only [Option.some.injEq] at h
      subst h
      refine ⟨hs, hk, hg, fun hlt => ?_⟩
      by_contra hgt
      exact hc ⟨not_le.mp hgt, hlt⟩

/-- A number whose rounding is known is at most twice as large. -/
theorem abs_le_two_fl {fl : ℚ → ℚ} {ε : ℚ} (hr : ∀ x, |fl x - x| ≤ ε * |x|) (hε : ε ≤ 1 / 2) (y : ℚ) :
    |y| ≤ 2 * |fl y| := by
  have h1 := hr y
  have h2 := abs_sub_abs_le_abs_sub y (fl y)
  rw [abs_sub_comm] at h2
  have h3 : ε * |y| ≤ 1 / 2 * |y| := mul_le_mul_of_nonneg_right hε (abs_nonneg y)
  linarith

/-- For every rounding, every operator `A` that approximates a linear map `L`, every preconditioner, dot product,
start vector and number of iterations: the vector `r` that `cg` tests is close to the residual `b - L x` of the vector
`x` that it returns. `ε` is the rounding error, `η` the relative error of `A` and `B` a bound for `L`, both in the maximum
norm; `X` and `R` bound the iterates and their residuals. Missing from the full claim: the residual of `x` itself meets
the tolerance; `C137_violated` shows that it need not. -/
theorem C137_partial {fl : ℚ → ℚ} {ε η B X R : ℚ} (hε0 : 0 ≤ ε) (hε : ε ≤ 1 / 2) (hr : ∀ x, |fl x - x| ≤ ε * |x|)
    (hη0 : 0 ≤ η) (hη : η ≤ 1) (hB : 0 ≤ B) (L : (ι → ℚ) →ₗ[ℚ] (ι → ℚ))
    (hL : ∀ v c, (∀ i, |v i| ≤ c) → ∀ i, |L v i| ≤ B * c)
    (dot : (ι → ℚ) → (ι → ℚ) → ℚ) (A M : (ι → ℚ) → ι → ℚ)
    (hA : ∀ v c, (∀ i, |v i| ≤ c) → ∀ i, |A v i - L v i| ≤ η * B * c)
    (b x0 : ι → ℚ) (tol atol : ℚ) (maxiter : ℕ) (x : ι → ℚ) (res : ℚ) (n : ℕ)
    (h : cgFl fl dot A M b x0 tol atol maxiter = some (x, res, n))
    (hX : ∀ k ≤ n, ∀ s, cgIterFl fl dot A M b x0 k = some s → ∀ i, |s.x i| ≤ X ∧ |s.r i| ≤ R) :
    n ≤ maxiter ∧ ∃ r : ι → ℚ, res = dot r (M r) ∧
      (n < maxiter → res ≤ max (fl (fl (tol ^ 2) * dot b b)) (fl (atol ^ 2))) ∧
      ∀ i, |(b i - L x i) - r i| ≤ (n + 1) * ((20 * ε + 6 * η) * B * X + 2 * ε * R) := by
  unfold cgFl at h
  split at h
  · exact absurd h (by simp)
  rename_i t ht
  simp only [Option.some.injEq, Prod.mk.injEq] at h
  obtain ⟨rfl, rfl, rfl⟩ := h
  obtain ⟨hit, hk, hg, hstop⟩ := cgLoopFl_spec maxiter (cgInitFl fl dot A M b x0) t (by simp [cgInitFl])
    (by simp [cgInitFl]) rfl rfl ht
  refine ⟨hk, t.r, hg, hstop, ?_⟩
  clear ht hstop hk hg
  have key : ∀ k ≤ t.k, ∀ s, cgIterFl fl dot A M b x0 k = some s →
      ∀ i, |(b i - L s.x i) - s.r i| ≤ (k + 1) * ((20 * ε + 6 * η) * B * X + 2 * ε * R) := by
    intro k
    induction k with
    | zero =>
      intro hk s hs i
      have hb := hX 0 hk s hs
      simp only [cgIterFl, Option.some.injEq] at hs
      subst hs
      simp only [cgInitFl] at hb ⊢
      have e1 := hr (b i - A x0 i)
      have e2 := abs_le_two_fl hr hε (b i - A x0 i)
      have e3 := hA x0 X (fun j => (hb j).1) i
      have hX0 : 0 ≤ X := (abs_nonneg _).trans (hb i).1
      have hRi := (hb i).2
      have hR0 : 0 ≤ R := (abs_nonneg _).trans hRi
      have e4 : ε * |b i - A x0 i| ≤ ε * (2 * R) := mul_le_mul_of_nonneg_left (by linarith) hε0
      have e5 : |b i - L x0 i - fl (b i - A x0 i)| ≤ |A x0 i - L x0 i| + |fl (b i - A x0 i) - (b i - A x0 i)| := by
        have : b i - L x0 i - fl (b i - A x0 i) = (A x0 i - L x0 i) - (fl (b i - A x0 i) - (b i - A x0 i)) := by ring
        rw [this]; exact abs_sub _ _
      have hBX : 0 ≤ B * X := mul_nonneg hB hX0
      have t1 : 0 ≤ ε * (B * X) := mul_nonneg hε0 hBX
      have t2 : 0 ≤ η * (B * X) := mul_nonneg hη0 hBX
      push_cast
      nlinarith
    | succ k ih =>
      intro hk s hs i
      have hbs := hX (k + 1) hk s hs
      rw [cgIterFl] at hs
      obtain ⟨s0, hs0, hbody⟩ := Option.bind_eq_some_iff.mp hs
      have hb0 := hX k (by omega) s0 hs0
      have hgap := ih (by omega) s0 hs0 i
      obtain ⟨a, hx, hrr, _, _⟩ := cgBodyFl_eq hbody
      have hX0 : 0 ≤ X := (abs_nonneg _).trans (hbs i).1
      have hR0 : 0 ≤ R := (abs_nonneg _).trans (hbs i).2
      -- the update of `x`
      have hap : ∀ j, |a * s0.p j| ≤ 6 * X ∧ |s.x j - (s0.x j + a * s0.p j)| ≤ 8 * ε * X := by
        intro j
        have hxj : s.x j = fl (s0.x j + fl (a * s0.p j)) := by rw [hx]; rfl
        have e1 := abs_le_two_fl hr hε (s0.x j + fl (a * s0.p j))
        rw [← hxj] at e1
        have e2 : |fl (a * s0.p j)| ≤ |s0.x j + fl (a * s0.p j)| + |s0.x j| := by
          have : fl (a * s0.p j) = (s0.x j + fl (a * s0.p j)) - s0.x j := by ring
          conv_lhs => rw [this]
          exact abs_sub _ _
        have e3 := abs_le_two_fl hr hε (a * s0.p j)
        have b1 := (hbs j).1
        have b2 := (hb0 j).1
        have e4 : |a * s0.p j| ≤ 6 * X := by linarith
        refine ⟨e4, ?_⟩
        have e5 := hr (s0.x j + fl (a * s0.p j))
        have e6 := hr (a * s0.p j)
        rw [← hxj] at e5
        have e7 : ε * |s0.x j + fl (a * s0.p j)| ≤ ε * (2 * X) := mul_le_mul_of_nonneg_left (by linarith) hε0
        have e8 : ε * |a * s0.p j| ≤ ε * (6 * X) := mul_le_mul_of_nonneg_left e4 hε0
        have e9 : |s.x j - (s0.x j + a * s0.p j)| ≤
            |s.x j - (s0.x j + fl (a * s0.p j))| + |fl (a * s0.p j) - a * s0.p j| := by
          have : s.x j - (s0.x j + a * s0.p j) =
              (s.x j - (s0.x j + fl (a * s0.p j))) + (fl (a * s0.p j) - a * s0.p j) := by ring
          rw [this]; exact abs_add_le _ _
        linarith
      -- `a * A p` against `L (a * p)`
      have hLap : |a * L s0.p i| ≤ B * (6 * X) := by
        have := hL (a • s0.p) (6 * X) (fun j => by simpa using (hap j).1) i
        simpa using this
      have hAp : |a * A s0.p i - a * L s0.p i| ≤ η * B * (6 * X) := by
        by_cases ha : a = 0
        · subst ha
          simp only [zero_mul, sub_self, abs_zero]
          positivity
        · have hapos : 0 < |a| := abs_pos.mpr ha
          have := hA s0.p (6 * X / |a|) (fun j => by
            rw [le_div_iff₀ hapos, mul_comm, ← abs_mul]; exact (hap j).1) i
          rw [← mul_sub, abs_mul]
          calc |a| * |A s0.p i - L s0.p i| ≤ |a| * (η * B * (6 * X / |a|)) := by gcongr
            _ = η * B * (6 * X) := by field_simp
      have hLxi : |L (s.x - (s0.x + a • s0.p)) i| ≤ B * (8 * ε * X) :=
        hL _ _ (fun j => by simpa using (hap j).2) i
      have hlin : L (s.x - (s0.x + a • s0.p)) i = L s.x i - L s0.x i - a * L s0.p i := by
        simp only [map_sub, map_add, map_smul, Pi.sub_apply, Pi.add_apply, Pi.smul_apply, smul_eq_mul]
        ring
      -- the update of `r`
      have hri : s.r i = fl (s0.r i - fl (a * A s0.p i)) := by rw [hrr]; rfl
      have e1 := hr (s0.r i - fl (a * A s0.p i))
      have e2 := abs_le_two_fl hr hε (s0.r i - fl (a * A s0.p i))
      rw [← hri] at e1 e2
      have e3 := hr (a * A s0.p i)
      have bR := (hbs i).2
      have e4 : ε * |s0.r i - fl (a * A s0.p i)| ≤ ε * (2 * R) := mul_le_mul_of_nonneg_left (by linarith) hε0
      have e5 : |a * A s0.p i| ≤ 12 * (B * X) := by
        have := abs_add_le (a * A s0.p i - a * L s0.p i) (a * L s0.p i)
        rw [sub_add_cancel] at this
        have hBX : 0 ≤ B * X := mul_nonneg hB hX0
        nlinarith
      have e6 : ε * |a * A s0.p i| ≤ ε * (12 * (B * X)) := mul_le_mul_of_nonneg_left e5 hε0
      have hsplit : (b i - L s.x i) - s.r i = ((b i - L s0.x i) - s0.r i) - L (s.x - (s0.x + a • s0.p)) i +
          (a * A s0.p i - a * L s0.p i) + (fl (a * A s0.p i) - a * A s0.p i) -
          (s.r i - (s0.r i - fl (a * A s0.p i))) := by
        rw [hlin]; ring
      have hbound : |(b i - L s.x i) - s.r i| ≤ |(b i - L s0.x i) - s0.r i| + |L (s.x - (s0.x + a • s0.p)) i| +
          |a * A s0.p i - a * L s0.p i| + |fl (a * A s0.p i) - a * A s0.p i| +
          |s.r i - (s0.r i - fl (a * A s0.p i))| := by
        rw [hsplit]
        refine (abs_sub _ _).trans (add_le_add ?_ le_rfl)
        refine (abs_add_le _ _).trans (add_le_add ?_ le_rfl)
        refine (abs_add_le _ _).trans (add_le_add ?_ le_rfl)
        exact abs_sub _ _
      push_cast
      nlinarith
  exact key t.k le_rfl t hit

/-- The hypothesis on `A` of `C137_partial` holds for the product with a matrix when every product is rounded and the
products of a row are added up in any order, with `η = (1 + ε)^n - 1` for `n` columns and `B` the largest sum of
absolute values in a row. -/
theorem C137_matvec [Fintype ι] {fl : ℚ → ℚ} {ε B : ℚ} (hε0 : 0 ≤ ε) (hr : ∀ x, |fl x - x| ≤ ε * |x|)
    (a : ι → ι → ℚ) (hB : ∀ i, ∑ j, |a i j| ≤ B) (A : (ι → ℚ) → ι → ℚ)
    (hA : ∀ v i, RoundedSum fl (Finset.univ.val.map (fun j => fl (a i j * v j))) (A v i))
    (v : ι → ℚ) (c : ℚ) (hv : ∀ i, |v i| ≤ c) (i : ι) :
    |A v i - ∑ j, a i j * v j| ≤ ((1 + ε) ^ Fintype.card ι - 1) * B * c ∧ |∑ j, a i j * v j| ≤ B * c := by
  have h := (hA v i).error hε0 hr
  have hpos := (hA v i).pos
  rw [Multiset.map_map, Multiset.card_map, Finset.card_val, Finset.card_univ] at *
  have hs1 : (Multiset.map (fun j => fl (a i j * v j)) Finset.univ.val).sum = ∑ j, fl (a i j * v j) := rfl
  have hs2 : (Multiset.map (abs ∘ fun j => fl (a i j * v j)) Finset.univ.val).sum = ∑ j, |fl (a i j * v j)| := rfl
  rw [hs1, hs2] at h
  have hc : 0 ≤ c := (abs_nonneg _).trans (hv i)
  have hW : ∑ j, |a i j * v j| ≤ B * c := by
    calc ∑ j, |a i j * v j| ≤ ∑ j, |a i j| * c := by
          apply Finset.sum_le_sum
          intro j _
          rw [abs_mul]
          exact mul_le_mul_of_nonneg_left (hv j) (abs_nonneg _)
      _ = (∑ j, |a i j|) * c := by rw [Finset.sum_mul]
      _ ≤ B * c := mul_le_mul_of_nonneg_right (hB i) hc
  have hW0 : 0 ≤ ∑ j, |a i j * v j| := Finset.sum_nonneg (fun _ _ => abs_nonneg _)
  have e1 : ∑ j, |fl (a i j * v j)| ≤ (1 + ε) * ∑ j, |a i j * v j| := by
    rw [Finset.mul_sum]
    apply Finset.sum_le_sum
    intro j _
    have h1 := hr (a i j * v j)
    have h2 := abs_sub_abs_le_abs_sub (fl (a i j * v j)) (a i j * v j)
    linarith
  have e2 : |∑ j, fl (a i j * v j) - ∑ j, a i j * v j| ≤ ε * ∑ j, |a i j * v j| := by
    rw [← Finset.sum_sub_distrib, Finset.mul_sum]
    exact (Finset.abs_sum_le_sum_abs _ _).trans (Finset.sum_le_sum (fun j _ => hr _))
  have hG : 1 ≤ (1 + ε) ^ (Fintype.card ι - 1) := one_le_pow₀ (by linarith)
  have hGs : (1 + ε) ^ Fintype.card ι = (1 + ε) ^ (Fintype.card ι - 1) * (1 + ε) := by
    rw [← pow_succ]; congr 1; omega
  refine ⟨?_, (Finset.abs_sum_le_sum_abs _ _).trans hW⟩
  have e3 : |A v i - ∑ j, a i j * v j| ≤ ((1 + ε) ^ Fintype.card ι - 1) * ∑ j, |a i j * v j| := by
    have e4 := abs_sub_le (A v i) (∑ j, fl (a i j * v j)) (∑ j, a i j * v j)
    have e5 : ((1 + ε) ^ (Fintype.card ι - 1) - 1) * ∑ j, |fl (a i j * v j)| ≤
        ((1 + ε) ^ (Fintype.card ι - 1) - 1) * ((1 + ε) * ∑ j, |a i j * v j|) :=
      mul_le_mul_of_nonneg_left e1 (by linarith)
    rw [hGs]
    nlinarith
  rw [mul_assoc]
  refine e3.trans (mul_le_mul_of_nonneg_left hW ?_)
  rw [hGs]; nlinarith

/-- `1 - 2^(d+1)` has `d + 1` digits, all ones, and is rounded away from zero. -/
theorem flBin_minus {d : ℕ} (hd : 1 ≤ d) : flBin d (1 - 2 ^ (d + 1)) = -2 ^ (d + 1) := by
  obtain ⟨r, rfl⟩ : ∃ r, d = r + 1 := ⟨d - 1, by omega⟩
  have h1 : 1 ≤ 2 ^ (r + 1 + 1) := Nat.one_le_two_pow
  have hcast : |(1 - 2 ^ (r + 1 + 1) : ℚ)| = ((2 ^ (r + 1 + 1) - 1 : ℕ) : ℚ) := by
    rw [Nat.cast_sub h1]
    have : (1 : ℚ) ≤ 2 ^ (r + 1 + 1) := by exact_mod_cast h1
    rw [abs_of_nonpos (by linarith)]; push_cast; ring
  have hlog : Int.log 2 |(1 - 2 ^ (r + 1 + 1) : ℚ)| = ((r + 1 : ℕ) : ℤ) := by
    rw [hcast, Int.log_natCast]
    congr 1
    have h2 : 1 ≤ 2 ^ (r + 1) := Nat.one_le_two_pow
    rw [Nat.log_eq_iff (Or.inl (by omega))]
    rw [pow_succ 2 (r + 1)]
    omega
  have hu : ulp (r + 1) (1 - 2 ^ (r + 1 + 1)) = 2 := by
    unfold ulp; rw [hlog]; simp
  have hx : ((1 : ℚ) - 2 ^ (r + 1 + 1)) / 2 = ((-2 ^ (r + 1) : ℤ) : ℚ) + 1 / 2 := by
    push_cast; ring
  have hfl : ⌊((-2 ^ (r + 1) : ℤ) : ℚ) + 1 / 2⌋ = -2 ^ (r + 1) := by
    rw [Int.floor_intCast_add]; norm_num
  unfold flBin
  rw [hu, hx]
  have : roundEven (((-2 ^ (r + 1) : ℤ) : ℚ) + 1 / 2) = -2 ^ (r + 1) := by
    unfold roundEven
    rw [if_pos (by rw [Int.fract, hfl]; push_cast; ring), hfl, if_pos]
    exact ⟨-2 ^ r, by ring⟩
  rw [this]; push_cast; ring

/-- The full claim fails in every precision `d`: for the equation `x = 1` and the start vector `2^(d+1)`, `cg` returns
`0` after one iteration and reports a residual of zero, for every tolerance, while the residual of `0` is as large as
the right hand side. Products are rounded as well. -/
theorem C137_violated {d : ℕ} (hd : 1 ≤ d) (tol atol : ℚ) (htol : 0 ≤ tol ∧ tol < 1) (hatol : 0 ≤ atol ∧ atol < 1)
    (maxiter : ℕ) (hm : 2 ≤ maxiter) :
    ∃ b x0 x : Fin 1 → ℚ, flBin d (b 0) = b 0 ∧ flBin d (x0 0) = x0 0 ∧
      cgFl (flBin d) (fun u v => flBin d (u 0 * v 0)) id id b x0 tol atol maxiter = some (x, 0, 1) ∧
      (b 0 - x 0) ^ 2 = b 0 ^ 2 ∧ max (tol ^ 2 * b 0 ^ 2) (atol ^ 2) < (b 0 - x 0) ^ 2 := by
  have h2 : (1 : ℤ) ≤ 2 ^ d := by exact_mod_cast Nat.one_le_two_pow
  have f0 : flBin d 0 = 0 := by simpa using flBin_int hd (k := 0) (by rw [abs_zero]; omega)
  have f1 : flBin d 1 = 1 := by simpa using flBin_int hd (k := 1) (by rw [abs_one]; exact h2)
  have fpow : ∀ m : ℕ, flBin d (2 ^ m) = 2 ^ m := by
    intro m
    have := flBin_fix hd 1 m (by rw [abs_one]; exact h2)
    simpa using this
  have fneg : ∀ m : ℕ, flBin d (-2 ^ m) = -2 ^ m := by
    intro m
    have := flBin_fix hd (-1) m (by rw [abs_neg, abs_one]; exact h2)
    simpa using this
  have fr := flBin_minus hd
  have hrel : ∀ x, |flBin d x - x| ≤ 1 / 2 * |x| := by
    intro x
    refine (flBin_rel d x).trans (mul_le_mul_of_nonneg_right ?_ (abs_nonneg x))
    calc ((1 : ℚ) / 2) ^ d ≤ (1 / 2) ^ 1 := pow_le_pow_of_le_one (by norm_num) (by norm_num) hd
      _ = 1 / 2 := by norm_num
  have hbd : ∀ y, 0 ≤ y → 0 ≤ flBin d y ∧ flBin d y ≤ 3 / 2 * y := by
    intro y hy
    have := hrel y
    rw [abs_of_nonneg hy, abs_le] at this
    exact ⟨by linarith, by linarith⟩
  let b : Fin 1 → ℚ := fun _ => 1
  let x0 : Fin 1 → ℚ := fun _ => 2 ^ (d + 1)
  let dot : (Fin 1 → ℚ) → (Fin 1 → ℚ) → ℚ := fun u v => flBin d (u 0 * v 0)
  have hsq : (-2 ^ (d + 1) : ℚ) * -2 ^ (d + 1) = 2 ^ (d + 1 + (d + 1)) := by rw [pow_add]; ring
  have hinit : cgInitFl (flBin d) dot id id b x0 =
      ⟨x0, fun _ => -2 ^ (d + 1), 2 ^ (d + 1 + (d + 1)), fun _ => -2 ^ (d + 1), 0⟩ := by
    unfold cgInitFl
    simp only [id, dot, b, x0, fr, hsq, fpow]
  have hne : (2 : ℚ) ^ (d + 1 + (d + 1)) ≠ 0 := by positivity
  have hbody : cgBodyFl (flBin d) dot id id
      ⟨x0, fun _ => -2 ^ (d + 1), 2 ^ (d + 1 + (d + 1)), fun _ => -2 ^ (d + 1), 0⟩ =
      some ⟨fun _ => 0, fun _ => 0, 0, fun _ => 0, 1⟩ := by
    unfold cgBodyFl addMulFl subMulFl
    simp only [id, dot, x0]
    rw [hsq, fpow, if_neg hne, if_neg hne, div_self hne, f1]
    simp only [one_mul, fneg, add_neg_cancel, sub_self, f0, mul_zero, zero_div, zero_mul, add_zero]
  have hbs : dot b b = 1 := by simp only [dot, b, mul_one]; exact f1
  obtain ⟨c1, c2⟩ := hbd (tol ^ 2) (sq_nonneg _)
  obtain ⟨c3, c4⟩ := hbd (flBin d (tol ^ 2) * 1) (by rw [mul_one]; exact c1)
  obtain ⟨c5, c6⟩ := hbd (atol ^ 2) (sq_nonneg _)
  have t2 : tol ^ 2 < 1 := by nlinarith
  have a2 : atol ^ 2 < 1 := by nlinarith
  have hlo : 0 ≤ cgBoundFl (flBin d) dot b tol atol := le_max_of_le_right c5
  have hhi : cgBoundFl (flBin d) dot b tol atol < 2 ^ (d + 1 + (d + 1)) := by
    have h4 : (4 : ℚ) ≤ 2 ^ (d + 1 + (d + 1)) := by
      calc (4 : ℚ) = 2 ^ 2 := by norm_num
        _ ≤ 2 ^ (d + 1 + (d + 1)) := pow_le_pow_right₀ (by norm_num) (by omega)
    unfold cgBoundFl
    rw [hbs]
    exact max_lt (by linarith) (by linarith)
  refine ⟨b, x0, fun _ => 0, f1, fpow _, ?_, by simp [b], ?_⟩
  · obtain ⟨m, rfl⟩ : ∃ m, maxiter = m + 1 + 1 := ⟨maxiter - 2, by omega⟩
    show cgFl (flBin d) dot id id b x0 tol atol (m + 1 + 1) = _
    unfold cgFl
    rw [hinit]
    have : cgLoopFl (flBin d) dot id id (cgBoundFl (flBin d) dot b tol atol) (m + 1 + 1) (m + 1 + 1)
        ⟨x0, fun _ => -2 ^ (d + 1), 2 ^ (d + 1 + (d + 1)), fun _ => -2 ^ (d + 1), 0⟩ =
        some ⟨fun _ => 0, fun _ => 0, 0, fun _ => 0, 1⟩ := by
      unfold cgLoopFl
      rw [if_pos ⟨hhi, by simp only; omega⟩, hbody]
      simp only
      unfold cgLoopFl
      rw [if_neg (fun h => absurd h.1 (not_lt.mpr hlo))]
    rw [this]
  · simp only [b]
    norm_num
    exact ⟨by rw [abs_of_nonneg htol.1]; exact htol.2, by rw [abs_of_nonneg hatol.1]; exact hatol.2⟩

/-- In `float32` with `tol=1e-5`, `atol=0`, `maxiter=10`: start vector `33554432`, returned vector `0`, right hand
side `1`. -/
example : (cgFl (flBin 24) (fun u v => flBin 24 (u 0 * v 0)) id id (fun _ : Fin 1 => 1) (fun _ => 33554432)
    (1 / 100000) 0 10).map (fun t => (t.1 0, t.2)) = some (0, 0, 1) := by decide +kernel

/-- The hypotheses of `C137_partial` on the equation `2 x = 3` in two digit arithmetic. -/
example : ∃ (x : Fin 1 → ℚ) (res : ℚ) (n : ℕ),
    cgFl (flBin 2) (fun u v => flBin 2 (u 0 * v 0)) (fun v i => flBin 2 (2 * v i)) id (fun _ : Fin 1 => 3)
      (fun _ => 0) (1 / 100000) 0 10 = some (x, res, n) ∧
    (∀ v c, (∀ i, |v i| ≤ c) → ∀ i : Fin 1, |(2 • LinearMap.id : (Fin 1 → ℚ) →ₗ[ℚ] (Fin 1 → ℚ)) v i| ≤ 2 * c) ∧
    (∀ v c, (∀ i, |v i| ≤ c) → ∀ i : Fin 1,
      |flBin 2 (2 * v i) - (2 • LinearMap.id : (Fin 1 → ℚ) →ₗ[ℚ] (Fin 1 → ℚ)) v i| ≤ 1 / 4 * 2 * c) := by
  have hsome : (cgFl (flBin 2) (fun u v => flBin 2 (u 0 * v 0)) (fun v i => flBin 2 (2 * v i)) id (fun _ : Fin 1 => 3)
      (fun _ => 0) (1 / 100000) 0 10).isSome = true := by decide +kernel
  obtain ⟨⟨x, res, n⟩, h⟩ := Option.isSome_iff_exists.mp hsome
  refine ⟨x, res, n, h, ?_, ?_⟩
  · intro v c hv i
    have := hv i
    simp only [LinearMap.smul_apply, LinearMap.id_apply, Pi.smul_apply, nsmul_eq_mul, abs_mul]
    norm_num
    exact this
  · intro v c hv i
    have h1 := hv i
    have h2 := flBin_rel 2 (2 * v i)
    simp only [LinearMap.smul_apply, LinearMap.id_apply, Pi.smul_apply, nsmul_eq_mul, abs_mul] at h2 ⊢
    norm_num at h2 ⊢
    linarith

/-- When nothing is rounded the computation is the one of `Model/CG.lean`, to which C44 to C46 apply: in exact arithmetic the
tested and the true residual agree, and the iteration is the method of conjugate gradients. -/
theorem C137_exact {fl : ℚ → ℚ} (hfl : ∀ x, fl x = x) (dot : (ι → ℚ) → (ι → ℚ) → ℚ) (A M : (ι → ℚ) → ι → ℚ)
    (b x0 : ι → ℚ) (tol atol : ℚ) (maxiter : ℕ) :
    cgFl fl dot A M b x0 tol atol maxiter = cg dot A M b x0 tol atol maxiter := by
  have h1 : ∀ (x : ι → ℚ) a p, addMulFl fl x a p = x + a • p := fun x a p => by
    funext i; simp [addMulFl, hfl]
  have h2 : ∀ (x : ι → ℚ) a p, subMulFl fl x a p = x - a • p := fun x a p => by
    funext i; simp [subMulFl, hfl]
  have hbody : ∀ s, cgBodyFl fl dot A M s = cgBody dot A M s := fun s => by
    simp only [cgBodyFl, cgBody, h1, h2, hfl]
  have hloop : ∀ atol2 fuel s, cgLoopFl fl dot A M atol2 maxiter fuel s = cgLoop dot A M atol2 maxiter fuel s := by
    intro atol2 fuel
    induction fuel with
    | zero => intro s; rfl
    | succ fuel ih =>
      intro s
      rw [cgLoopFl, cgLoop, hbody]
      split_ifs
      · cases cgBody dot A M s with
        | none => rfl
        | some s' => exact ih s'
      · rfl
  have hinit : cgInitFl fl dot A M b x0 = cgInit dot A M b x0 := by
    have : (fun i => fl (b i - A x0 i)) = b - A x0 := by funext i; simp [hfl]
    simp only [cgInitFl, cgInit, this]
  have hbound : cgBoundFl fl dot b tol atol = cgBound dot b tol atol := by simp only [cgBoundFl, cgBound, hfl]
  unfold cgFl cg
  rw [hloop, hinit, hbound]
  cases cgLoop dot A M (cgBound dot b tol atol) maxiter maxiter (cgInit dot A M b x0) <;> rfl

/-- A case with an answer: the equation `2 x = 4`, one iteration. -/
example : cgFl id (fun v w : Fin 1 → ℚ => v 0 * w 0) (fun v i => 2 * v i) id (fun _ => 4) (fun _ => 0) 0 0 10 =
    some (fun _ => 2, 0, 1) := by
  simp [cgFl, cgLoopFl, cgInitFl, cgBoundFl, cgBodyFl, cgCond, addMulFl, subMulFl]
  norm_num [cgLoopFl, cgCond]
  funext i
  norm_num [addMulFl]

end Verif.Linalg
