import Verif.Lemmas.NetClass
import Mathlib.Analysis.Calculus.ContDiff.Operations
import Mathlib.Analysis.SpecialFunctions.ExpDeriv
import Mathlib.Analysis.SpecialFunctions.Sqrt

/-!
# Classes of functions that are closed under the layers

Continuous functions, smooth functions, and functions that are bounded and Lipschitz continuous on each of a family of sets.
-/

namespace Verif.Niles

open Finset

variable {Θ : Type*}

theorem netClass_continuous [TopologicalSpace Θ] : NetClass (fun f : Θ → ℝ => Continuous f) where
  const a := continuous_const
  add hf hg := hf.add hg
  mul hf hg := hf.mul hg
  exp hf := Real.continuous_exp.comp hf
  inv := by
    intro f g hf _ h
    exact hf.inv₀ fun θ => ((Real.exp_pos _).trans_le (h θ)).ne'
  sqrt hf _ := Real.continuous_sqrt.comp (hf.add continuous_const)

theorem closedMax_continuous [TopologicalSpace Θ] : ClosedMax (fun f : Θ → ℝ => Continuous f) := fun hf hg => hf.max hg

theorem netClass_contDiff [NormedAddCommGroup Θ] [NormedSpace ℝ Θ] (n : WithTop ℕ∞) : NetClass (fun f : Θ → ℝ => ContDiff ℝ n f) where
  const a := contDiff_const
  add hf hg := hf.add hg
  mul hf hg := hf.mul hg
  exp hf := hf.exp
  inv := by
    intro f g hf _ h
    exact hf.inv fun θ => ((Real.exp_pos _).trans_le (h θ)).ne'
  sqrt := by
    intro f hf h
    exact (hf.add contDiff_const).sqrt fun θ => by have := h θ; positivity

/-- Bounded and Lipschitz continuous with respect to `D`, on each of the sets `B R`. -/
def BoundedLip (B : ℝ → Set Θ) (D : Θ → Θ → ℝ) (f : Θ → ℝ) : Prop :=
  ∀ R, ∃ M L, 0 ≤ M ∧ 0 ≤ L ∧ (∀ x ∈ B R, |f x| ≤ M) ∧ ∀ x ∈ B R, ∀ y ∈ B R, |f x - f y| ≤ L * D x y

theorem exp_lip {M a b : ℝ} (ha : a ≤ M) (hb : b ≤ M) : |Real.exp a - Real.exp b| ≤ Real.exp M * |a - b| := by
  have key : ∀ a b : ℝ, a ≤ M → b ≤ a → Real.exp a - Real.exp b ≤ Real.exp M * (a - b) := by
    intro a b ha hab
    have h1 := Real.add_one_le_exp (b - a)
    have h2 : Real.exp b = Real.exp a * Real.exp (b - a) := by rw [← Real.exp_add]; ring_nf
    have h3 : Real.exp a ≤ Real.exp M := Real.exp_le_exp.2 ha
    have h4 : Real.exp a * (b - a + 1) ≤ Real.exp a * Real.exp (b - a) := mul_le_mul_of_nonneg_left h1 (Real.exp_pos a).le
    have h5 : Real.exp a * (a - b) ≤ Real.exp M * (a - b) := mul_le_mul_of_nonneg_right h3 (by linarith)
    rw [h2]
    linarith
  rcases le_total b a with h | h
  · rw [abs_of_nonneg (by linarith [Real.exp_le_exp.2 h]), abs_of_nonneg (by linarith)]
    exact key a b ha h
  · rw [abs_sub_comm, abs_sub_comm a, abs_of_nonneg (by linarith [Real.exp_le_exp.2 h]), abs_of_nonneg (by linarith)]
    exact key b a hb h

theorem sqrt_lip {a b : ℝ} (ha : 1 / 10 ^ 6 ≤ a) (hb : 1 / 10 ^ 6 ≤ b) : |Real.sqrt a - Real.sqrt b| ≤ 1000 * |a - b| := by
  have h1 : (1 / 10 ^ 3 : ℝ) ≤ Real.sqrt a := Real.le_sqrt_of_sq_le (by norm_num at ha ⊢; linarith)
  have h2 : 0 ≤ Real.sqrt b := Real.sqrt_nonneg b
  have h3 : a - b = (Real.sqrt a - Real.sqrt b) * (Real.sqrt a + Real.sqrt b) := by
    have e1 := Real.mul_self_sqrt (show 0 ≤ a by linarith [show (0 : ℝ) < 1 / 10 ^ 6 by norm_num])
    have e2 := Real.mul_self_sqrt (show 0 ≤ b by linarith [show (0 : ℝ) < 1 / 10 ^ 6 by norm_num])
    linear_combination -e1 + e2
  rw [h3, abs_mul, abs_of_nonneg (by linarith : 0 ≤ Real.sqrt a + Real.sqrt b)]
  have h4 : 1 ≤ 1000 * (Real.sqrt a + Real.sqrt b) := by linarith
  have h5 := mul_le_mul_of_nonneg_left h4 (abs_nonneg (Real.sqrt a - Real.sqrt b))
  linarith

theorem netClass_boundedLip (B : ℝ → Set Θ) (D : Θ → Θ → ℝ) : NetClass (BoundedLip B D) where
  const a := fun R => ⟨|a|, 0, abs_nonneg a, le_rfl, fun _ _ => le_rfl, fun _ _ _ _ => by simp⟩
  add := by
    intro f g hf hg R
    obtain ⟨M, L, hM, hL, h1, h2⟩ := hf R
    obtain ⟨M', L', hM', hL', h1', h2'⟩ := hg R
    refine ⟨M + M', L + L', by positivity, by positivity, fun x hx => (abs_add_le _ _).trans (add_le_add (h1 x hx) (h1' x hx)),
      fun x hx y hy => ?_⟩
    have e : f x + g x - (f y + g y) = (f x - f y) + (g x - g y) := by ring
    rw [e, add_mul]
    exact (abs_add_le _ _).trans (add_le_add (h2 x hx y hy) (h2' x hx y hy))
  mul := by
    intro f g hf hg R
    obtain ⟨M, L, hM, hL, h1, h2⟩ := hf R
    obtain ⟨M', L', hM', hL', h1', h2'⟩ := hg R
    refine ⟨M * M', M * L' + M' * L, by positivity, by positivity, fun x hx => ?_, fun x hx y hy => ?_⟩
    · rw [abs_mul]; exact mul_le_mul (h1 x hx) (h1' x hx) (abs_nonneg _) hM
    · have e : f x * g x - f y * g y = f x * (g x - g y) + g y * (f x - f y) := by ring
      rw [e, add_mul, mul_assoc, mul_assoc]
      refine (abs_add_le _ _).trans (add_le_add ?_ ?_)
      · rw [abs_mul]; exact mul_le_mul (h1 x hx) (h2' x hx y hy) (abs_nonneg _) hM
      · rw [abs_mul]; exact mul_le_mul (h1' y hy) (h2 x hx y hy) (abs_nonneg _) hM'
  exp := by
    intro f hf R
    obtain ⟨M, L, hM, hL, h1, h2⟩ := hf R
    refine ⟨Real.exp M, Real.exp M * L, by positivity, by positivity, fun x hx => ?_, fun x hx y hy => ?_⟩
    · rw [abs_of_pos (Real.exp_pos _)]
      exact Real.exp_le_exp.2 ((le_abs_self _).trans (h1 x hx))
    · rw [mul_assoc]
      exact (exp_lip ((le_abs_self _).trans (h1 x hx)) ((le_abs_self _).trans (h1 y hy))).trans
        (mul_le_mul_of_nonneg_left (h2 x hx y hy) (Real.exp_pos _).le)
  inv := by
    intro f g hf hg h R
    obtain ⟨M, L, hM, hL, h1, h2⟩ := hf R
    obtain ⟨M', L', hM', hL', h1', -⟩ := hg R
    have hpos : ∀ x, 0 < f x := fun x => (Real.exp_pos _).trans_le (h x)
    have hinv : ∀ x ∈ B R, (f x)⁻¹ ≤ Real.exp M' := by
      intro x hx
      have e1 : Real.exp (-M') ≤ f x :=
        (Real.exp_le_exp.2 (by linarith [neg_abs_le (g x), h1' x hx])).trans (h x)
      rw [Real.exp_neg] at e1
      exact (inv_le_comm₀ (Real.exp_pos _) (hpos x)).1 e1
    refine ⟨Real.exp M', Real.exp M' * Real.exp M' * L, by positivity, by positivity, fun x hx => ?_, fun x hx y hy => ?_⟩
    · rw [abs_of_pos (inv_pos.2 (hpos x))]
      exact hinv x hx
    · have e : (f x)⁻¹ - (f y)⁻¹ = (f x)⁻¹ * (f y)⁻¹ * (f y - f x) := by
        have := (hpos x).ne'
        have := (hpos y).ne'
        field_simp
      rw [e, abs_mul, abs_of_pos (mul_pos (inv_pos.2 (hpos x)) (inv_pos.2 (hpos y))), abs_sub_comm, mul_assoc (_ * _) L]
      exact mul_le_mul (mul_le_mul (hinv x hx) (hinv y hy) (inv_pos.2 (hpos y)).le (Real.exp_pos _).le) (h2 x hx y hy)
        (abs_nonneg _) (by positivity)
  sqrt := by
    intro f hf h R
    obtain ⟨M, L, hM, hL, h1, h2⟩ := hf R
    refine ⟨M + 2, 1000 * L, by positivity, by positivity, fun x hx => ?_, fun x hx y hy => ?_⟩
    · rw [abs_of_nonneg (Real.sqrt_nonneg _)]
      have e1 := (le_abs_self _).trans (h1 x hx)
      rw [Real.sqrt_le_left (by positivity)]
      norm_num
      nlinarith [h x]
    · rw [mul_assoc]
      refine (sqrt_lip (by linarith [h x]) (by linarith [h y])).trans (mul_le_mul_of_nonneg_left ?_ (by norm_num))
      have e : f x + 1 / 10 ^ 6 - (f y + 1 / 10 ^ 6) = f x - f y := by ring
      rw [e]
      exact h2 x hx y hy

theorem closedMax_boundedLip (B : ℝ → Set Θ) (D : Θ → Θ → ℝ) : ClosedMax (BoundedLip B D) := by
  intro f g hf hg R
  obtain ⟨M, L, hM, hL, h1, h2⟩ := hf R
  obtain ⟨M', L', hM', hL', h1', h2'⟩ := hg R
  refine ⟨M + M', L + L', by positivity, by positivity, fun x hx => ?_, fun x hx y hy => ?_⟩
  · have e1 := h1 x hx
    have e2 := h1' x hx
    have e3 : |max (f x) (g x)| ≤ max |f x| |g x| := abs_max_le_max_abs_abs
    exact e3.trans (max_le (by linarith) (by linarith))
  · have e1 := h2 x hx y hy
    have e2 := h2' x hx y hy
    have e3 : 0 ≤ L * D x y := (abs_nonneg _).trans e1
    have e4 : 0 ≤ L' * D x y := (abs_nonneg _).trans e2
    rw [add_mul]
    exact (abs_max_sub_max_le_max _ _ _ _).trans (max_le (by linarith) (by linarith))

/-- `tanh` is made of the operations of the layers. -/
theorem tanh_closed {P : (Θ → ℝ) → Prop} (hP : NetClass P) : ClosedAct P Real.tanh := by
  intro g hg
  have h2 : P fun θ => 2 * g θ := hP.mul (hP.const 2) hg
  have he := hP.exp h2
  have hi := hP.inv (hP.add he (hP.const 1)) h2 fun θ => by linarith
  have e : (fun θ => Real.tanh (g θ)) = fun θ => 1 - 2 * (Real.exp (2 * g θ) + 1)⁻¹ := by
    funext θ
    rw [Real.tanh_eq]
    have h1 : Real.exp (2 * g θ) = Real.exp (g θ) * Real.exp (g θ) := by rw [← Real.exp_add]; ring_nf
    have h2 := Real.exp_pos (g θ)
    rw [h1, Real.exp_neg]
    field_simp
    ring
  rw [e]
  exact hP.sub (hP.const 1) (hP.mul (hP.const 2) hi)

/-- `nn.gelu` is made of the operations of the layers. -/
theorem gelu_closed {P : (Θ → ℝ) → Prop} (hP : NetClass P) : ClosedAct P gelu := by
  intro f hf
  have h3 : P fun θ => f θ ^ 3 := by
    have := hP.mul hf (hP.mul hf hf)
    have e : (fun θ => f θ ^ 3) = fun θ => f θ * (f θ * f θ) := by funext θ; ring
    rw [e]
    exact this
  exact hP.mul (hP.divConst hf 2) (hP.add (hP.const 1)
    (tanh_closed hP (hP.mul (hP.const _) (hP.add hf (hP.mul (hP.const _) h3)))))

end Verif.Niles
