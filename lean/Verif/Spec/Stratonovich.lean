import Mathlib.Analysis.Calculus.Deriv.Basic
import Mathlib.Topology.Order.Basic

/-! Solutions of stochastic differential equations with diagonal noise along a fixed path. -/

namespace Verif.Spec

/-- `Y` solves `dY_i = f_i(Y, t) dt + g_i(Y_i) ∘ dW_i` on `[0, 1]` along the path `W` in the sense of Stratonovich: in
the coordinates `φ_i` with `φ_i' = 1 / g_i`, in which the diffusion is constant, the difference of the solution and the
path is differentiable with the transformed drift as its derivative (Doss, Sussmann). The path need not be
differentiable. -/
def IsStratonovich {ι : Type*} (f : (ι → ℝ) → ℝ → ι → ℝ) (g : ι → ℝ → ℝ) (W Y : ℝ → ι → ℝ) : Prop :=
  ∃ φ : ι → ℝ → ℝ, (∀ i x, HasDerivAt (φ i) (1 / g i x) x) ∧
    ∀ i, ∀ t ∈ Set.Icc (0 : ℝ) 1,
      HasDerivWithinAt (fun t => φ i (Y t i) - W t i) (f (Y t) t i / g i (Y t i)) (Set.Icc 0 1) t

/-- The increments of a path at `n` uniformly spaced points of `[0, 1]`. -/
noncomputable def increments {ι : Type*} (W : ℝ → ι → ℝ) (n : ℕ) : List (ι → ℝ) :=
  (List.range n).map fun k i => W ((k + 1 : ℕ) / n) i - W (k / n) i

end Verif.Spec
