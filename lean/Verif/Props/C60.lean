import Verif.Lemmas.RefinerMain

/-!
# C60: refinement with interior points only

Succeeds except in three (and more) dimensions with a single point per axis, where the constructor raises; this is the
pressure space of second order velocity in three dimensions.
-/

set_option linter.unusedSectionVars false

namespace Verif.Core

variable {K V : Type*} [Field K] [LinearOrder K] [IsStrictOrderedRing K] [AddCommGroup V] [Module K V]

/-- Succeeds for all meshes in one and two dimensions, and in any dimension for at least two points per axis.

Partial: `C60_violated` is the remaining case. -/
theorem C60_partial {n : ℕ} {pm : Premesh1 V} (hdim : 1 ≤ pm.ndim) (ho : pm.order = 1) (nodes : Fin (n + 1) → K)
    (hends : ¬ (nodes 0 = -1 ∧ nodes (Fin.last n) = 1)) (hcase : pm.ndim ≤ 2 ∨ 1 ≤ n) :
    ∃ r, refinePremesh pm nodes = .ok r ∧ r.elements.length = pm.elements.length ∧
      r.nodeCoords.length = pm.elements.length * (n + 1) ^ pm.ndim := by
  obtain ⟨M, A, hM, hA, _, _⟩ := interp_lin hdim nodes
  have hc : isContinuous nodes = false := by
    unfold isContinuous
    exact decide_eq_false hends
  have hr : refinePremesh pm nodes = .ok ⟨pm.elements.flatMap (fun el =>
      (List.range ((n + 1) ^ pm.ndim)).map (fun i => targetCoord A pm.nodeCoords el i)),
      (List.range pm.elements.length).map (fun e =>
        (List.range ((n + 1) ^ pm.ndim)).map (fun i => ((e * (n + 1) ^ pm.ndim + i : ℕ) : ℤ))), [], none⟩ := by
    unfold refinePremesh
    rw [if_neg (by rw [ho]; simp), if_neg (by omega), hM]
    simp only [hA, hc, Bool.false_eq_true, if_false]
  exact ⟨_, hr, by simp, by simp [List.length_flatMap]⟩

/-- In three and more dimensions with one point per axis refinement raises, whatever the mesh. -/
theorem C60_violated {pm : Premesh1 V} (hdim : 3 ≤ pm.ndim) (nodes : Fin (0 + 1) → K) :
    ∃ e, refinePremesh pm nodes = .error e := by
  unfold refinePremesh
  simp only
  split
  · exact ⟨_, rfl⟩
  · rw [if_pos ⟨hdim, by norm_num⟩]
    exact ⟨_, rfl⟩

/-- Non-vacuity: the square with one interior point; the cube with two. -/
example : (∃ r, refinePremesh (⟨2, 1, [(0, 0), (0, 1), (1, 0), (1, 1)], [[0, 1, 2, 3]], [], none⟩ : Premesh1 (ℚ × ℚ))
    (![0] : Fin 1 → ℚ) = .ok r ∧ r.elements.length = 1 ∧ r.nodeCoords.length = 1 * 1 ^ 2) ∧
    ∃ r, refinePremesh (⟨3, 1, [(0, 0), (0, 1), (0, 2), (0, 3), (1, 0), (1, 1), (1, 2), (1, 3)],
      [[0, 1, 2, 3, 4, 5, 6, 7]], [], none⟩ : Premesh1 (ℚ × ℚ)) (![-1/2, 1/2] : Fin 2 → ℚ) = .ok r ∧
      r.elements.length = 1 ∧ r.nodeCoords.length = 1 * 2 ^ 3 :=
  ⟨C60_partial (n := 0) (by decide) rfl _ (by intro h; have := h.1; norm_num at this) (Or.inl (by decide)),
   C60_partial (n := 1) (by decide) rfl _ (by intro h; have := h.1; norm_num at this) (Or.inr (by decide))⟩

end Verif.Core
