import Verif.Lemmas.SDEAdjoint
import Mathlib.Analysis.Calculus.FDeriv.Comp
import Mathlib.Analysis.Calculus.FDeriv.Add
import Mathlib.Analysis.Calculus.FDeriv.Linear
import Mathlib.Analysis.Calculus.FDeriv.Prod
import Mathlib.Analysis.Normed.Operator.Basic
import Mathlib.Analysis.SpecialFunctions.Exp
import Mathlib.Analysis.Complex.Exponential
import Mathlib.Tactic.Positivity
import Mathlib.Tactic.GCongr
import Mathlib.Tactic.NoncommRing

/-! How far the reverse sweep of `sdeint` is from the transposed derivative of the forward sweep, for smooth drift and
diffusion: one step, one segment, in a normed space `Z` of states and arguments together. -/

namespace Verif.SDE

set_option linter.unusedSectionVars false

section step
variable {Z W : Type*} [NormedAddCommGroup Z] [NormedSpace ℝ Z]

/-- On states in `S` and times in `I` drift and diffusion have the derivatives `D1` and `D2`; values and derivatives are
bounded by `L`, and Lipschitz with constant `L`, where for the diffusion `L` is replaced by `L * ε w` with `ε w` the size of
the noise `w`. -/
structure SmoothOn (f : Z → ℝ → W → Z × Z) (D1 D2 : Z → ℝ → W → Z →L[ℝ] Z) (S : Set Z) (I : Set ℝ) (L : ℝ)
    (ε : W → ℝ) : Prop where
  L_nonneg : 0 ≤ L
  ε_nonneg : ∀ w, 0 ≤ ε w
  f1_deriv : ∀ z ∈ S, ∀ t ∈ I, ∀ w, HasFDerivAt (fun z => (f z t w).1) (D1 z t w) z
  f2_deriv : ∀ z ∈ S, ∀ t ∈ I, ∀ w, HasFDerivAt (fun z => (f z t w).2) (D2 z t w) z
  f1_le : ∀ z ∈ S, ∀ t ∈ I, ∀ w, ‖(f z t w).1‖ ≤ L
  f2_le : ∀ z ∈ S, ∀ t ∈ I, ∀ w, ‖(f z t w).2‖ ≤ L * ε w
  D1_le : ∀ z ∈ S, ∀ t ∈ I, ∀ w, ‖D1 z t w‖ ≤ L
  D2_le : ∀ z ∈ S, ∀ t ∈ I, ∀ w, ‖D2 z t w‖ ≤ L * ε w
  f1_lip : ∀ z ∈ S, ∀ z' ∈ S, ∀ t ∈ I, ∀ t' ∈ I, ∀ w, ‖(f z t w).1 - (f z' t' w).1‖ ≤ L * (‖z - z'‖ + |t - t'|)
  f2_lip : ∀ z ∈ S, ∀ z' ∈ S, ∀ t ∈ I, ∀ t' ∈ I, ∀ w, ‖(f z t w).2 - (f z' t' w).2‖ ≤ L * ε w * (‖z - z'‖ + |t - t'|)
  D1_lip : ∀ z ∈ S, ∀ z' ∈ S, ∀ t ∈ I, ∀ t' ∈ I, ∀ w, ‖D1 z t w - D1 z' t' w‖ ≤ L * (‖z - z'‖ + |t - t'|)
  D2_lip : ∀ z ∈ S, ∀ z' ∈ S, ∀ t ∈ I, ∀ t' ∈ I, ∀ w, ‖D2 z t w - D2 z' t' w‖ ≤ L * ε w * (‖z - z'‖ + |t - t'|)

/-- The derivative of a forward step. -/
noncomputable def fwdJ (f : Z → ℝ → W → Z × Z) (D1 D2 : Z → ℝ → W → Z →L[ℝ] Z) (h t : ℝ) (z : Z) (w : W) : Z →L[ℝ] Z :=
  ContinuousLinearMap.id ℝ Z + h • D1 z t w + (1 / 2 : ℝ) • (D2 z t w +
    (D2 (z + (f z t w).2) (t + h) w).comp (ContinuousLinearMap.id ℝ Z + D2 z t w))

/-- The state after a step backwards from time `s`. -/
noncomputable def backZ (f : Z → ℝ → W → Z × Z) (h s : ℝ) (z : Z) (w : W) : Z :=
  z - h • (f z s w).1 - (1 / 2 : ℝ) • ((f z s w).2 + (f (z - (f z s w).2) (s - h) w).2)

/-- The transposed action of the step backwards on covectors is composition with this map. -/
noncomputable def backJ (f : Z → ℝ → W → Z × Z) (D1 D2 : Z → ℝ → W → Z →L[ℝ] Z) (h s : ℝ) (z : Z) (w : W) : Z →L[ℝ] Z :=
  ContinuousLinearMap.id ℝ Z + h • D1 z s w + (1 / 2 : ℝ) • (D2 z s w +
    (ContinuousLinearMap.id ℝ Z + D2 z s w).comp (D2 (z - (f z s w).2) (s - h) w))

variable {f : Z → ℝ → W → Z × Z} {D1 D2 : Z → ℝ → W → Z →L[ℝ] Z} {S : Set Z} {I : Set ℝ} {L : ℝ} {ε : W → ℝ}

theorem SmoothOn.heun_deriv (H : SmoothOn f D1 D2 S I L ε) {z : Z} {t h : ℝ} {w : W} (hz : z ∈ S)
    (hz' : z + (f z t w).2 ∈ S) (ht : t ∈ I) (ht' : t + h ∈ I) :
    HasFDerivAt (fun z => heun f h t z w) (fwdJ f D1 D2 h t z w) z := by
  have h1 := H.f1_deriv z hz t ht w
  have h2 := H.f2_deriv z hz t ht w
  have h3 : HasFDerivAt (fun z => z + (f z t w).2) (ContinuousLinearMap.id ℝ Z + D2 z t w) z :=
    (hasFDerivAt_id z).add h2
  have h4 := (H.f2_deriv _ hz' _ ht' w).comp z h3
  exact (((hasFDerivAt_id z).add (h1.const_smul h)).add ((h2.add h4).const_smul (1 / 2 : ℝ)))

theorem SmoothOn.move_le (H : SmoothOn f D1 D2 S I L ε) {z : Z} {t h : ℝ} {w : W} (hh : 0 ≤ h) (hz : z ∈ S)
    (hz' : z + (f z t w).2 ∈ S) (ht : t ∈ I) (ht' : t + h ∈ I) :
    ‖heun f h t z w - z‖ ≤ L * (h + ε w) := by
  have e : heun f h t z w - z = h • (f z t w).1 + (1 / 2 : ℝ) • ((f z t w).2 + (f (z + (f z t w).2) (t + h) w).2) := by
    simp only [heun]; abel
  rw [e]
  have h1 := H.f1_le z hz t ht w
  have h2 := H.f2_le z hz t ht w
  have h3 := H.f2_le _ hz' _ ht' w
  calc _ ≤ ‖h • (f z t w).1‖ + ‖(1 / 2 : ℝ) • ((f z t w).2 + (f (z + (f z t w).2) (t + h) w).2)‖ := norm_add_le _ _
    _ ≤ h * L + 1 / 2 * (L * ε w + L * ε w) := by
      rw [norm_smul, norm_smul, Real.norm_of_nonneg hh, Real.norm_of_nonneg (by norm_num : (0:ℝ) ≤ 1 / 2)]
      gcongr
      exact (norm_add_le _ _).trans (add_le_add h2 h3)
    _ = _ := by ring

/-- A step backwards from near the end of a forward step ends near its start. -/
theorem SmoothOn.back_state (H : SmoothOn f D1 D2 S I L ε) {z z' : Z} {t h : ℝ} {w : W} (hh : 0 ≤ h) (hz : z ∈ S)
    (hzg : z + (f z t w).2 ∈ S) (hz' : z' ∈ S) (hzg' : z' - (f z' (t + h) w).2 ∈ S) (ht : t ∈ I) (ht' : t + h ∈ I) :
    ‖backZ f h (t + h) z' w - z‖ ≤
      (1 + L * (h + ε w)) * ‖z' - heun f h t z w‖ + L * (1 + 3 * L) * (h + ε w) ^ 2 := by
  have hL := H.L_nonneg
  have hε := H.ε_nonneg w
  have hm := H.move_le hh hz hzg ht ht'
  set z1 := heun f h t z w with hz1
  have hsh : t + h - h = t := by ring
  have e : backZ f h (t + h) z' w - z = (z' - z1) +
      (h • ((f z t w).1 - (f z' (t + h) w).1) + (1 / 2 : ℝ) • (((f z t w).2 - (f z' (t + h) w).2) +
        ((f (z + (f z t w).2) (t + h) w).2 - (f (z' - (f z' (t + h) w).2) t w).2))) := by
    rw [hz1]
    simp only [backZ, heun, hsh]
    module
  rw [e]
  have hd : ‖z - z'‖ ≤ ‖z' - z1‖ + L * (h + ε w) := by
    have : z - z' = -((z' - z1) + (z1 - z)) := by abel
    rw [this, norm_neg]
    exact (norm_add_le _ _).trans (by linarith)
  have a1 : |t - (t + h)| = h := by rw [show t - (t + h) = -h by ring, abs_neg, abs_of_nonneg hh]
  have a2 : |t + h - t| = h := by rw [show t + h - t = h by ring, abs_of_nonneg hh]
  have b1 := H.f1_lip z hz z' hz' t ht (t + h) ht' w
  have b2 := H.f2_lip z hz z' hz' t ht (t + h) ht' w
  have b3 := H.f2_lip _ hzg _ hzg' (t + h) ht' t ht w
  have g1 := H.f2_le z hz t ht w
  have g2 := H.f2_le z' hz' (t + h) ht' w
  rw [a1] at b1 b2
  rw [a2] at b3
  have hd3 : ‖z + (f z t w).2 - (z' - (f z' (t + h) w).2)‖ ≤ ‖z - z'‖ + 2 * (L * ε w) := by
    have : z + (f z t w).2 - (z' - (f z' (t + h) w).2) = (z - z') + ((f z t w).2 + (f z' (t + h) w).2) := by abel
    rw [this]
    refine (norm_add_le _ _).trans ?_
    have := norm_add_le (f z t w).2 (f z' (t + h) w).2
    linarith
  have b3' := b3.trans (mul_le_mul_of_nonneg_left (add_le_add_left hd3 h) (mul_nonneg hL hε))
  have step : ‖h • ((f z t w).1 - (f z' (t + h) w).1) + (1 / 2 : ℝ) • (((f z t w).2 - (f z' (t + h) w).2) +
        ((f (z + (f z t w).2) (t + h) w).2 - (f (z' - (f z' (t + h) w).2) t w).2))‖ ≤
      h * (L * (‖z - z'‖ + h)) + 1 / 2 * (L * ε w * (‖z - z'‖ + h) + L * ε w * (‖z - z'‖ + 2 * (L * ε w) + h)) := by
    refine (norm_add_le _ _).trans ?_
    rw [norm_smul, norm_smul, Real.norm_of_nonneg hh, Real.norm_of_nonneg (by norm_num : (0:ℝ) ≤ 1 / 2)]
    gcongr
    exact (norm_add_le _ _).trans (add_le_add b2 b3')
  refine (norm_add_le _ _).trans ?_
  set D := ‖z - z'‖
  set d := ‖z' - z1‖
  have hd0 : 0 ≤ d := norm_nonneg _
  have : L * (h + ε w) * D ≤ L * (h + ε w) * (d + L * (h + ε w)) := mul_le_mul_of_nonneg_left hd (by positivity)
  have p1 : 0 ≤ L * h * ε w := by positivity
  have p2 : 0 ≤ L ^ 2 * h * ε w := by positivity
  have p3 : 0 ≤ L ^ 2 * h ^ 2 := by positivity
  have p4 : 0 ≤ L ^ 2 * ε w ^ 2 := by positivity
  have p5 : 0 ≤ L * ε w ^ 2 := by positivity
  nlinarith [step]

/-- The transposed action of a step backwards is near the derivative of the forward step. -/
theorem SmoothOn.back_jac (H : SmoothOn f D1 D2 S I L ε) {z z' : Z} {t h : ℝ} {w : W} (hh : 0 ≤ h) (hz : z ∈ S)
    (hzg : z + (f z t w).2 ∈ S) (hz' : z' ∈ S) (hzg' : z' - (f z' (t + h) w).2 ∈ S) (ht : t ∈ I) (ht' : t + h ∈ I) :
    ‖backJ f D1 D2 h (t + h) z' w - fwdJ f D1 D2 h t z w‖ ≤
      L * (h + ε w) * ‖z' - heun f h t z w‖ + L * (1 + 3 * L) * (h + ε w) ^ 2 := by
  have hL := H.L_nonneg
  have hε := H.ε_nonneg w
  have hm := H.move_le hh hz hzg ht ht'
  set z1 := heun f h t z w with hz1
  have hsh : t + h - h = t := by ring
  set P := D2 z' (t + h) w with hP
  set P' := D2 (z' - (f z' (t + h) w).2) t w with hP'
  set Q := D2 z t w with hQ
  set Q' := D2 (z + (f z t w).2) (t + h) w with hQ'
  have e : backJ f D1 D2 h (t + h) z' w - fwdJ f D1 D2 h t z w =
      h • (D1 z' (t + h) w - D1 z t w) + (1 / 2 : ℝ) • (((P - Q) + (P' - Q')) + (P.comp P' - Q'.comp Q)) := by
    simp only [backJ, fwdJ, hsh, ← hP, ← hP', ← hQ, ← hQ', ContinuousLinearMap.add_comp, ContinuousLinearMap.comp_add,
      ContinuousLinearMap.id_comp, ContinuousLinearMap.comp_id]
    module
  rw [e]
  have hd : ‖z' - z‖ ≤ ‖z' - z1‖ + L * (h + ε w) := by
    have : z' - z = (z' - z1) + (z1 - z) := by abel
    rw [this]
    exact (norm_add_le _ _).trans (by linarith)
  have a1 : |t - (t + h)| = h := by rw [show t - (t + h) = -h by ring, abs_neg, abs_of_nonneg hh]
  have a2 : |t + h - t| = h := by rw [show t + h - t = h by ring, abs_of_nonneg hh]
  have b1 := H.D1_lip z' hz' z hz (t + h) ht' t ht w
  have b2 := H.D2_lip z' hz' z hz (t + h) ht' t ht w
  have b3 := H.D2_lip _ hzg' _ hzg t ht (t + h) ht' w
  have g1 := H.f2_le z hz t ht w
  have g2 := H.f2_le z' hz' (t + h) ht' w
  have q1 := H.D2_le z' hz' (t + h) ht' w
  have q2 := H.D2_le _ hzg' t ht w
  have q3 := H.D2_le z hz t ht w
  have q4 := H.D2_le _ hzg (t + h) ht' w
  rw [a2] at b1 b2
  rw [a1] at b3
  have hd3 : ‖z' - (f z' (t + h) w).2 - (z + (f z t w).2)‖ ≤ ‖z' - z‖ + 2 * (L * ε w) := by
    have : z' - (f z' (t + h) w).2 - (z + (f z t w).2) = (z' - z) - ((f z t w).2 + (f z' (t + h) w).2) := by abel
    rw [this]
    refine (norm_sub_le _ _).trans ?_
    have := norm_add_le (f z t w).2 (f z' (t + h) w).2
    linarith
  have b3' := b3.trans (mul_le_mul_of_nonneg_left (add_le_add_left hd3 h) (mul_nonneg hL hε))
  have c1 : ‖P.comp P' - Q'.comp Q‖ ≤ (L * ε w) * (L * ε w) + (L * ε w) * (L * ε w) := by
    refine (norm_sub_le _ _).trans (add_le_add ?_ ?_)
    · exact (ContinuousLinearMap.opNorm_comp_le _ _).trans (mul_le_mul q1 q2 (norm_nonneg _) (by positivity))
    · exact (ContinuousLinearMap.opNorm_comp_le _ _).trans (mul_le_mul q4 q3 (norm_nonneg _) (by positivity))
  have step : ‖h • (D1 z' (t + h) w - D1 z t w) +
        (1 / 2 : ℝ) • (((P - Q) + (P' - Q')) + (P.comp P' - Q'.comp Q))‖ ≤
      h * (L * (‖z' - z‖ + h)) + 1 / 2 * ((L * ε w * (‖z' - z‖ + h) + L * ε w * (‖z' - z‖ + 2 * (L * ε w) + h)) +
        ((L * ε w) * (L * ε w) + (L * ε w) * (L * ε w))) := by
    refine (norm_add_le _ _).trans ?_
    rw [norm_smul, norm_smul, Real.norm_of_nonneg hh, Real.norm_of_nonneg (by norm_num : (0:ℝ) ≤ 1 / 2)]
    gcongr
    exact (norm_add_le _ _).trans (add_le_add ((norm_add_le _ _).trans (add_le_add b2 b3')) c1)
  refine step.trans ?_
  set D := ‖z' - z‖
  set d := ‖z' - z1‖
  have hd0 : 0 ≤ d := norm_nonneg _
  have : L * (h + ε w) * D ≤ L * (h + ε w) * (d + L * (h + ε w)) := mul_le_mul_of_nonneg_left hd (by positivity)
  have p1 : 0 ≤ L * h * ε w := by positivity
  have p2 : 0 ≤ L ^ 2 * h * ε w := by positivity
  have p3 : 0 ≤ L ^ 2 * h ^ 2 := by positivity
  have p4 : 0 ≤ L ^ 2 * ε w ^ 2 := by positivity
  have p5 : 0 ≤ L * ε w ^ 2 := by positivity
  nlinarith

theorem SmoothOn.fwdJ_le (H : SmoothOn f D1 D2 S I L ε) {z : Z} {t h : ℝ} {w : W} (hh : 0 ≤ h) (hz : z ∈ S)
    (hz' : z + (f z t w).2 ∈ S) (ht : t ∈ I) (ht' : t + h ∈ I) :
    ‖fwdJ f D1 D2 h t z w‖ ≤ 1 + L * (1 + L * (h + ε w)) * (h + ε w) := by
  have hL := H.L_nonneg
  have hε := H.ε_nonneg w
  have h1 := H.D1_le z hz t ht w
  have h2 := H.D2_le z hz t ht w
  have h3 := H.D2_le _ hz' _ ht' w
  have hid : ‖ContinuousLinearMap.id ℝ Z‖ ≤ 1 := ContinuousLinearMap.norm_id_le
  have h4 : ‖ContinuousLinearMap.id ℝ Z + D2 z t w‖ ≤ 1 + L * ε w := (norm_add_le _ _).trans (add_le_add hid h2)
  have : ‖fwdJ f D1 D2 h t z w‖ ≤ 1 + h * L + 1 / 2 * (L * ε w + L * ε w * (1 + L * ε w)) := by
    unfold fwdJ
    refine (norm_add_le _ _).trans (add_le_add ((norm_add_le _ _).trans (add_le_add hid ?_)) ?_)
    · rw [norm_smul, Real.norm_of_nonneg hh]
      gcongr
    · rw [norm_smul, Real.norm_of_nonneg (by norm_num : (0:ℝ) ≤ 1 / 2)]
      gcongr
      refine (norm_add_le _ _).trans (add_le_add h2 ?_)
      exact (ContinuousLinearMap.opNorm_comp_le _ _).trans (mul_le_mul h3 h4 (norm_nonneg _) (by positivity))
  have p2 : 0 ≤ L ^ 2 * h * ε w := by positivity
  have p3 : 0 ≤ L ^ 2 * h ^ 2 := by positivity
  have p4 : 0 ≤ L ^ 2 * ε w ^ 2 := by positivity
  nlinarith

theorem SmoothOn.backJ_le (H : SmoothOn f D1 D2 S I L ε) {z : Z} {t h : ℝ} {w : W} (hh : 0 ≤ h) (hz : z ∈ S)
    (hz' : z - (f z (t + h) w).2 ∈ S) (ht : t ∈ I) (ht' : t + h ∈ I) :
    ‖backJ f D1 D2 h (t + h) z w‖ ≤ 1 + L * (1 + L * (h + ε w)) * (h + ε w) := by
  have hL := H.L_nonneg
  have hε := H.ε_nonneg w
  have hsh : t + h - h = t := by ring
  have h1 := H.D1_le z hz _ ht' w
  have h2 := H.D2_le z hz _ ht' w
  have h3 := H.D2_le _ hz' _ ht w
  have hid : ‖ContinuousLinearMap.id ℝ Z‖ ≤ 1 := ContinuousLinearMap.norm_id_le
  have h4 : ‖ContinuousLinearMap.id ℝ Z + D2 z (t + h) w‖ ≤ 1 + L * ε w := (norm_add_le _ _).trans (add_le_add hid h2)
  have : ‖backJ f D1 D2 h (t + h) z w‖ ≤ 1 + h * L + 1 / 2 * (L * ε w + (1 + L * ε w) * (L * ε w)) := by
    unfold backJ
    rw [hsh]
    refine (norm_add_le _ _).trans (add_le_add ((norm_add_le _ _).trans (add_le_add hid ?_)) ?_)
    · rw [norm_smul, Real.norm_of_nonneg hh]
      gcongr
    · rw [norm_smul, Real.norm_of_nonneg (by norm_num : (0:ℝ) ≤ 1 / 2)]
      gcongr
      refine (norm_add_le _ _).trans (add_le_add h2 ?_)
      exact (ContinuousLinearMap.opNorm_comp_le _ _).trans (mul_le_mul h4 h3 (norm_nonneg _) (by positivity))
  have p2 : 0 ≤ L ^ 2 * h * ε w := by positivity
  have p3 : 0 ≤ L ^ 2 * h ^ 2 := by positivity
  have p4 : 0 ≤ L ^ 2 * ε w ^ 2 := by positivity
  nlinarith

end step

section segment
variable {Z W : Type*} [NormedAddCommGroup Z] [NormedSpace ℝ Z]

/-- The sweep backwards over a segment with steps `h` that starts at time `t`: the reconstructed state and the covector. -/
noncomputable def backU (f : Z → ℝ → W → Z × Z) (D1 D2 : Z → ℝ → W → Z →L[ℝ] Z) (h : ℝ) (s : Z × (Z →L[ℝ] ℝ)) :
    ℝ → List W → Z × (Z →L[ℝ] ℝ)
  | _, [] => s
  | t, w :: l =>
    let s' := backU f D1 D2 h s (t + h) l
    (backZ f h (t + h) s'.1 w, s'.2.comp (backJ f D1 D2 h (t + h) s'.1 w))

/-- A covector at the end of a segment, pulled back by the derivative of the forward sweep. -/
noncomputable def pullU (f : Z → ℝ → W → Z × Z) (D1 D2 : Z → ℝ → W → Z →L[ℝ] Z) (h : ℝ) (lam : Z →L[ℝ] ℝ) :
    ℝ → Z → List W → (Z →L[ℝ] ℝ)
  | _, _, [] => lam
  | t, z, w :: l => (pullU f D1 D2 h lam (t + h) (heun f h t z w) l).comp (fwdJ f D1 D2 h t z w)

/-- All states of the forward sweep over a segment, its start included, have distance at least `r` from the complement of
`S`, and all its times lie in `I`. -/
def TubeU (f : Z → ℝ → W → Z × Z) (S : Set Z) (I : Set ℝ) (r h : ℝ) : ℝ → Z → List W → Prop
  | t, z, [] => Metric.closedBall z r ⊆ S ∧ t ∈ I
  | t, z, w :: l => Metric.closedBall z r ⊆ S ∧ t ∈ I ∧ TubeU f S I r h (t + h) (heun f h t z w) l

variable {f : Z → ℝ → W → Z × Z} {D1 D2 : Z → ℝ → W → Z →L[ℝ] Z} {S : Set Z} {I : Set ℝ} {L : ℝ} {ε : W → ℝ}

theorem TubeU.start {r h t : ℝ} {z : Z} {l : List W} (H : TubeU f S I r h t z l) :
    Metric.closedBall z r ⊆ S ∧ t ∈ I := by
  cases l with
  | nil => exact H
  | cons w l => exact ⟨H.1, H.2.1⟩

/-- The sum of the sizes of the steps of a segment, and of their squares. -/
noncomputable def sizeU (ε : W → ℝ) (h : ℝ) (l : List W) : ℝ := (l.map fun w => h + ε w).sum

noncomputable def sqU (ε : W → ℝ) (h : ℝ) (l : List W) : ℝ := (l.map fun w => (h + ε w) ^ 2).sum

theorem SmoothOn.sizeU_nonneg (H : SmoothOn f D1 D2 S I L ε) {h : ℝ} (hh : 0 ≤ h) (l : List W) : 0 ≤ sizeU ε h l :=
  List.sum_nonneg (by
    intro x hx
    obtain ⟨w, _, rfl⟩ := List.mem_map.mp hx
    exact add_nonneg hh (H.ε_nonneg w))

theorem sqU_nonneg (ε : W → ℝ) (h : ℝ) (l : List W) : 0 ≤ sqU ε h l :=
  List.sum_nonneg (by
    intro x hx
    obtain ⟨w, _, rfl⟩ := List.mem_map.mp hx
    positivity)

theorem one_add_mul_le_exp (x : ℝ) : 1 + x ≤ Real.exp x := by
  have := Real.add_one_le_exp x
  linarith

/-- The forward sweep is differentiable, and pulling back composes with its derivative. -/
theorem SmoothOn.pullU_deriv (H : SmoothOn f D1 D2 S I L ε) {r h : ℝ} (hr : 0 ≤ r) (G : Z → ℝ) (lam : Z →L[ℝ] ℝ) :
    ∀ (l : List W) (t : ℝ) (z : Z), TubeU f S I r h t z l → (∀ w ∈ l, L * ε w ≤ r) →
      HasFDerivAt G lam (fwdU f h t z l) →
      HasFDerivAt (fun z => G (fwdU f h t z l)) (pullU f D1 D2 h lam t z l) z
  | [], _, _, _, _, hG => hG
  | w :: l, t, z, ⟨hb, ht, hT⟩, hw, hG => by
      have ih := SmoothOn.pullU_deriv H hr G lam l (t + h) _ hT (fun w' hw' => hw w' (List.mem_cons_of_mem _ hw')) hG
      have hz : z ∈ S := hb (Metric.mem_closedBall_self hr)
      have hz' : z + (f z t w).2 ∈ S := hb (by
        rw [Metric.mem_closedBall, dist_eq_norm, add_sub_cancel_left]
        exact (H.f2_le z hz t ht w).trans (hw w (by simp)))
      exact HasFDerivAt.comp (g := fun z => G (fwdU f h (t + h) z l)) z ih (H.heun_deriv hz hz' ht hT.start.2)

set_option maxHeartbeats 1000000 in
/-- The covector of the sweep backwards is near the pulled back covector. -/
theorem SmoothOn.backU_near (H : SmoothOn f D1 D2 S I L ε) {r h T M K : ℝ} (hr : 0 ≤ r) (hh : 0 ≤ h) (hM : L * (1 + L * T) ≤ M)
    (hT0 : 0 ≤ T) (lam lam' : Z →L[ℝ] ℝ) :
    ∀ (l : List W) (t : ℝ) (z : Z), TubeU f S I r h t z l → (∀ w ∈ l, h + ε w ≤ T) → (∀ w ∈ l, 2 * (L * ε w) ≤ r) →
      Real.exp (M * sizeU ε h l) * ‖lam‖ ≤ K →
      2 * (Real.exp (M * sizeU ε h l) * (L * (1 + 3 * L) * sqU ε h l)) ≤ r →
      ‖pullU f D1 D2 h lam t z l‖ ≤ Real.exp (M * sizeU ε h l) * ‖lam‖ ∧
      ‖(backU f D1 D2 h (fwdU f h t z l, lam') t l).1 - z‖ ≤ Real.exp (M * sizeU ε h l) * (L * (1 + 3 * L) * sqU ε h l) ∧
      K * ‖(backU f D1 D2 h (fwdU f h t z l, lam') t l).1 - z‖ +
          ‖(backU f D1 D2 h (fwdU f h t z l, lam') t l).2 - pullU f D1 D2 h lam t z l‖ ≤
        Real.exp (2 * M * sizeU ε h l) * (‖lam' - lam‖ + 2 * K * (L * (1 + 3 * L)) * sqU ε h l)
  | [], t, z, _, _, _, _, _ => by
      simp [pullU, backU, fwdU, sizeU, sqU]
  | w :: l, t, z, ⟨hb, ht, hTu⟩, hwT, hwr, hK, hsm => by
      have hL := H.L_nonneg
      have hε := H.ε_nonneg w
      have hη : 0 ≤ h + ε w := add_nonneg hh hε
      have hM0 : 0 ≤ M := le_trans (by positivity) hM
      have hLM : L ≤ M := le_trans (by nlinarith [mul_nonneg hL (mul_nonneg hL hT0)]) hM
      have hs0 := H.sizeU_nonneg hh l
      have hq0 := sqU_nonneg ε h l
      have es : sizeU ε h (w :: l) = (h + ε w) + sizeU ε h l := by simp [sizeU]
      have eq : sqU ε h (w :: l) = (h + ε w) ^ 2 + sqU ε h l := by simp [sqU]
      rw [es] at hK hsm ⊢
      rw [eq] at hsm ⊢
      have ex1 : Real.exp (M * ((h + ε w) + sizeU ε h l)) = Real.exp (M * (h + ε w)) * Real.exp (M * sizeU ε h l) := by
        rw [← Real.exp_add]; ring_nf
      have ex2 : Real.exp (2 * M * ((h + ε w) + sizeU ε h l)) =
          Real.exp (2 * M * (h + ε w)) * Real.exp (2 * M * sizeU ε h l) := by
        rw [← Real.exp_add]; ring_nf
      rw [ex1] at hK hsm ⊢
      rw [ex2]
      set η := h + ε w with hηdef
      set A := Real.exp (M * sizeU ε h l) with hA
      set B := Real.exp (M * η) with hB
      set A2 := Real.exp (2 * M * sizeU ε h l) with hA2
      set B2 := Real.exp (2 * M * η) with hB2
      set c := L * (1 + 3 * L) with hc
      set q := sqU ε h l with hq
      have hc0 : 0 ≤ c := by positivity
      have hA1 : 1 ≤ A := Real.one_le_exp (by positivity)
      have hB1 : 1 ≤ B := Real.one_le_exp (by positivity)
      have hBη : 1 + M * η ≤ B := one_add_mul_le_exp _
      have hB2η : 1 + 2 * M * η ≤ B2 := one_add_mul_le_exp _
      have hA21 : 1 ≤ A2 := Real.one_le_exp (by positivity)
      have hB21 : 1 ≤ B2 := Real.one_le_exp (by positivity)
      have hAB : A * ‖lam‖ ≤ B * A * ‖lam‖ := by
        have : A * ‖lam‖ ≤ B * (A * ‖lam‖) := le_mul_of_one_le_left (by positivity) hB1
        linarith
      have hK0 : 0 ≤ K := le_trans (by positivity) hK
      have hABq : A * (c * q) ≤ B * A * (c * (η ^ 2 + q)) := by
        have h1 : A * (c * q) ≤ A * (c * (η ^ 2 + q)) := by
          have : c * q ≤ c * (η ^ 2 + q) := mul_le_mul_of_nonneg_left (by nlinarith) hc0
          exact mul_le_mul_of_nonneg_left this (by positivity)
        have h2 : A * (c * (η ^ 2 + q)) ≤ B * (A * (c * (η ^ 2 + q))) := le_mul_of_one_le_left (by positivity) hB1
        linarith
      obtain ⟨i1, i2, i3⟩ := SmoothOn.backU_near H hr hh hM hT0 lam lam' l (t + h) (heun f h t z w) hTu
        (fun w' hw' => hwT w' (List.mem_cons_of_mem _ hw')) (fun w' hw' => hwr w' (List.mem_cons_of_mem _ hw'))
        (hAB.trans hK) (by linarith)
      simp only [pullU, backU, fwdU]
      set z1 := heun f h t z w with hz1
      set s := backU f D1 D2 h (fwdU f h (t + h) z1 l, lam') (t + h) l with hs
      set p := pullU f D1 D2 h lam (t + h) z1 l with hp
      have ht' : t + h ∈ I := hTu.start.2
      have hz : z ∈ S := hb (Metric.mem_closedBall_self hr)
      have hgw := hwr w (by simp)
      have hzg : z + (f z t w).2 ∈ S := hb (by
        rw [Metric.mem_closedBall, dist_eq_norm, add_sub_cancel_left]
        have := H.f2_le z hz t ht w
        have : 0 ≤ L * ε w := by positivity
        linarith)
      have hs1 : s.1 ∈ S := hTu.start.1 (by
        rw [Metric.mem_closedBall, dist_eq_norm]
        have : 0 ≤ A * (c * q) := by positivity
        linarith)
      have hs1g : s.1 - (f s.1 (t + h) w).2 ∈ S := hTu.start.1 (by
        rw [Metric.mem_closedBall, dist_eq_norm]
        have h1 : s.1 - (f s.1 (t + h) w).2 - z1 = (s.1 - z1) - (f s.1 (t + h) w).2 := by abel
        rw [h1]
        have h2 := H.f2_le s.1 hs1 (t + h) ht' w
        have := norm_sub_le (s.1 - z1) (f s.1 (t + h) w).2
        linarith)
      have k1 := H.back_state hh hz hzg hs1 hs1g ht ht'
      have k2 := H.back_jac hh hz hzg hs1 hs1g ht ht'
      have k3 := H.fwdJ_le hh hz hzg ht ht'
      have k4 := H.backJ_le hh hs1 hs1g ht ht'
      rw [← hz1] at k1 k2
      have hηT := hwT w (by simp)
      have hLη : L * (1 + L * η) * η ≤ M * η := by
        refine mul_le_mul_of_nonneg_right (le_trans ?_ hM) hη
        have : L * η ≤ L * T := mul_le_mul_of_nonneg_left hηT hL
        exact mul_le_mul_of_nonneg_left (by linarith) hL
      have k3' : ‖fwdJ f D1 D2 h t z w‖ ≤ 1 + M * η := k3.trans (by linarith)
      have k4' : ‖backJ f D1 D2 h (t + h) s.1 w‖ ≤ 1 + M * η := k4.trans (by linarith)
      set δ := ‖s.1 - z1‖ with hδ
      have hδ0 : 0 ≤ δ := norm_nonneg _
      have hLMη : L * η ≤ M * η := mul_le_mul_of_nonneg_right hLM hη
      have k1' : ‖backZ f h (t + h) s.1 w - z‖ ≤ (1 + M * η) * δ + c * η ^ 2 := by
        refine k1.trans ?_
        have : L * η * δ ≤ M * η * δ := mul_le_mul_of_nonneg_right hLMη hδ0
        linarith
      have hpK : ‖p‖ ≤ K := i1.trans (hAB.trans hK)
      refine ⟨?_, ?_, ?_⟩
      · refine (ContinuousLinearMap.opNorm_comp_le _ _).trans ?_
        calc ‖p‖ * ‖fwdJ f D1 D2 h t z w‖ ≤ (A * ‖lam‖) * B :=
              mul_le_mul i1 (k3'.trans hBη) (norm_nonneg _) (by positivity)
          _ = _ := by ring
      · refine k1'.trans ?_
        have h1 : (1 + M * η) * δ ≤ B * (A * (c * q)) := mul_le_mul hBη i2 hδ0 (by positivity)
        have h2 : c * η ^ 2 ≤ B * A * (c * η ^ 2) :=
          le_mul_of_one_le_left (by positivity) (by nlinarith)
        calc _ ≤ B * (A * (c * q)) + B * A * (c * η ^ 2) := add_le_add h1 h2
          _ = _ := by ring
      · have e : s.2.comp (backJ f D1 D2 h (t + h) s.1 w) - p.comp (fwdJ f D1 D2 h t z w) =
            (s.2 - p).comp (backJ f D1 D2 h (t + h) s.1 w) +
              p.comp (backJ f D1 D2 h (t + h) s.1 w - fwdJ f D1 D2 h t z w) := by
          rw [ContinuousLinearMap.sub_comp, ContinuousLinearMap.comp_sub]
          abel
        set μ := ‖s.2 - p‖ with hμ
        have hμ0 : 0 ≤ μ := norm_nonneg _
        have h1 : ‖s.2.comp (backJ f D1 D2 h (t + h) s.1 w) - p.comp (fwdJ f D1 D2 h t z w)‖ ≤
            μ * (1 + M * η) + K * (M * η * δ + c * η ^ 2) := by
          rw [e]
          refine (norm_add_le _ _).trans (add_le_add ?_ ?_)
          · exact (ContinuousLinearMap.opNorm_comp_le _ _).trans (mul_le_mul_of_nonneg_left k4' hμ0)
          · refine (ContinuousLinearMap.opNorm_comp_le _ _).trans (mul_le_mul hpK ?_ (norm_nonneg _) hK0)
            refine k2.trans ?_
            have : L * η * δ ≤ M * η * δ := mul_le_mul_of_nonneg_right hLMη hδ0
            linarith
        have h2 : K * ‖backZ f h (t + h) s.1 w - z‖ ≤ K * ((1 + M * η) * δ + c * η ^ 2) :=
          mul_le_mul_of_nonneg_left k1' hK0
        set V := K * δ + μ with hV
        have hV0 : 0 ≤ V := by positivity
        have h3 : μ * (1 + M * η) + K * (M * η * δ + c * η ^ 2) + K * ((1 + M * η) * δ + c * η ^ 2) ≤
            (1 + 2 * M * η) * V + 2 * K * c * η ^ 2 := by
          have : 0 ≤ M * η * μ := by positivity
          rw [hV]
          nlinarith
        have h4 : (1 + 2 * M * η) * V ≤ B2 * (A2 * (‖lam' - lam‖ + 2 * K * c * q)) :=
          mul_le_mul hB2η i3 hV0 (by positivity)
        have h5 : 2 * K * c * η ^ 2 ≤ B2 * A2 * (2 * K * c * η ^ 2) :=
          le_mul_of_one_le_left (by positivity) (by nlinarith)
        calc _ ≤ (1 + 2 * M * η) * V + 2 * K * c * η ^ 2 := by linarith
          _ ≤ B2 * (A2 * (‖lam' - lam‖ + 2 * K * c * q)) + B2 * A2 * (2 * K * c * η ^ 2) := add_le_add h4 h5
          _ = _ := by ring

end segment

end Verif.SDE
