import Verif.Lemmas.SDEJoint
import Mathlib.Analysis.SpecialFunctions.Trigonometric.Deriv
import Mathlib.Analysis.SpecialFunctions.Trigonometric.Bounds
import Mathlib.Analysis.Calculus.FDeriv.Linear
import Mathlib.Analysis.Calculus.FDeriv.Add
import Mathlib.Analysis.Normed.Module.FiniteDimension

/-!
# C48, C64: the reverse-mode rule of `sdeint`

`C48_partial`: when drift and diffusion are linear in the state and the drift matrix does not depend on time (the
diffusion, and the constant part of the drift, may), the cotangent of the initial state is the vector-Jacobian product of
the discrete forward map: paired with any change of `y0` it gives the change of the paired outputs. `C48_violated`: false
for a time dependent drift, because the reverse pass evaluates the drift at the right end of every step.

`C64_partial`: the same for the extra arguments, when the equation is affine in state and arguments together.
`C64_violated`: false already for the drift `θ y`, because the reverse pass reconstructs the states only approximately.

`C48_derivative`, `C64_derivative`: the same statements as Fréchet derivatives over `ℝ`.

`C84_accuracy`, `C84_accuracy_global`: for every smooth equation the cotangents of state and arguments differ from the
derivative of the discrete forward pass by at most a constant times the largest step (time step plus size of the noise),
the constant depending only on bounds for the equation and on the total length of the path, not on the number of steps.
-/

namespace Verif.SDE

open Matrix

set_option linter.unusedSectionVars false

section
variable {K W : Type*} [Field K] [LinearOrder K] [IsStrictOrderedRing K] {d q : ℕ}

theorem C48_partial {P : Type*} [AddCommGroup P] [Module K P] (F : SDEFun K (Fin d → K) W P) (θ : P)
    (A B : K → W → Matrix (Fin d) (Fin d) K) (c e : K → W → Fin d → K) (hF : LinearAt F θ A B c e)
    (hA : ∀ t t' w, A t w = A t' w)
    (y0 : Fin d → K) (ts : List K) (dw : List W) (ys ybars : List (Fin d → K))
    (hok : sdeint (F.f θ) y0 ts dw = .ok ys) (hlen : ybars.length = ys.length) :
    ∃ g : (Fin d → K) × P, sdeintVjp F θ y0 ts dw ybars = .ok g ∧
      ∀ (y0' : Fin d → K) (ys' : List (Fin d → K)), sdeint (F.f θ) y0' ts dw = .ok ys' →
        (List.zipWith (· ⬝ᵥ ·) ybars ys').sum - (List.zipWith (· ⬝ᵥ ·) ybars ys).sum = g.1 ⬝ᵥ (y0' - y0) := by
  obtain ⟨r, hr⟩ : ∃ r, sdeintArgs ts dw = .ok r := by
    unfold sdeint at hok
    cases h : sdeintArgs ts dw with
    | error _ => rw [h] at hok; cases hok
    | ok r => exact ⟨r, rfl⟩
  obtain ⟨t0, touts, n, rfl, hn, hm, hl⟩ := sdeintArgs_inv hr
  have hargs := sdeintArgs_ok t0 touts dw n hn hm hl
  rw [sdeint_ok _ _ t0 touts dw n hn hm hl] at hok
  cases hok
  have hsl := segments_length n touts.length dw
  rw [segScan_length _ _ _ _ _ hsl] at hlen
  refine ⟨segScanVjp F θ t0 y0 (segments n touts.length dw) touts ybars, by unfold sdeintVjp; rw [hargs], ?_⟩
  intro y0' ys' h'
  rw [sdeint_ok _ _ t0 touts dw n hn hm hl] at h'
  cases h'
  have := segScan_adjoint (F := F) (θ := θ) (θ' := θ) (fun _ => 0) rfl (by simp)
    (fun y x x' lam t0 t1 l hl => by
      rw [segVjp_adjoint_state hF hA y x x' lam t0 t1 l hl, add_zero])
    (segments n touts.length dw) touts ybars t0 y0 y0' hsl hlen
    (fun l hl' h => by
      have := segments_mem_length n touts.length dw hl l hl'
      rw [h] at this
      simp at this
      omega)
  simpa [pairing] using this

theorem C64_partial (F : SDEFun K (Fin d → K) W (Fin q → K)) (a : Coeffs K W d q) (hF : a.Is F)
    (hA : ∀ t t' w, a.A t w = a.A t' w) (hC : ∀ t t' w, a.C t w = a.C t' w)
    (θ : Fin q → K) (y0 : Fin d → K) (ts : List K) (dw : List W) (ys ybars : List (Fin d → K))
    (hok : sdeint (F.f θ) y0 ts dw = .ok ys) (hlen : ybars.length = ys.length) :
    ∃ g : (Fin d → K) × (Fin q → K), sdeintVjp F θ y0 ts dw ybars = .ok g ∧
      ∀ (θ' : Fin q → K) (y0' : Fin d → K) (ys' : List (Fin d → K)), sdeint (F.f θ') y0' ts dw = .ok ys' →
        (List.zipWith (· ⬝ᵥ ·) ybars ys').sum - (List.zipWith (· ⬝ᵥ ·) ybars ys).sum =
          g.1 ⬝ᵥ (y0' - y0) + g.2 ⬝ᵥ (θ' - θ) := by
  obtain ⟨r, hr⟩ : ∃ r, sdeintArgs ts dw = .ok r := by
    unfold sdeint at hok
    cases h : sdeintArgs ts dw with
    | error _ => rw [h] at hok; cases hok
    | ok r => exact ⟨r, rfl⟩
  obtain ⟨t0, touts, n, rfl, hn, hm, hl⟩ := sdeintArgs_inv hr
  have hargs := sdeintArgs_ok t0 touts dw n hn hm hl
  rw [sdeint_ok _ _ t0 touts dw n hn hm hl] at hok
  cases hok
  have hsl := segments_length n touts.length dw
  rw [segScan_length _ _ _ _ _ hsl] at hlen
  refine ⟨segScanVjp F θ t0 y0 (segments n touts.length dw) touts ybars, by unfold sdeintVjp; rw [hargs], ?_⟩
  intro θ' y0' ys' h'
  rw [sdeint_ok _ _ t0 touts dw n hn hm hl] at h'
  cases h'
  have := segScan_adjoint (F := F) (θ := θ) (θ' := θ') (fun u => u ⬝ᵥ (θ' - θ)) (by simp)
    (fun u v => add_dotProduct u v _)
    (fun y x x' lam t0 t1 l hl => segVjp_adjoint a F hF hA hC θ θ' y x x' lam t0 t1 l hl)
    (segments n touts.length dw) touts ybars t0 y0 y0' hsl hlen
    (fun l hl' h => by
      have := segments_mem_length n touts.length dw hl l hl'
      rw [h] at this
      simp at this
      omega)
  simpa [pairing] using this

end

/-! ### Fréchet derivatives -/

/-- The value of a loss with constant cotangents `ybars`, as a function of the initial state; 0 if `sdeint` fails. -/
noncomputable def lossOf {W : Type*} {d : ℕ} (f : (Fin d → ℝ) → ℝ → W → (Fin d → ℝ) × (Fin d → ℝ)) (ts : List ℝ)
    (dw : List W) (ybars : List (Fin d → ℝ)) (y0 : Fin d → ℝ) : ℝ :=
  match sdeint f y0 ts dw with
  | .error _ => 0
  | .ok ys => (List.zipWith (· ⬝ᵥ ·) ybars ys).sum

theorem sdeint_ok_any {K E W : Type*} [Field K] [LinearOrder K] [IsStrictOrderedRing K] [AddCommGroup E] [Module K E]
    {f f' : E → K → W → E × E} {y0 : E} (y0' : E) {ts : List K} {dw : List W} {ys}
    (h : sdeint f y0 ts dw = .ok ys) : ∃ ys', sdeint f' y0' ts dw = .ok ys' := by
  unfold sdeint at h ⊢
  cases hA : sdeintArgs ts dw with
  | error _ => rw [hA] at h; cases h
  | ok r => exact ⟨_, rfl⟩

theorem C48_derivative {W P : Type*} {d : ℕ} [AddCommGroup P] [Module ℝ P] (F : SDEFun ℝ (Fin d → ℝ) W P) (θ : P)
    (A B : ℝ → W → Matrix (Fin d) (Fin d) ℝ) (c e : ℝ → W → Fin d → ℝ) (hF : LinearAt F θ A B c e)
    (hA : ∀ t t' w, A t w = A t' w)
    (y0 : Fin d → ℝ) (ts : List ℝ) (dw : List W) (ys ybars : List (Fin d → ℝ))
    (hok : sdeint (F.f θ) y0 ts dw = .ok ys) (hlen : ybars.length = ys.length) :
    ∃ g : (Fin d → ℝ) × P, sdeintVjp F θ y0 ts dw ybars = .ok g ∧
      HasFDerivAt (lossOf (F.f θ) ts dw ybars) (dotCLM g.1) y0 := by
  obtain ⟨g, hg, hd⟩ := C48_partial F θ A B c e hF hA y0 ts dw ys ybars hok hlen
  refine ⟨g, hg, ?_⟩
  have : lossOf (F.f θ) ts dw ybars = fun y => dotCLM g.1 y + (lossOf (F.f θ) ts dw ybars y0 - dotCLM g.1 y0) := by
    funext y
    obtain ⟨ys', h'⟩ := sdeint_ok_any (f' := F.f θ) y hok
    have := hd y ys' h'
    simp only [lossOf, hok, h', dotCLM_apply]
    rw [dotProduct_sub] at this
    linarith
  rw [this]
  exact (dotCLM g.1).hasFDerivAt.add_const _

theorem C64_derivative {W : Type*} {d q : ℕ} (F : SDEFun ℝ (Fin d → ℝ) W (Fin q → ℝ)) (a : Coeffs ℝ W d q)
    (hF : a.Is F) (hA : ∀ t t' w, a.A t w = a.A t' w) (hC : ∀ t t' w, a.C t w = a.C t' w)
    (θ : Fin q → ℝ) (y0 : Fin d → ℝ) (ts : List ℝ) (dw : List W) (ys ybars : List (Fin d → ℝ))
    (hok : sdeint (F.f θ) y0 ts dw = .ok ys) (hlen : ybars.length = ys.length) :
    ∃ g : (Fin d → ℝ) × (Fin q → ℝ), sdeintVjp F θ y0 ts dw ybars = .ok g ∧
      HasFDerivAt (fun θ' => lossOf (F.f θ') ts dw ybars y0) (dotCLM g.2) θ := by
  obtain ⟨g, hg, hd⟩ := C64_partial F a hF hA hC θ y0 ts dw ys ybars hok hlen
  refine ⟨g, hg, ?_⟩
  have : (fun θ' => lossOf (F.f θ') ts dw ybars y0) =
      fun θ' => dotCLM g.2 θ' + (lossOf (F.f θ) ts dw ybars y0 - dotCLM g.2 θ) := by
    funext θ'
    obtain ⟨ys', h'⟩ := sdeint_ok_any (f' := F.f θ') y0 hok
    have := hd θ' y0 ys' h'
    simp only [lossOf, hok, h', dotCLM_apply]
    rw [sub_self, dotProduct_zero, dotProduct_sub] at this
    linarith
  rw [this]
  exact (dotCLM g.2).hasFDerivAt.add_const _

/-! ### Accuracy for equations that are not linear -/

/-- The loss with constant cotangents `ybars`, as a function of initial state and arguments. -/
noncomputable def lossOf2 {W : Type*} {d q : ℕ} (F : SDEFun ℝ (Fin d → ℝ) W (Fin q → ℝ)) (ts : List ℝ)
    (dw : List W) (ybars : List (Fin d → ℝ)) (z : (Fin d → ℝ) × (Fin q → ℝ)) : ℝ := lossOf (F.f z.2) ts dw ybars z.1

/-- Let drift and diffusion be smooth on `S` (`Regular`), `T` a bound for the length of the path (time plus total size of
the noise) and `η` for the length of a step. If the states of the forward pass keep the distance `r ≥ C η` from the
complement of `S`, the reverse rule gives the derivative of the loss up to `C η` times the size of the cotangents. -/
theorem C84_accuracy (L T : ℝ) (hL : 0 ≤ L) (hT : 0 ≤ T) : ∃ C : ℝ, 0 ≤ C ∧
    ∀ {W : Type*} {d q : ℕ} (F : SDEFun ℝ (Fin d → ℝ) W (Fin q → ℝ))
      (A B : (Fin d → ℝ) × (Fin q → ℝ) → ℝ → W → (Fin d → ℝ) × (Fin q → ℝ) →L[ℝ] (Fin d → ℝ))
      (S : Set ((Fin d → ℝ) × (Fin q → ℝ))) (I : Set ℝ) (ε : W → ℝ), Regular F A B S I L ε →
    ∀ (θ : Fin q → ℝ) (y0 : Fin d → ℝ) (t0 : ℝ) (touts : List ℝ) (dw : List W) (n : ℕ) (ybars : List (Fin d → ℝ)) (η r : ℝ),
      0 < n → 0 < touts.length → dw.length = touts.length * n → ybars.length = touts.length →
      List.IsChain (fun t t' => t < t') (t0 :: touts) →
      StaysInside (joint F) S I r t0 (y0, θ) (segments n touts.length dw) touts →
      (touts.getLastD t0 - t0) + (dw.map ε).sum ≤ T →
      (∀ i (h : i < touts.length), ∀ w ∈ dw, (touts[i] - (t0 :: touts)[i]'(by simp; omega)) / n + ε w ≤ η) →
      C * η ≤ r →
      ∃ (g : (Fin d → ℝ) × (Fin q → ℝ)) (D : (Fin d → ℝ) × (Fin q → ℝ) →L[ℝ] ℝ),
        sdeintVjp F θ y0 (t0 :: touts) dw ybars = .ok g ∧
        HasFDerivAt (lossOf2 F (t0 :: touts) dw ybars) D (y0, θ) ∧
        ∀ v : (Fin d → ℝ) × (Fin q → ℝ), |(g.1 ⬝ᵥ v.1 + g.2 ⬝ᵥ v.2) - D v| ≤ C * η * sizeY ybars * ‖v‖ := by
  set M := L * (1 + L * T) with hM
  set c := L * (1 + 3 * L) with hc
  have hM0 : 0 ≤ M := by positivity
  have hc0 : 0 ≤ c := by positivity
  refine ⟨2 * Real.exp (3 * M * T) * c * T + 2 * L, by positivity, ?_⟩
  intro W d q F A B S I ε H θ y0 t0 touts dw n ybars η r hn hm hl hlen hchain hin hTot hη hr
  set segs := segments n touts.length dw with hsegs
  have hsl : segs.length = touts.length := segments_length n touts.length dw
  have hlens := segments_mem_length n touts.length dw hl
  have hne : ∀ l ∈ segs, l ≠ [] := by
    intro l hl' h
    have := hlens l hl'
    rw [h] at this
    simp at this
    omega
  have hflat : segs.flatten = dw := segments_append n touts.length dw hl
  have hmem : ∀ l ∈ segs, ∀ w ∈ l, w ∈ dw := by
    intro l hl' w hw
    rw [← hflat]
    exact List.mem_flatten.mpr ⟨l, hl', hw⟩
  have hsize : sizeS ε t0 segs touts ≤ T := by
    rw [sizeS_eq ε segs touts t0 hsl hne, hflat]
    exact hTot
  have hs0 := H.sizeS_nonneg segs touts t0 hne hchain
  have hstep : ∀ i (h : i < touts.length) (h' : i < segs.length), ∀ w ∈ segs[i],
      (touts[i] - (t0 :: touts)[i]'(by simp; omega)) / segs[i].length + ε w ≤ η := by
    intro i h h' w hw
    rw [hlens _ (List.getElem_mem h')]
    exact hη i h w (hmem _ (List.getElem_mem h') w hw)
  have hsq := sqS_le ε H.ε_nonneg segs touts t0 hchain hne hstep
  have hsq0 := sqS_nonneg ε segs touts t0
  have hε : ∀ w ∈ dw, ε w ≤ η := by
    intro w hw
    have h1 := hη 0 hm w hw
    simp only [List.getElem_cons_zero] at h1
    have h2 : t0 < touts[0] := by
      cases touts with
      | nil => simp at hm
      | cons a l => rw [List.isChain_cons_cons] at hchain; simpa using hchain.1
    have : (0 : ℝ) ≤ (touts[0] - t0) / n := div_nonneg (sub_nonneg.mpr h2.le) (Nat.cast_nonneg n)
    linarith
  have hη0 : 0 ≤ η := by
    have hd : 0 < dw.length := by rw [hl]; positivity
    exact le_trans (H.ε_nonneg _) (hε _ (List.getElem_mem hd))
  have hsqT : sqS ε t0 segs touts ≤ η * T := hsq.trans (mul_le_mul_of_nonneg_left hsize hη0)
  have hexp : Real.exp (M * sizeS ε t0 segs touts) ≤ Real.exp (M * T) := Real.exp_le_exp.mpr (by gcongr)
  have hexp2 : Real.exp (2 * M * sizeS ε t0 segs touts) ≤ Real.exp (2 * M * T) := Real.exp_le_exp.mpr (by gcongr)
  have hexp3 : Real.exp (M * T) ≤ Real.exp (3 * M * T) := Real.exp_le_exp.mpr (by linarith [mul_nonneg hM0 hT])
  have hexp4 : Real.exp (2 * M * T) * Real.exp (M * T) = Real.exp (3 * M * T) := by rw [← Real.exp_add]; ring_nf
  have hY := sizeY_nonneg ybars
  have hr1 : 2 * L * η ≤ r := by
    refine le_trans ?_ hr
    have : 0 ≤ 2 * Real.exp (3 * M * T) * c * T * η := by positivity
    linarith
  have hr2 : 2 * (Real.exp (M * T) * (c * (η * T))) ≤ r := by
    refine le_trans ?_ hr
    have h1 : Real.exp (M * T) * (c * (η * T)) ≤ Real.exp (3 * M * T) * (c * (η * T)) :=
      mul_le_mul_of_nonneg_right hexp3 (by positivity)
    have : 0 ≤ 2 * L * η := by positivity
    linarith
  have hr0 : 0 ≤ r := le_trans (by positivity) hr1
  obtain ⟨D, d1, -, d3⟩ := H.segScan_near θ (K := Real.exp (M * T) * sizeY ybars) hr0 le_rfl hT hc segs touts ybars t0 y0
    hsl hlen hne hchain hin hsize
    (fun l hl' w hw => by
      have := hε w (hmem l hl' w hw)
      have : L * ε w ≤ L * η := mul_le_mul_of_nonneg_left this hL
      linarith)
    (mul_le_mul_of_nonneg_right hexp hY)
    (by
      refine le_trans ?_ hr2
      have : Real.exp (M * sizeS ε t0 segs touts) * (c * sqS ε t0 segs touts) ≤ Real.exp (M * T) * (c * (η * T)) :=
        mul_le_mul hexp (mul_le_mul_of_nonneg_left hsqT hc0) (by positivity) (by positivity)
      linarith)
  have hargs := sdeintArgs_ok t0 touts dw n hn hm hl
  refine ⟨segScanVjp F θ t0 y0 segs touts ybars, D, by unfold sdeintVjp; rw [hargs], ?_, ?_⟩
  · refine d1.congr_of_eventuallyEq (Filter.Eventually.of_forall fun z => ?_)
    simp only [lossOf2, lossOf]
    rw [sdeint_ok _ _ t0 touts dw n hn hm hl]
    rfl
  · intro v
    have hv := (cov (segScanVjp F θ t0 y0 segs touts ybars) - D).le_opNorm v
    rw [Real.norm_eq_abs] at hv
    refine (le_of_eq ?_).trans (hv.trans (mul_le_mul_of_nonneg_right (d3.trans ?_) (norm_nonneg v)))
    · rfl
    · calc _ ≤ Real.exp (2 * M * T) * (2 * (Real.exp (M * T) * sizeY ybars) * c * (η * T)) :=
            mul_le_mul hexp2 (mul_le_mul_of_nonneg_left hsqT (by positivity)) (by positivity) (by positivity)
        _ = 2 * (Real.exp (2 * M * T) * Real.exp (M * T)) * c * T * η * sizeY ybars := by ring
        _ ≤ _ := by
          rw [hexp4]
          have : 0 ≤ 2 * L * η * sizeY ybars := by positivity
          linarith

/-- The same for an equation smooth everywhere, without conditions on the path: the error of the reverse rule tends to zero
with the length of the steps. -/
theorem C84_accuracy_global (L T : ℝ) (hL : 0 ≤ L) (hT : 0 ≤ T) : ∃ C : ℝ, 0 ≤ C ∧
    ∀ {W : Type*} {d q : ℕ} (F : SDEFun ℝ (Fin d → ℝ) W (Fin q → ℝ))
      (A B : (Fin d → ℝ) × (Fin q → ℝ) → ℝ → W → (Fin d → ℝ) × (Fin q → ℝ) →L[ℝ] (Fin d → ℝ)) (ε : W → ℝ),
      Regular F A B Set.univ Set.univ L ε →
    ∀ (θ : Fin q → ℝ) (y0 : Fin d → ℝ) (t0 : ℝ) (touts : List ℝ) (dw : List W) (n : ℕ) (ybars : List (Fin d → ℝ)) (η : ℝ),
      0 < n → 0 < touts.length → dw.length = touts.length * n → ybars.length = touts.length →
      List.IsChain (fun t t' => t < t') (t0 :: touts) →
      (touts.getLastD t0 - t0) + (dw.map ε).sum ≤ T →
      (∀ i (h : i < touts.length), ∀ w ∈ dw, (touts[i] - (t0 :: touts)[i]'(by simp; omega)) / n + ε w ≤ η) →
      ∃ (g : (Fin d → ℝ) × (Fin q → ℝ)) (D : (Fin d → ℝ) × (Fin q → ℝ) →L[ℝ] ℝ),
        sdeintVjp F θ y0 (t0 :: touts) dw ybars = .ok g ∧
        HasFDerivAt (lossOf2 F (t0 :: touts) dw ybars) D (y0, θ) ∧
        ∀ v : (Fin d → ℝ) × (Fin q → ℝ), |(g.1 ⬝ᵥ v.1 + g.2 ⬝ᵥ v.2) - D v| ≤ C * η * sizeY ybars * ‖v‖ := by
  obtain ⟨C, hC, h⟩ := C84_accuracy L T hL hT
  refine ⟨C, hC, ?_⟩
  intro W d q F A B ε H θ y0 t0 touts dw n ybars η hn hm hl hlen hchain hTot hη
  exact h F A B Set.univ Set.univ ε H θ y0 t0 touts dw n ybars η (C * η) hn hm hl hlen hchain
    (StaysInside_univ _ _ _ _ _ _) hTot hη le_rfl

/-! ### Witnesses -/

/-- `drift = sin (y + θ)`, `diffusion = dw cos (y - θ + t)` in one dimension, for noise in `[-1, 1]`. -/
noncomputable def exSin : SDEFun ℝ (Fin 1 → ℝ) ℝ (Fin 1 → ℝ) where
  f θ y t w := (fun _ => Real.sin (y 0 + θ 0), fun _ => w * Real.cos (y 0 - θ 0 + t))
  driftVjp θ y _ _ v := (fun _ => Real.cos (y 0 + θ 0) * v 0, fun _ => Real.cos (y 0 + θ 0) * v 0)
  diffVjp θ y t w v := (fun _ => -(w * Real.sin (y 0 - θ 0 + t)) * v 0, fun _ => w * Real.sin (y 0 - θ 0 + t) * v 0)


/-- State plus, respectively minus, argument. -/
noncomputable def exSigma (s : ℝ) : (Fin 1 → ℝ) × (Fin 1 → ℝ) →L[ℝ] ℝ :=
  (ContinuousLinearMap.proj 0).comp (ContinuousLinearMap.fst ℝ (Fin 1 → ℝ) (Fin 1 → ℝ)) +
    s • (ContinuousLinearMap.proj 0).comp (ContinuousLinearMap.snd ℝ (Fin 1 → ℝ) (Fin 1 → ℝ))

theorem exSigma_apply (s : ℝ) (v : (Fin 1 → ℝ) × (Fin 1 → ℝ)) : exSigma s v = v.1 0 + s * v.2 0 := rfl

theorem exSigma_le (s : ℝ) (hs : |s| ≤ 1) : ‖exSigma s‖ ≤ 2 := by
  refine ContinuousLinearMap.opNorm_le_bound _ (by norm_num) fun v => ?_
  rw [exSigma_apply, Real.norm_eq_abs]
  have h1 : |v.1 0| ≤ ‖v‖ := (norm_le_pi_norm v.1 0).trans (norm_fst_le v)
  have h2 : |v.2 0| ≤ ‖v‖ := (norm_le_pi_norm v.2 0).trans (norm_snd_le v)
  have h3 : |s * v.2 0| ≤ 1 * ‖v‖ := by
    rw [abs_mul]
    exact mul_le_mul hs h2 (abs_nonneg _) (by norm_num)
  exact (abs_add_le _ _).trans (by linarith)

/-- A number as a state. -/
noncomputable def exOne : ℝ →L[ℝ] (Fin 1 → ℝ) := ContinuousLinearMap.pi fun _ => ContinuousLinearMap.id ℝ ℝ

theorem exOne_norm (x : ℝ) : ‖exOne x‖ = |x| := by
  have : exOne x = fun _ => x := rfl
  rw [this, pi_norm_const, Real.norm_eq_abs]

theorem exOne_comp_le (s x : ℝ) (hs : |s| ≤ 1) : ‖x • exOne.comp (exSigma s)‖ ≤ 2 * |x| := by
  rw [norm_smul, Real.norm_eq_abs, mul_comm]
  refine mul_le_mul_of_nonneg_right ?_ (abs_nonneg _)
  refine ContinuousLinearMap.opNorm_le_bound _ (by norm_num) fun v => ?_
  rw [ContinuousLinearMap.comp_apply, exOne_norm, ← Real.norm_eq_abs]
  exact ((exSigma s).le_opNorm v).trans (mul_le_mul_of_nonneg_right (exSigma_le s hs) (norm_nonneg v))

theorem exOne_comp_sub_le (s x y : ℝ) (hs : |s| ≤ 1) :
    ‖x • exOne.comp (exSigma s) - y • exOne.comp (exSigma s)‖ ≤ 2 * |x - y| := by
  have := exOne_comp_le s (x - y) hs
  rwa [show (x - y) • exOne.comp (exSigma s) = x • exOne.comp (exSigma s) - y • exOne.comp (exSigma s) from
    ContinuousLinearMap.ext fun v => sub_smul x y (exOne (exSigma s v))] at this

theorem exSigma_sub_le (s : ℝ) (hs : |s| ≤ 1) (z z' : (Fin 1 → ℝ) × (Fin 1 → ℝ)) :
    |exSigma s z - exSigma s z'| ≤ 2 * ‖z - z'‖ := by
  rw [← map_sub, ← Real.norm_eq_abs]
  exact ((exSigma s).le_opNorm _).trans (mul_le_mul_of_nonneg_right (exSigma_le s hs) (norm_nonneg _))

theorem exSin_regular : Regular exSin (fun z _ _ => Real.cos (exSigma 1 z) • exOne.comp (exSigma 1))
    (fun z t w => (-(w * Real.sin (exSigma (-1) z + t))) • exOne.comp (exSigma (-1))) Set.univ Set.univ 4 (fun w => |w|) := by
  have h1 : |(1 : ℝ)| ≤ 1 := by simp
  have h2 : |(-1 : ℝ)| ≤ 1 := by simp
  have e1 : ∀ z : (Fin 1 → ℝ) × (Fin 1 → ℝ), z.1 0 + z.2 0 = exSigma 1 z := fun z => by simp [exSigma_apply]
  have e2 : ∀ z : (Fin 1 → ℝ) × (Fin 1 → ℝ), z.1 0 - z.2 0 = exSigma (-1) z := fun z => by
    simp [exSigma_apply, sub_eq_add_neg]
  have f1 : ∀ z t w, (exSin.f z.2 z.1 t w).1 = exOne (Real.sin (exSigma 1 z)) := fun z t w => by rw [← e1]; rfl
  have f2 : ∀ z t w, (exSin.f z.2 z.1 t w).2 = exOne (w * Real.cos (exSigma (-1) z + t)) := fun z t w => by
    rw [← e2]; rfl
  have sl : ∀ x y : ℝ, |Real.sin x - Real.sin y| ≤ |x - y| := Real.abs_sin_sub_sin_le
  have cl : ∀ x y : ℝ, |Real.cos x - Real.cos y| ≤ |x - y| := Real.abs_cos_sub_cos_le
  have st : ∀ (z z' : (Fin 1 → ℝ) × (Fin 1 → ℝ)) (t t' : ℝ),
      |exSigma (-1) z + t - (exSigma (-1) z' + t')| ≤ 2 * (‖z - z'‖ + |t - t'|) := by
    intro z z' t t'
    have a := exSigma_sub_le (-1) h2 z z'
    have b := abs_add_le (exSigma (-1) z - exSigma (-1) z') (t - t')
    have c : exSigma (-1) z - exSigma (-1) z' + (t - t') = exSigma (-1) z + t - (exSigma (-1) z' + t') := by ring
    rw [c] at b
    have := abs_nonneg (t - t')
    linarith
  constructor
  · norm_num
  · exact fun w => abs_nonneg w
  · intro y θ t w a v
    simp [cov_apply, exSin, dotProduct, exOne, exSigma_apply]
    ring
  · intro y θ t w a v
    simp [cov_apply, exSin, dotProduct, exOne, exSigma_apply, sub_eq_add_neg]
    ring
  · intro z _ t _ w
    simp only [f1]
    have hd := exOne.hasFDerivAt.comp z ((Real.hasDerivAt_sin (exSigma 1 z)).comp_hasFDerivAt z (exSigma 1).hasFDerivAt)
    rwa [ContinuousLinearMap.comp_smul] at hd
  · intro z _ t _ w
    simp only [f2]
    have hd := exOne.hasFDerivAt.comp z ((((Real.hasDerivAt_cos (exSigma (-1) z + t)).comp_hasFDerivAt z
      ((exSigma (-1)).hasFDerivAt.add_const t)).const_mul w))
    rw [smul_smul, ContinuousLinearMap.comp_smul] at hd
    rwa [show w * -Real.sin (exSigma (-1) z + t) = -(w * Real.sin (exSigma (-1) z + t)) by ring] at hd
  · intro z _ t _ w
    rw [f1, exOne_norm]
    have := Real.abs_sin_le_one (exSigma 1 z)
    linarith
  · intro z _ t _ w
    rw [f2, exOne_norm, abs_mul]
    have := mul_le_mul_of_nonneg_left (Real.abs_cos_le_one (exSigma (-1) z + t)) (abs_nonneg w)
    have := abs_nonneg w
    linarith
  · intro z _ t _ w
    have := exOne_comp_le 1 (Real.cos (exSigma 1 z)) h1
    have := Real.abs_cos_le_one (exSigma 1 z)
    linarith
  · intro z _ t _ w
    refine (exOne_comp_le (-1) _ h2).trans ?_
    rw [abs_neg, abs_mul]
    have := mul_le_mul_of_nonneg_left (Real.abs_sin_le_one (exSigma (-1) z + t)) (abs_nonneg w)
    have := abs_nonneg w
    linarith
  · intro z _ z' _ t _ t' _ w
    rw [f1, f1, ← map_sub, exOne_norm]
    have := (sl (exSigma 1 z) (exSigma 1 z')).trans (exSigma_sub_le 1 h1 z z')
    have := norm_nonneg (z - z')
    have := abs_nonneg (t - t')
    linarith
  · intro z _ z' _ t _ t' _ w
    rw [f2, f2, ← map_sub, exOne_norm, ← mul_sub, abs_mul]
    have a := (cl _ _).trans (st z z' t t')
    have b := mul_le_mul_of_nonneg_left a (abs_nonneg w)
    have : 0 ≤ |w| * (‖z - z'‖ + |t - t'|) := by positivity
    nlinarith
  · intro z _ z' _ t _ t' _ w
    refine (exOne_comp_sub_le 1 _ _ h1).trans ?_
    have := (cl (exSigma 1 z) (exSigma 1 z')).trans (exSigma_sub_le 1 h1 z z')
    have := abs_nonneg (t - t')
    linarith
  · intro z _ z' _ t _ t' _ w
    refine (exOne_comp_sub_le (-1) _ _ h2).trans ?_
    rw [show -(w * Real.sin (exSigma (-1) z + t)) - -(w * Real.sin (exSigma (-1) z' + t')) =
      -(w * (Real.sin (exSigma (-1) z + t) - Real.sin (exSigma (-1) z' + t'))) by ring, abs_neg, abs_mul]
    have a := (sl _ _).trans (st z z' t t')
    have b := mul_le_mul_of_nonneg_left a (abs_nonneg w)
    linarith

/-- With noise of constant sign and total size 1 the error is at most a constant over the number of steps. -/
example : ∃ C : ℝ, ∀ (n : ℕ), 0 < n → ∃ (g : (Fin 1 → ℝ) × (Fin 1 → ℝ)) (D : (Fin 1 → ℝ) × (Fin 1 → ℝ) →L[ℝ] ℝ),
    sdeintVjp exSin ![1] ![2] [0, 1] (List.replicate n (1 / n : ℝ)) [![1]] = .ok g ∧
    HasFDerivAt (lossOf2 exSin [0, 1] (List.replicate n (1 / n : ℝ)) [![1]]) D (![2], ![1]) ∧
    ∀ v : (Fin 1 → ℝ) × (Fin 1 → ℝ), |(g.1 ⬝ᵥ v.1 + g.2 ⬝ᵥ v.2) - D v| ≤ C / n * ‖v‖ := by
  obtain ⟨C, _, h⟩ := C84_accuracy_global 4 2 (by norm_num) (by norm_num)
  refine ⟨C * 2, fun n hn => ?_⟩
  have hn' : (0 : ℝ) < n := by exact_mod_cast hn
  obtain ⟨g, D, h1, h2, h3⟩ := h exSin _ _ _ exSin_regular ![1] ![2] 0 [1] (List.replicate n (1 / n : ℝ)) n [![1]] (2 / n) hn
    (by simp) (by simp) (by simp) (by simp) (by
      simp
      rw [mul_inv_cancel₀ hn'.ne']
      norm_num) (by
      intro i hi w hw
      have : i = 0 := by simpa using hi
      subst this
      rw [List.eq_of_mem_replicate hw]
      simp [abs_of_pos hn']
      apply le_of_eq
      field_simp
      norm_num)
  refine ⟨g, D, h1, h2, fun v => ?_⟩
  have := h3 v
  simp only [sizeY, List.map_cons, List.map_nil, List.sum_cons, List.sum_nil] at this
  have h4 : ∑ i, |(![1] : Fin 1 → ℝ) i| = 1 := by simp
  rw [h4] at this
  refine this.trans (le_of_eq ?_)
  ring

/-- `drift = θ_0 + y`, `diffusion = (t y + θ_1) dw` in one dimension. -/
def exF : SDEFun ℚ (Fin 1 → ℚ) ℚ (Fin 2 → ℚ) where
  f θ y t w := (fun _ => y 0 + θ 0, fun _ => t * w * y 0 + w * θ 1)
  driftVjp _ _ _ _ v := (fun _ => v 0, ![v 0, 0])
  diffVjp _ _ t w v := (fun _ => t * w * v 0, ![0, w * v 0])

def exCoeffs : Coeffs ℚ ℚ 1 2 where
  A _ _ := !![1]
  C _ _ := !![1, 0]
  c _ _ := 0
  B t w := !![t * w]
  D _ w := !![0, w]
  e _ _ := 0

theorem exF_is : exCoeffs.Is exF where
  drift θ y t w := by ext i; fin_cases i; simp [exF, exCoeffs, vecMul, mulVec, dotProduct, Fin.sum_univ_two]
  diff θ y t w := by ext i; fin_cases i; simp [exF, exCoeffs, vecMul, mulVec, dotProduct, Fin.sum_univ_two]
  driftVjp θ y t w v := by
    refine Prod.ext ?_ ?_ <;> ext i <;> fin_cases i <;> simp [exF, exCoeffs, vecMul, dotProduct]
  diffVjp θ y t w v := by
    refine Prod.ext ?_ ?_ <;> ext i <;> fin_cases i <;> simp [exF, exCoeffs, vecMul, dotProduct, mul_comm]

example : ∃ ys g, sdeint (exF.f ![1, 2]) ![3] [0, 1, 3] [1, -1, 2, 5] = .ok ys ∧
    sdeintVjp exF ![1, 2] ![3] [0, 1, 3] [1, -1, 2, 5] [![1], ![7]] = .ok g := by
  have h := sdeint_ok (exF.f ![1, 2]) ![3] 0 [1, 3] [1, -1, 2, 5] 2 (by norm_num) (by simp) (by simp)
  obtain ⟨g, hg, _⟩ := C64_partial exF exCoeffs exF_is (fun _ _ _ => rfl) (fun _ _ _ => rfl) ![1, 2] ![3] [0, 1, 3]
    [1, -1, 2, 5] _ [![1], ![7]] h rfl
  exact ⟨_, g, h, hg⟩

/-! ### Violations -/

/-- `drift = t y`, no diffusion: linear in the state, with correct vector-Jacobian products. -/
def exTime : SDEFun ℚ (Fin 1 → ℚ) Unit (Fin 0 → ℚ) where
  f _ y t _ := (fun _ => t * y 0, 0)
  driftVjp _ _ t _ v := (fun _ => t * v 0, 0)
  diffVjp _ _ _ _ _ := (0, 0)

theorem exTime_linear : LinearAt exTime 0 (fun t _ => !![t]) (fun _ _ => 0) (fun _ _ => 0) (fun _ _ => 0) where
  drift y t w := by ext i; fin_cases i; simp [exTime, mulVec, dotProduct]
  diff y t w := by simp [exTime]
  driftVjp y t w v := by ext i; fin_cases i; simp [exTime, vecMul, dotProduct, mul_comm]
  diffVjp y t w v := by simp [exTime]

/-- The conclusion of `C48_partial` is false without the hypothesis that the drift does not depend on time: one step on
`[0, 1]` maps `y` to `y`, the rule returns the cotangent 2. -/
theorem C48_violated : ∃ (F : SDEFun ℚ (Fin 1 → ℚ) Unit (Fin 0 → ℚ)) (A B : ℚ → Unit → Matrix (Fin 1) (Fin 1) ℚ)
    (ys : List (Fin 1 → ℚ)),
    LinearAt F 0 A B (fun _ _ => 0) (fun _ _ => 0) ∧ sdeint (F.f 0) ![1] [0, 1] [()] = .ok ys ∧
    ∀ g, sdeintVjp F 0 ![1] [0, 1] [()] [![1]] = .ok g →
      ∃ y0' ys', sdeint (F.f 0) y0' [0, 1] [()] = .ok ys' ∧
        (List.zipWith (· ⬝ᵥ ·) [![1]] ys').sum - (List.zipWith (· ⬝ᵥ ·) [![1]] ys).sum ≠ g.1 ⬝ᵥ (y0' - ![1]) := by
  refine ⟨exTime, _, _, _, exTime_linear, sdeint_ok _ _ 0 [1] [()] 1 (by norm_num) (by simp) (by simp), ?_⟩
  intro g hg
  refine ⟨![2], _, sdeint_ok _ _ 0 [1] [()] 1 (by norm_num) (by simp) (by simp), ?_⟩
  have hargs := sdeintArgs_ok (0 : ℚ) [1] [()] 1 (by norm_num) (by simp) (by simp)
  unfold sdeintVjp at hg
  rw [hargs] at hg
  cases hg
  simp [segments, segScan, segScanVjp, sdeintSegVjp, sdeintSeg, stepFn, heun, augF, exTime, dotProduct]
  norm_num

/-- `drift = θ y`, no diffusion. -/
def exParam : SDEFun ℚ (Fin 1 → ℚ) Unit (Fin 1 → ℚ) where
  f θ y _ _ := (fun _ => θ 0 * y 0, 0)
  driftVjp θ y _ _ v := (fun _ => θ 0 * v 0, fun _ => y 0 * v 0)
  diffVjp _ _ _ _ _ := (0, 0)

/-- For the drift `θ y` (vector-Jacobian products `(θ v, y v)`) one step on `[0, 1]` from `y0 = 1` gives `1 + θ`, with
derivative 1 in `θ`; at `θ = 1` the rule returns 2. -/
theorem C64_violated :
    (∀ θ, sdeint (exParam.f θ) ![1] [0, 1] [()] = .ok [fun _ => 1 + θ 0]) ∧
    ∃ g, sdeintVjp exParam ![1] ![1] [0, 1] [()] [![1]] = .ok g ∧ g.2 = ![2] := by
  constructor
  · intro θ
    rw [sdeint_ok _ _ 0 [1] [()] 1 (by norm_num) (by simp) (by simp)]
    simp [segments, segScan, sdeintSeg, stepFn, heun, exParam]
    funext i
    fin_cases i
    simp
  · have hargs := sdeintArgs_ok (0 : ℚ) [1] [()] 1 (by norm_num) (by simp) (by simp)
    refine ⟨_, by unfold sdeintVjp; rw [hargs], ?_⟩
    funext i
    fin_cases i
    simp [segments, segScanVjp, sdeintSegVjp, sdeintSeg, stepFn, heun, augF, exParam]
    norm_num

end Verif.SDE
