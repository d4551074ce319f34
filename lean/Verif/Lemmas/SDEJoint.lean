import Verif.Lemmas.SDEAccuracy
import Mathlib.Analysis.Normed.Module.FiniteDimension
import Mathlib.Analysis.Normed.Operator.Prod

/-! The reverse rule of `sdeint` as a sweep on states, arguments and covectors, and its distance from the derivative. -/

namespace Verif.SDE

open Matrix

set_option linter.unusedSectionVars false

/-- Pairing with a vector as a continuous linear functional. -/
noncomputable def dotCLM {d : ℕ} (u : Fin d → ℝ) : (Fin d → ℝ) →L[ℝ] ℝ :=
  LinearMap.toContinuousLinearMap
    { toFun := fun v => u ⬝ᵥ v, map_add' := fun v w => dotProduct_add u v w,
      map_smul' := fun r v => by simp [dotProduct_smul] }

theorem dotCLM_apply {d : ℕ} (u v : Fin d → ℝ) : dotCLM u v = u ⬝ᵥ v := rfl

variable {W : Type*} {d q : ℕ}

/-- A pair of cotangents, of the state and of the arguments, as a functional on changes of state and arguments. -/
noncomputable def cov (g : (Fin d → ℝ) × (Fin q → ℝ)) : ((Fin d → ℝ) × (Fin q → ℝ)) →L[ℝ] ℝ :=
  (dotCLM g.1).comp (ContinuousLinearMap.fst ℝ _ _) + (dotCLM g.2).comp (ContinuousLinearMap.snd ℝ _ _)

theorem cov_apply (g v : (Fin d → ℝ) × (Fin q → ℝ)) : cov g v = g.1 ⬝ᵥ v.1 + g.2 ⬝ᵥ v.2 := rfl

theorem cov_add (g g' : (Fin d → ℝ) × (Fin q → ℝ)) : cov (g + g') = cov g + cov g' := by
  refine ContinuousLinearMap.ext fun v => ?_
  simp only [cov_apply, _root_.add_apply, Prod.fst_add, Prod.snd_add, add_dotProduct]
  ring

theorem norm_cov_fst_le (a : Fin d → ℝ) : ‖cov (q := q) (a, 0)‖ ≤ ∑ i, |a i| := by
  refine ContinuousLinearMap.opNorm_le_bound _ (Finset.sum_nonneg fun i _ => abs_nonneg _) ?_
  intro v
  rw [cov_apply, zero_dotProduct, add_zero, dotProduct, Finset.sum_mul]
  refine (norm_sum_le _ _).trans (Finset.sum_le_sum fun i _ => ?_)
  rw [norm_mul, Real.norm_eq_abs]
  refine mul_le_mul_of_nonneg_left ?_ (abs_nonneg _)
  exact (norm_le_pi_norm v.1 i).trans (norm_fst_le v)

/-- Drift and diffusion of `F` as functions of state and arguments together are smooth on `S` with derivatives `A`, `B`;
`ε w` is the size of the noise `w`. The vector-Jacobian products are the transposes of `A` and `B`. -/
structure Regular (F : SDEFun ℝ (Fin d → ℝ) W (Fin q → ℝ))
    (A B : (Fin d → ℝ) × (Fin q → ℝ) → ℝ → W → (Fin d → ℝ) × (Fin q → ℝ) →L[ℝ] (Fin d → ℝ))
    (S : Set ((Fin d → ℝ) × (Fin q → ℝ))) (I : Set ℝ) (L : ℝ) (ε : W → ℝ) : Prop where
  L_nonneg : 0 ≤ L
  ε_nonneg : ∀ w, 0 ≤ ε w
  driftVjp : ∀ y θ t w a v, cov (F.driftVjp θ y t w a) v = a ⬝ᵥ A (y, θ) t w v
  diffVjp : ∀ y θ t w a v, cov (F.diffVjp θ y t w a) v = a ⬝ᵥ B (y, θ) t w v
  drift_deriv : ∀ z ∈ S, ∀ t ∈ I, ∀ w, HasFDerivAt (fun z => (F.f z.2 z.1 t w).1) (A z t w) z
  diff_deriv : ∀ z ∈ S, ∀ t ∈ I, ∀ w, HasFDerivAt (fun z => (F.f z.2 z.1 t w).2) (B z t w) z
  drift_le : ∀ z ∈ S, ∀ t ∈ I, ∀ w, ‖(F.f z.2 z.1 t w).1‖ ≤ L
  diff_le : ∀ z ∈ S, ∀ t ∈ I, ∀ w, ‖(F.f z.2 z.1 t w).2‖ ≤ L * ε w
  A_le : ∀ z ∈ S, ∀ t ∈ I, ∀ w, ‖A z t w‖ ≤ L
  B_le : ∀ z ∈ S, ∀ t ∈ I, ∀ w, ‖B z t w‖ ≤ L * ε w
  drift_lip : ∀ z ∈ S, ∀ z' ∈ S, ∀ t ∈ I, ∀ t' ∈ I, ∀ w,
    ‖(F.f z.2 z.1 t w).1 - (F.f z'.2 z'.1 t' w).1‖ ≤ L * (‖z - z'‖ + |t - t'|)
  diff_lip : ∀ z ∈ S, ∀ z' ∈ S, ∀ t ∈ I, ∀ t' ∈ I, ∀ w,
    ‖(F.f z.2 z.1 t w).2 - (F.f z'.2 z'.1 t' w).2‖ ≤ L * ε w * (‖z - z'‖ + |t - t'|)
  A_lip : ∀ z ∈ S, ∀ z' ∈ S, ∀ t ∈ I, ∀ t' ∈ I, ∀ w, ‖A z t w - A z' t' w‖ ≤ L * (‖z - z'‖ + |t - t'|)
  B_lip : ∀ z ∈ S, ∀ z' ∈ S, ∀ t ∈ I, ∀ t' ∈ I, ∀ w, ‖B z t w - B z' t' w‖ ≤ L * ε w * (‖z - z'‖ + |t - t'|)

/-- The equation for state and arguments together: the arguments do not move. -/
def joint (F : SDEFun ℝ (Fin d → ℝ) W (Fin q → ℝ)) (z : (Fin d → ℝ) × (Fin q → ℝ)) (t : ℝ) (w : W) :
    ((Fin d → ℝ) × (Fin q → ℝ)) × ((Fin d → ℝ) × (Fin q → ℝ)) :=
  (((F.f z.2 z.1 t w).1, 0), ((F.f z.2 z.1 t w).2, 0))

/-- A derivative with values in the states, as a derivative of states and arguments. -/
noncomputable def liftD (A : (Fin d → ℝ) × (Fin q → ℝ) → ℝ → W → (Fin d → ℝ) × (Fin q → ℝ) →L[ℝ] (Fin d → ℝ))
    (z : (Fin d → ℝ) × (Fin q → ℝ)) (t : ℝ) (w : W) :
    (Fin d → ℝ) × (Fin q → ℝ) →L[ℝ] (Fin d → ℝ) × (Fin q → ℝ) :=
  (ContinuousLinearMap.inl ℝ (Fin d → ℝ) (Fin q → ℝ)).comp (A z t w)

theorem norm_inl_comp_le (T : (Fin d → ℝ) × (Fin q → ℝ) →L[ℝ] (Fin d → ℝ)) :
    ‖(ContinuousLinearMap.inl ℝ (Fin d → ℝ) (Fin q → ℝ)).comp T‖ ≤ ‖T‖ := by
  refine ContinuousLinearMap.opNorm_le_bound _ (norm_nonneg _) ?_
  intro v
  have : ‖((ContinuousLinearMap.inl ℝ (Fin d → ℝ) (Fin q → ℝ)).comp T) v‖ = ‖T v‖ := by
    simp [Prod.norm_def]
  rw [this]
  exact T.le_opNorm v

variable {F : SDEFun ℝ (Fin d → ℝ) W (Fin q → ℝ)}
  {A B : (Fin d → ℝ) × (Fin q → ℝ) → ℝ → W → (Fin d → ℝ) × (Fin q → ℝ) →L[ℝ] (Fin d → ℝ)}
  {S : Set ((Fin d → ℝ) × (Fin q → ℝ))} {I : Set ℝ} {L : ℝ} {ε : W → ℝ}

theorem Regular.smoothOn (H : Regular F A B S I L ε) : SmoothOn (joint F) (liftD A) (liftD B) S I L ε where
  L_nonneg := H.L_nonneg
  ε_nonneg := H.ε_nonneg
  f1_deriv z hz t ht w :=
    HasFDerivAt.comp (g := ContinuousLinearMap.inl ℝ (Fin d → ℝ) (Fin q → ℝ)) z
      (ContinuousLinearMap.hasFDerivAt _) (H.drift_deriv z hz t ht w)
  f2_deriv z hz t ht w :=
    HasFDerivAt.comp (g := ContinuousLinearMap.inl ℝ (Fin d → ℝ) (Fin q → ℝ)) z
      (ContinuousLinearMap.hasFDerivAt _) (H.diff_deriv z hz t ht w)
  f1_le z hz t ht w := by simpa [joint, Prod.norm_def] using H.drift_le z hz t ht w
  f2_le z hz t ht w := by simpa [joint, Prod.norm_def] using H.diff_le z hz t ht w
  D1_le z hz t ht w := (norm_inl_comp_le _).trans (H.A_le z hz t ht w)
  D2_le z hz t ht w := (norm_inl_comp_le _).trans (H.B_le z hz t ht w)
  f1_lip z hz z' hz' t ht t' ht' w := by
    have := H.drift_lip z hz z' hz' t ht t' ht' w
    simpa [joint, Prod.norm_def] using this
  f2_lip z hz z' hz' t ht t' ht' w := by
    have := H.diff_lip z hz z' hz' t ht t' ht' w
    simpa [joint, Prod.norm_def] using this
  D1_lip z hz z' hz' t ht t' ht' w := by
    have := H.A_lip z hz z' hz' t ht t' ht' w
    rw [liftD, liftD, ← ContinuousLinearMap.comp_sub]
    exact (norm_inl_comp_le _).trans this
  D2_lip z hz z' hz' t ht t' ht' w := by
    have := H.B_lip z hz z' hz' t ht t' ht' w
    rw [liftD, liftD, ← ContinuousLinearMap.comp_sub]
    exact (norm_inl_comp_le _).trans this

theorem heun_joint (F : SDEFun ℝ (Fin d → ℝ) W (Fin q → ℝ)) (h t : ℝ) (y : Fin d → ℝ) (θ : Fin q → ℝ) (w : W) :
    heun (joint F) h t (y, θ) w = (heun (F.f θ) h t y w, θ) := by
  simp [heun, joint]

theorem fwdU_joint (F : SDEFun ℝ (Fin d → ℝ) W (Fin q → ℝ)) (h : ℝ) (θ : Fin q → ℝ) : ∀ (l : List W) (t : ℝ) (y : Fin d → ℝ),
    fwdU (joint F) h t (y, θ) l = (fwdU (F.f θ) h t y l, θ)
  | [], _, _ => rfl
  | w :: l, t, y => by
      simp only [fwdU]
      rw [heun_joint, fwdU_joint F h θ l]

/-- One step of the augmented system is a step backwards on states and covectors. -/
theorem Regular.heun_aug (H : Regular F A B S I L ε) (h s : ℝ) (θ p : Fin q → ℝ) (y a : Fin d → ℝ) (w : W) :
    backZ (joint F) h s (y, θ) w = ((heun (augF F θ) h (-s) (y, a, p) w).1, θ) ∧
    (cov (a, p)).comp (backJ (joint F) (liftD A) (liftD B) h s (y, θ) w) =
      cov (heun (augF F θ) h (-s) (y, a, p) w).2 := by
  have e2 : -(-s + h) = s - h := by ring
  constructor
  · simp only [backZ, heun, augF, joint, neg_neg, e2, Prod.fst_add, Prod.smul_fst]
    refine Prod.ext ?_ ?_
    · simp only [Prod.mk_sub_mk, Prod.smul_mk, Prod.mk_add_mk, sub_zero, ← sub_eq_add_neg]
      module
    · simp
  · refine ContinuousLinearMap.ext fun v => ?_
    set B' := B (y - (F.f θ y s w).2, θ) (s - h) w with hB'
    have h1 := H.driftVjp y θ s w a v
    have h2 := H.diffVjp y θ s w a v
    have h3 := H.diffVjp (y - (F.f θ y s w).2) θ (s - h) w (a + (F.diffVjp θ y s w a).1) v
    have h4 := H.diffVjp y θ s w a (B' v, 0)
    simp only [cov_apply, dotProduct_zero, add_zero] at h1 h2 h3 h4
    rw [add_dotProduct, ← hB', h4] at h3
    simp only [ContinuousLinearMap.comp_apply, cov_apply, backJ, liftD, joint, heun, augF, neg_neg, e2,
      _root_.add_apply, _root_.smul_apply, ContinuousLinearMap.inl_apply,
      ContinuousLinearMap.id_apply, Prod.fst_add, Prod.snd_add, Prod.smul_fst, Prod.smul_snd, Prod.mk_sub_mk, sub_zero,
      smul_zero, add_zero, Prod.mk_add_mk, Prod.smul_mk, ← hB', ← sub_eq_add_neg]
    simp only [dotProduct_add, add_dotProduct, dotProduct_smul, smul_dotProduct, smul_eq_mul, ← hB'] at h3 ⊢
    linear_combination -h * h1 - 1 / 2 * h2 - 1 / 2 * h3

theorem Regular.revU_aug (H : Regular F A B S I L ε) (h : ℝ) (θ p : Fin q → ℝ) (y a : Fin d → ℝ) :
    ∀ (l : List W) (t : ℝ),
      backU (joint F) (liftD A) (liftD B) h ((y, θ), cov (a, p)) t l =
        (((revU (augF F θ) h (-(t + l.length * h), (y, a, p)) l).2.1, θ),
          cov (revU (augF F θ) h (-(t + l.length * h), (y, a, p)) l).2.2)
  | [], t => by simp [backU, revU]
  | w :: l, t => by
      have ih := Regular.revU_aug H h θ p y a l (t + h)
      have et : t + ((w :: l).length : ℝ) * h = t + h + l.length * h := by
        push_cast [List.length_cons]; ring
      rw [et]
      set s := revU (augF F θ) h (-(t + h + l.length * h), (y, a, p)) l with hs
      have htime : s.1 = -(t + h) := by
        rw [hs, revU_time]; ring
      have hcons : revU (augF F θ) h (-(t + h + l.length * h), (y, a, p)) (w :: l) =
          (s.1 + h, heun (augF F θ) h s.1 s.2 w) := rfl
      rw [hcons]
      simp only [backU]
      rw [ih, htime]
      obtain ⟨h1, h2⟩ := H.heun_aug h (t + h) θ s.2.2.2 s.2.1 s.2.2.1 w
      exact Prod.ext h1 h2

/-- Cotangents of the arguments are only added up. -/
theorem backU_args (F : SDEFun ℝ (Fin d → ℝ) W (Fin q → ℝ))
    (A B : (Fin d → ℝ) × (Fin q → ℝ) → ℝ → W → (Fin d → ℝ) × (Fin q → ℝ) →L[ℝ] (Fin d → ℝ)) (h : ℝ)
    (z : (Fin d → ℝ) × (Fin q → ℝ)) (lam) (p : Fin q → ℝ) : ∀ (l : List W) (t : ℝ),
      (backU (joint F) (liftD A) (liftD B) h (z, lam + cov (0, p)) t l) =
        ((backU (joint F) (liftD A) (liftD B) h (z, lam) t l).1,
          (backU (joint F) (liftD A) (liftD B) h (z, lam) t l).2 + cov (0, p))
  | [], _ => rfl
  | w :: l, t => by
      have ih := backU_args F A B h z lam p l (t + h)
      simp only [backU]
      rw [ih]
      refine Prod.ext rfl ?_
      simp only [ContinuousLinearMap.add_comp]
      congr 1
      refine ContinuousLinearMap.ext fun v => ?_
      simp [cov_apply, backJ, liftD]

/-! ### Segments -/

/-- All states visited by the forward pass over the segments, the start included, have distance at least `r` from the
complement of `S`, and all times lie in `I`. -/
def StaysInside (f : (Fin d → ℝ) × (Fin q → ℝ) → ℝ → W → ((Fin d → ℝ) × (Fin q → ℝ)) × ((Fin d → ℝ) × (Fin q → ℝ)))
    (S : Set ((Fin d → ℝ) × (Fin q → ℝ))) (I : Set ℝ) (r : ℝ) :
    ℝ → (Fin d → ℝ) × (Fin q → ℝ) → List (List W) → List ℝ → Prop
  | t, z, dw :: dws, t' :: ts => TubeU f S I r ((t' - t) / dw.length) t z dw ∧
      StaysInside f S I r t' (fwdU f ((t' - t) / dw.length) t z dw) dws ts
  | _, _, _, _ => True

/-- Sum of the sizes of all steps, and of their squares. -/
noncomputable def sizeS (ε : W → ℝ) : ℝ → List (List W) → List ℝ → ℝ
  | t, dw :: dws, t' :: ts => sizeU ε ((t' - t) / dw.length) dw + sizeS ε t' dws ts
  | _, _, _ => 0

noncomputable def sqS (ε : W → ℝ) : ℝ → List (List W) → List ℝ → ℝ
  | t, dw :: dws, t' :: ts => sqU ε ((t' - t) / dw.length) dw + sqS ε t' dws ts
  | _, _, _ => 0

theorem sqS_nonneg (ε : W → ℝ) : ∀ (dws : List (List W)) (ts : List ℝ) (t : ℝ), 0 ≤ sqS ε t dws ts
  | [], _, _ => le_rfl
  | _ :: _, [], _ => le_rfl
  | dw :: dws, t' :: ts, _ => add_nonneg (sqU_nonneg _ _ _) (sqS_nonneg ε dws ts t')

theorem seg_times {t t' : ℝ} (ht : t < t') {l : List W} (hl : l ≠ []) :
    0 ≤ (t' - t) / l.length ∧ t + l.length * ((t' - t) / l.length) = t' := by
  have hn : (0 : ℝ) < l.length := by exact_mod_cast List.length_pos_iff.mpr hl
  refine ⟨(div_pos (by linarith) hn).le, ?_⟩
  field_simp
  ring

theorem Regular.sizeS_nonneg (H : Regular F A B S I L ε) : ∀ (dws : List (List W)) (ts : List ℝ) (t : ℝ),
    (∀ l ∈ dws, l ≠ []) → List.IsChain (· < ·) (t :: ts) → 0 ≤ sizeS ε t dws ts
  | [], _, _, _, _ => le_rfl
  | _ :: _, [], _, _, _ => le_rfl
  | dw :: dws, t' :: ts, t, h, hc => by
      rw [List.isChain_cons_cons] at hc
      exact add_nonneg (H.smoothOn.sizeU_nonneg (seg_times hc.1 (h dw (by simp))).1 _)
        (Regular.sizeS_nonneg H dws ts t' (fun l hl => h l (List.mem_cons_of_mem _ hl)) hc.2)

theorem sdeintSeg_fwdU (f : (Fin d → ℝ) → ℝ → W → (Fin d → ℝ) × (Fin d → ℝ)) (y : Fin d → ℝ) {t t' : ℝ} (ht : t < t')
    (l : List W) : sdeintSeg f false y (t, t') l = fwdU f ((t' - t) / l.length) t y l := by
  unfold sdeintSeg
  simp only [Bool.false_eq_true, if_false]
  exact foldl_fwdU _ _ _ l _ _ (fun k hk => active_times ht k hk)

theorem sdeintSegVjp_revU (F : SDEFun ℝ (Fin d → ℝ) W (Fin q → ℝ)) (θ : Fin q → ℝ) (y a : Fin d → ℝ) {t t' : ℝ} (ht : t < t')
    {l : List W} (hl : l ≠ []) :
    sdeintSegVjp F θ y (t, t') l a =
      (revU (augF F θ) ((t' - t) / l.length) (-(t + l.length * ((t' - t) / l.length)), (y, a, 0)) l).2.2 := by
  unfold sdeintSegVjp
  have edt : (-t - -t') / (l.length : ℝ) = (t' - t) / l.length := by ring
  unfold sdeintSeg
  simp only [if_true, edt]
  rw [foldr_revU _ (-t', -t) _ _ l (fun k hk => by
        have := active_times (a := -t') (b := -t) (by linarith) k hk
        rwa [edt] at this), (seg_times ht hl).2]

/-- Sum of the sizes of the cotangents. -/
noncomputable def sizeY (ybars : List (Fin d → ℝ)) : ℝ := (ybars.map fun a => ∑ i, |a i|).sum

theorem sizeY_nonneg (ybars : List (Fin d → ℝ)) : 0 ≤ sizeY ybars :=
  List.sum_nonneg (by
    intro x hx
    obtain ⟨w, _, rfl⟩ := List.mem_map.mp hx
    exact Finset.sum_nonneg fun i _ => abs_nonneg _)

/-- The covector computed by the reverse pass over the segments is near the derivative of the paired outputs. -/
theorem Regular.segScan_near (H : Regular F A B S I L ε) (θ : Fin q → ℝ) {r T M K c : ℝ} (hr : 0 ≤ r)
    (hM : L * (1 + L * T) ≤ M) (hT0 : 0 ≤ T) (hc : c = L * (1 + 3 * L)) :
    ∀ (dws : List (List W)) (ts : List ℝ) (ybars : List (Fin d → ℝ)) (t : ℝ) (y : Fin d → ℝ),
      dws.length = ts.length → ybars.length = ts.length → (∀ l ∈ dws, l ≠ []) → List.IsChain (· < ·) (t :: ts) →
      StaysInside (joint F) S I r t (y, θ) dws ts →
      sizeS ε t dws ts ≤ T → (∀ l ∈ dws, ∀ w ∈ l, 2 * (L * ε w) ≤ r) →
      Real.exp (M * sizeS ε t dws ts) * sizeY ybars ≤ K →
      2 * (Real.exp (M * sizeS ε t dws ts) * (c * sqS ε t dws ts)) ≤ r →
      ∃ D : (Fin d → ℝ) × (Fin q → ℝ) →L[ℝ] ℝ,
        HasFDerivAt (fun z : (Fin d → ℝ) × (Fin q → ℝ) => pairing ybars (segScan (F.f z.2) t z.1 dws ts)) D (y, θ) ∧
        ‖D‖ ≤ Real.exp (M * sizeS ε t dws ts) * sizeY ybars ∧
        ‖cov (segScanVjp F θ t y dws ts ybars) - D‖ ≤
          Real.exp (2 * M * sizeS ε t dws ts) * (2 * K * c * sqS ε t dws ts)
  | [], [], [], t, y, _, _, _, _, _, _, _, _, _ => by
      refine ⟨0, ?_, ?_, ?_⟩
      · simpa [pairing, segScan] using hasFDerivAt_const (0 : ℝ) (y, θ)
      · simp [sizeY]
      · have : cov (0 : (Fin d → ℝ) × (Fin q → ℝ)) = 0 := by
          refine ContinuousLinearMap.ext fun v => ?_
          simp [cov_apply]
        simp [segScanVjp, sqS, this]
  | [], _ :: _, _, _, _, h, _, _, _, _, _, _, _, _ => absurd h (by simp)
  | _ :: _, [], _, _, _, h, _, _, _, _, _, _, _, _ => absurd h (by simp)
  | _, [], _ :: _, _, _, _, h, _, _, _, _, _, _, _ => absurd h (by simp)
  | _, _ :: _, [], _, _, _, h, _, _, _, _, _, _, _ => absurd h (by simp)
  | dw :: dws, t1 :: ts, yb :: ybs, t, y, h1, h2, h3, h4, ⟨h5, h5'⟩, h6, h7, h8, h9 => by
      have hS := H.smoothOn
      rw [List.isChain_cons_cons] at h4
      have hdw : dw ≠ [] := h3 dw (by simp)
      have h3' : ∀ l ∈ dws, l ≠ [] := fun l hl => h3 l (List.mem_cons_of_mem _ hl)
      obtain ⟨hh, hend⟩ := seg_times h4.1 hdw
      set h := (t1 - t) / (dw.length : ℝ) with hh'
      have hL := H.L_nonneg
      have hM0 : 0 ≤ M := le_trans (by positivity) hM
      have hs1 : 0 ≤ sizeU ε h dw := hS.sizeU_nonneg hh dw
      have hs2 : 0 ≤ sizeS ε t1 dws ts := H.sizeS_nonneg dws ts t1 h3' h4.2
      have hq1 := sqU_nonneg ε h dw
      have hq2 := sqS_nonneg ε dws ts t1
      have es : sizeS ε t (dw :: dws) (t1 :: ts) = sizeU ε h dw + sizeS ε t1 dws ts := rfl
      have eq : sqS ε t (dw :: dws) (t1 :: ts) = sqU ε h dw + sqS ε t1 dws ts := rfl
      have eY : sizeY (yb :: ybs) = ∑ i, |yb i| + sizeY ybs := by simp [sizeY]
      have hyb : 0 ≤ ∑ i, |yb i| := Finset.sum_nonneg fun i _ => abs_nonneg _
      have hY := sizeY_nonneg ybs
      have ex1 : Real.exp (M * (sizeU ε h dw + sizeS ε t1 dws ts)) =
          Real.exp (M * sizeU ε h dw) * Real.exp (M * sizeS ε t1 dws ts) := by
        rw [← Real.exp_add]; ring_nf
      have ex2 : Real.exp (2 * M * (sizeU ε h dw + sizeS ε t1 dws ts)) =
          Real.exp (2 * M * sizeU ε h dw) * Real.exp (2 * M * sizeS ε t1 dws ts) := by
        rw [← Real.exp_add]; ring_nf
      rw [es] at h6 h8 h9 ⊢
      rw [eq] at h9 ⊢
      rw [eY] at h8 ⊢
      rw [ex1] at h8 h9 ⊢
      rw [ex2]
      have hc0 : 0 ≤ c := by rw [hc]; positivity
      set U := Real.exp (M * sizeU ε h dw) with hU
      set V := Real.exp (M * sizeS ε t1 dws ts) with hV
      set U2 := Real.exp (2 * M * sizeU ε h dw) with hU2
      set V2 := Real.exp (2 * M * sizeS ε t1 dws ts) with hV2
      have hU1 : 1 ≤ U := Real.one_le_exp (by positivity)
      have hV1 : 1 ≤ V := Real.one_le_exp (by positivity)
      have hU21 : 1 ≤ U2 := Real.one_le_exp (by positivity)
      have hV21 : 1 ≤ V2 := Real.one_le_exp (by positivity)
      have hK0 : 0 ≤ K := le_trans (by positivity) h8
      have hVU : V * sizeY ybs ≤ U * V * (∑ i, |yb i| + sizeY ybs) := by
        calc V * sizeY ybs ≤ V * (∑ i, |yb i| + sizeY ybs) := mul_le_mul_of_nonneg_left (by linarith) (by positivity)
          _ ≤ U * (V * (∑ i, |yb i| + sizeY ybs)) := le_mul_of_one_le_left (by positivity) hU1
          _ = _ := by ring
      have hVq : V * (c * sqS ε t1 dws ts) ≤ U * V * (c * (sqU ε h dw + sqS ε t1 dws ts)) := by
        calc V * (c * sqS ε t1 dws ts) ≤ V * (c * (sqU ε h dw + sqS ε t1 dws ts)) := by
              gcongr; linarith
          _ ≤ U * (V * (c * (sqU ε h dw + sqS ε t1 dws ts))) := le_mul_of_one_le_left (by positivity) hU1
          _ = _ := by ring
      have hUq : U * (c * sqU ε h dw) ≤ U * V * (c * (sqU ε h dw + sqS ε t1 dws ts)) := by
        calc U * (c * sqU ε h dw) ≤ U * (c * (sqU ε h dw + sqS ε t1 dws ts)) := by
              gcongr; linarith
          _ ≤ V * (U * (c * (sqU ε h dw + sqS ε t1 dws ts))) := le_mul_of_one_le_left (by positivity) hV1
          _ = _ := by ring
      rw [fwdU_joint] at h5'
      obtain ⟨D, i1, i2, i3⟩ := Regular.segScan_near H θ hr hM hT0 hc dws ts ybs t1 (fwdU (F.f θ) h t y dw)
        (by simpa using h1) (by simpa using h2) h3' h4.2 h5' (by linarith)
        (fun l hl => h7 l (List.mem_cons_of_mem _ hl)) (hVU.trans h8) (by linarith)
      set g1 := segScanVjp F θ t1 (fwdU (F.f θ) h t y dw) dws ts ybs with hg1
      -- the functional at the end of the segment
      set lam := cov (yb, 0) + D with hlam
      have hlamn : ‖lam‖ ≤ V * (∑ i, |yb i| + sizeY ybs) := by
        have a1 : ‖lam‖ ≤ ∑ i, |yb i| + V * sizeY ybs := (norm_add_le _ _).trans (add_le_add (norm_cov_fst_le yb) i2)
        have a2 : ∑ i, |yb i| ≤ V * ∑ i, |yb i| := le_mul_of_one_le_left hyb hV1
        linarith
      have hwT : ∀ w ∈ dw, h + ε w ≤ T := by
        intro w hw
        have : h + ε w ≤ sizeU ε h dw := by
          refine List.single_le_sum ?_ _ (List.mem_map.mpr ⟨w, hw, rfl⟩)
          intro x hx
          obtain ⟨w', _, rfl⟩ := List.mem_map.mp hx
          exact add_nonneg hh (H.ε_nonneg w')
        linarith
      have hlK : U * ‖lam‖ ≤ K := by
        refine le_trans ?_ h8
        calc U * ‖lam‖ ≤ U * (V * (∑ i, |yb i| + sizeY ybs)) := mul_le_mul_of_nonneg_left hlamn (by positivity)
          _ = _ := by ring
      have hnear := hS.backU_near (K := K) hr hh hM hT0 lam (cov (yb, 0) + cov g1) dw t (y, θ) h5 hwT (h7 dw (by simp)) hlK
        (by rw [← hc]; linarith)
      rw [← hc, ← hU, ← hU2, fwdU_joint] at hnear
      obtain ⟨n1, -, n3⟩ := hnear
      have hcov : cov (yb, 0) + cov g1 = cov (yb + g1.1, 0) + cov (0, g1.2) := by
        rw [← cov_add, ← cov_add]
        congr 1
        refine Prod.ext ?_ ?_ <;> simp
      have hback : (backU (joint F) (liftD A) (liftD B) h ((fwdU (F.f θ) h t y dw, θ), cov (yb, 0) + cov g1) t dw).2 =
          cov (segScanVjp F θ t y (dw :: dws) (t1 :: ts) (yb :: ybs)) := by
        rw [hcov, backU_args, H.revU_aug]
        simp only [segScanVjp]
        rw [sdeintSeg_fwdU _ _ h4.1, ← hh', ← hg1, sdeintSegVjp_revU F θ _ _ h4.1 hdw, ← hh', ← cov_add]
        congr 1
        refine Prod.ext ?_ ?_
        · simp
        · simp [add_comm]
      rw [hback] at n3
      refine ⟨pullU (joint F) (liftD A) (liftD B) h lam t (y, θ) dw, ?_, ?_, ?_⟩
      · have hG : HasFDerivAt (fun z : (Fin d → ℝ) × (Fin q → ℝ) =>
            yb ⬝ᵥ z.1 + pairing ybs (segScan (F.f z.2) t1 z.1 dws ts)) lam (fwdU (joint F) h t (y, θ) dw) := by
          rw [fwdU_joint]
          have a1 : HasFDerivAt (fun z : (Fin d → ℝ) × (Fin q → ℝ) => yb ⬝ᵥ z.1) (cov (yb, 0))
              (fwdU (F.f θ) h t y dw, θ) := by
            have : (fun z : (Fin d → ℝ) × (Fin q → ℝ) => yb ⬝ᵥ z.1) = cov (q := q) (yb, 0) := by
              funext z
              simp [cov_apply]
            rw [this]
            exact ContinuousLinearMap.hasFDerivAt _
          exact a1.add i1
        have := hS.pullU_deriv hr _ lam dw t (y, θ) h5 (fun w hw => by
          have := h7 dw (by simp) w hw
          have : 0 ≤ L * ε w := mul_nonneg hL (H.ε_nonneg w)
          linarith) hG
        refine this.congr_of_eventuallyEq (Filter.Eventually.of_forall ?_)
        rintro ⟨y', θ'⟩
        beta_reduce
        rw [fwdU_joint]
        simp only [pairing, segScan, List.zipWith_cons_cons, List.sum_cons]
        rw [sdeintSeg_fwdU _ _ h4.1, ← hh']
      · refine n1.trans ?_
        calc U * ‖lam‖ ≤ U * (V * (∑ i, |yb i| + sizeY ybs)) := mul_le_mul_of_nonneg_left hlamn (by positivity)
          _ = _ := by ring
      · set z' := backU (joint F) (liftD A) (liftD B) h ((fwdU (F.f θ) h t y dw, θ), cov (yb, 0) + cov g1) t dw
        have a0 : 0 ≤ K * ‖z'.1 - (y, θ)‖ := by positivity
        have a1 : cov (yb, 0) + cov g1 - lam = cov g1 - D := by rw [hlam]; abel
        rw [a1] at n3
        have a2 : 2 * K * c * sqU ε h dw ≤ V2 * (2 * K * c * sqU ε h dw) :=
          le_mul_of_one_le_left (by positivity) hV21
        calc _ ≤ U2 * (‖cov g1 - D‖ + 2 * K * c * sqU ε h dw) := by linarith
          _ ≤ U2 * (V2 * (2 * K * c * sqS ε t1 dws ts) + V2 * (2 * K * c * sqU ε h dw)) :=
              mul_le_mul_of_nonneg_left (add_le_add i3 a2) (by positivity)
          _ = _ := by ring


theorem sizeU_eq (ε : W → ℝ) (h : ℝ) (l : List W) : sizeU ε h l = l.length * h + (l.map ε).sum := by
  induction l with
  | nil => simp [sizeU]
  | cons w l ih =>
    simp only [sizeU, List.map_cons, List.sum_cons, List.length_cons] at ih ⊢
    rw [ih]
    push_cast
    ring

theorem sizeS_eq (ε : W → ℝ) : ∀ (dws : List (List W)) (ts : List ℝ) (t : ℝ), dws.length = ts.length →
    (∀ l ∈ dws, l ≠ []) → sizeS ε t dws ts = (ts.getLastD t - t) + ((dws.flatten).map ε).sum
  | [], [], t, _, _ => by simp [sizeS]
  | [], _ :: _, _, h, _ => absurd h (by simp)
  | _ :: _, [], _, h, _ => absurd h (by simp)
  | dw :: dws, t' :: ts, t, h, hne => by
      have ih := sizeS_eq ε dws ts t' (by simpa using h) (fun l hl => hne l (List.mem_cons_of_mem _ hl))
      have hn : (dw.length : ℝ) ≠ 0 := by
        have := List.length_pos_iff.mpr (hne dw (by simp))
        exact_mod_cast this.ne'
      simp only [sizeS, List.flatten_cons, List.map_append, List.sum_append]
      rw [ih, sizeU_eq, List.getLastD_cons]
      field_simp
      ring

theorem sqS_le (ε : W → ℝ) (hε : ∀ w, 0 ≤ ε w) {η : ℝ} : ∀ (dws : List (List W)) (ts : List ℝ) (t : ℝ),
    List.IsChain (fun t t' => t < t') (t :: ts) →
    (∀ l ∈ dws, l ≠ []) →
    (∀ i (h : i < ts.length) (h' : i < dws.length), ∀ w ∈ dws[i], (ts[i] - (t :: ts)[i]'(by simp; omega)) / dws[i].length + ε w ≤ η) →
    sqS ε t dws ts ≤ η * sizeS ε t dws ts
  | [], _, _, _, _, _ => by simp [sqS, sizeS]
  | _ :: _, [], _, _, _, _ => by simp [sqS, sizeS]
  | dw :: dws, t' :: ts, t, hc, hne, hη => by
      rw [List.isChain_cons_cons] at hc
      have ih := sqS_le ε hε dws ts t' hc.2 (fun l hl => hne l (List.mem_cons_of_mem _ hl)) (fun i h h' w hw => by
        have := hη (i + 1) (by simpa using h) (by simpa using h') w (by simpa using hw)
        simpa using this)
      have h0 := hη 0 (by simp) (by simp)
      simp only [List.getElem_cons_zero] at h0
      have hh := (seg_times hc.1 (hne dw (by simp))).1
      simp only [sqS, sizeS]
      rw [mul_add]
      refine add_le_add ?_ ih
      unfold sqU sizeU
      rw [← List.sum_map_mul_left]
      refine List.sum_le_sum fun w hw => ?_
      rw [pow_two]
      exact mul_le_mul_of_nonneg_right (h0 w hw) (add_nonneg hh (hε w))

theorem TubeU_univ {Z : Type*} [NormedAddCommGroup Z] [NormedSpace ℝ Z] (f : Z → ℝ → W → Z × Z) (r h : ℝ) :
    ∀ (l : List W) (t : ℝ) (z : Z), TubeU f Set.univ Set.univ r h t z l
  | [], _, _ => ⟨Set.subset_univ _, Set.mem_univ _⟩
  | _ :: l, _, _ => ⟨Set.subset_univ _, Set.mem_univ _, TubeU_univ f r h l _ _⟩

theorem StaysInside_univ (f : (Fin d → ℝ) × (Fin q → ℝ) → ℝ → W → ((Fin d → ℝ) × (Fin q → ℝ)) × ((Fin d → ℝ) × (Fin q → ℝ)))
    (r : ℝ) : ∀ (dws : List (List W)) (ts : List ℝ) (t : ℝ) (z : (Fin d → ℝ) × (Fin q → ℝ)),
      StaysInside f Set.univ Set.univ r t z dws ts
  | [], _, _, _ => by simp [StaysInside]
  | _ :: _, [], _, _ => by simp [StaysInside]
  | _ :: dws, _ :: ts, _, _ => ⟨TubeU_univ _ _ _ _ _ _, StaysInside_univ f r dws ts _ _⟩

end Verif.SDE
