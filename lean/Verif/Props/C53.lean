import Verif.Model.Schedules
import Mathlib.Topology.Order.Lattice
import Mathlib.Topology.Algebra.Order.LiminfLimsup
import Mathlib.Tactic.Linarith
import Mathlib.Tactic.Positivity
import Mathlib.Tactic.FieldSimp

/-!
# C53: learning rate and KL schedules

For positive numbers of steps and a base rate `>= 0`: `C53_learning_rate` (0 at step 0, between 0 and the base rate at
every step, increasing up to the join, where it is the base rate, decreasing afterwards, 0 at the end of training and
later, continuous), `C53_kl` (between 0 and the penalty, monotone, 0 up to the boundary, the full penalty from the end of
the transition, continuous), `C53_updown`. `C53_rejects`: when the call fails.
-/

namespace Verif.Niles

theorem linear_eq {a b T c : ℝ} (hT : 0 < T) :
    linearSchedule a b T c = a + (b - a) * (max 0 (min c T) / T) := by
  unfold linearSchedule
  rw [if_neg (not_le.mpr hT)]
  ring

theorem clip_mem {T c : ℝ} (hT : 0 < T) : 0 ≤ max 0 (min c T) / T ∧ max 0 (min c T) / T ≤ 1 := by
  constructor
  · positivity
  · rw [div_le_one hT]
    exact max_le hT.le (min_le_right _ _)

theorem clip_mono {T : ℝ} (hT : 0 < T) {c d : ℝ} (h : c ≤ d) : max 0 (min c T) / T ≤ max 0 (min d T) / T :=
  div_le_div_of_nonneg_right (max_le_max_left _ (min_le_min_right _ h)) hT.le

theorem linear_continuous {a b T : ℝ} (hT : 0 < T) : Continuous (linearSchedule a b T) := by
  have : linearSchedule a b T = fun c => a + (b - a) * (max 0 (min c T) / T) := by
    funext c; exact linear_eq hT
  rw [this]
  fun_prop

theorem cosine_continuous {a T : ℝ} : Continuous (cosineSchedule a T) := by
  unfold cosineSchedule
  fun_prop

theorem cosine_bounds {a T c : ℝ} (ha : 0 ≤ a) : 0 ≤ cosineSchedule a T c ∧ cosineSchedule a T c ≤ a := by
  unfold cosineSchedule
  have h1 := Real.neg_one_le_cos (Real.pi * min c T / T)
  have h2 := Real.cos_le_one (Real.pi * min c T / T)
  constructor
  · apply mul_nonneg ha
    linarith
  · have : 0.5 * (1 + Real.cos (Real.pi * min c T / T)) ≤ 1 := by linarith
    nlinarith

theorem cosine_zero {a T : ℝ} (hT : 0 < T) : cosineSchedule a T 0 = a := by
  unfold cosineSchedule
  rw [min_eq_left hT.le]
  simp
  ring

theorem cosine_end {a T c : ℝ} (hT : 0 < T) (hc : T ≤ c) : cosineSchedule a T c = 0 := by
  unfold cosineSchedule
  rw [min_eq_right hc, mul_div_assoc, div_self hT.ne', mul_one, Real.cos_pi]
  simp

theorem cosine_anti {a T c d : ℝ} (ha : 0 ≤ a) (hT : 0 < T) (hc : 0 ≤ c) (h : c ≤ d) :
    cosineSchedule a T d ≤ cosineSchedule a T c := by
  unfold cosineSchedule
  have hpi := Real.pi_pos
  have h1 : Real.pi * min c T / T ≤ Real.pi * min d T / T := by
    apply div_le_div_of_nonneg_right _ hT.le
    exact mul_le_mul_of_nonneg_left (min_le_min_right _ h) hpi.le
  have h0 : 0 ≤ Real.pi * min c T / T := by
    have : 0 ≤ min c T := le_min hc hT.le
    positivity
  have h2 : Real.pi * min d T / T ≤ Real.pi := by
    rw [div_le_iff₀ hT]
    exact mul_le_mul_of_nonneg_left (min_le_right _ _) hpi.le
  have := Real.cos_le_cos_of_nonneg_of_le_pi h0 h2 h1
  apply mul_le_mul_of_nonneg_left _ ha
  linarith

theorem join_continuous {f g : ℝ → ℝ} {b : ℝ} (hf : Continuous f) (hg : Continuous g) (h : f b = g 0) :
    Continuous (joinSchedules f g b) := by
  have : joinSchedules f g b = fun s => if b ≤ s then g (s - b) else f s := by
    funext s
    unfold joinSchedules
    by_cases hs : s < b
    · rw [if_pos hs, if_neg (not_le.mpr hs)]
    · rw [if_neg hs, if_pos (not_lt.mp hs)]
  rw [this]
  refine Continuous.if_le (by fun_prop) hf continuous_const continuous_id ?_
  intro x hx
  subst hx
  simpa using h.symm

/-- The learning rate. `T1`, `T2` are the numbers of warm-up and decay steps. -/
theorem C53_learning_rate (config : ScheduleConfig) (base spe : ℝ) (hb : 0 ≤ base) (hw : 0 < config.warmupEpochs)
    (hs : 0 < spe) :
    ∃ lr, learningRateFn config base spe = some lr ∧
      let T1 := config.warmupEpochs * spe
      let T2 := max (config.numEpochs - config.warmupEpochs) 1 * spe
      lr 0 = 0 ∧ lr T1 = base ∧ (∀ s, 0 ≤ lr s ∧ lr s ≤ base) ∧ (∀ s s', s ≤ s' → s' ≤ T1 → lr s ≤ lr s') ∧
        (∀ s s', T1 ≤ s → s ≤ s' → lr s' ≤ lr s) ∧ (∀ s, T1 + T2 ≤ s → lr s = 0) ∧ Continuous lr ∧
        (∀ s, 0 ≤ s → s ≤ T1 → lr s = base * (s / T1)) := by
  have hT2 : 0 < max (config.numEpochs - config.warmupEpochs) 1 * spe :=
    mul_pos (lt_of_lt_of_le one_pos (le_max_right _ _)) hs
  have hT1 : 0 < config.warmupEpochs * spe := mul_pos hw hs
  refine ⟨_, if_pos hT2, ?_⟩
  set T1 := config.warmupEpochs * spe with h1
  set T2 := max (config.numEpochs - config.warmupEpochs) 1 * spe with h2
  have hjoin : linearSchedule 0 base T1 T1 = base := by
    rw [linear_eq hT1, min_self, max_eq_right hT1.le, div_self hT1.ne']; ring
  have hlin : ∀ s, 0 ≤ s → s ≤ T1 → linearSchedule 0 base T1 s = base * (s / T1) := by
    intro s hs0 hs1
    rw [linear_eq hT1, min_eq_left hs1, max_eq_right hs0]; ring
  have hat : joinSchedules (linearSchedule 0 base T1) (cosineSchedule base T2) T1 T1 = base := by
    unfold joinSchedules
    rw [if_neg (lt_irrefl _), sub_self, cosine_zero hT2]
  have hlmono : ∀ s s', s ≤ s' → linearSchedule 0 base T1 s ≤ linearSchedule 0 base T1 s' := by
    intro s s' h
    rw [linear_eq hT1, linear_eq hT1]
    have := clip_mono hT1 h
    nlinarith
  refine ⟨?_, hat, ?_, ?_, ?_, ?_, ?_, ?_⟩
  · unfold joinSchedules
    rw [if_pos hT1, hlin 0 le_rfl hT1.le]
    simp
  · intro s
    unfold joinSchedules
    by_cases hlt : s < T1
    · rw [if_pos hlt, linear_eq hT1]
      have := clip_mem (c := s) hT1
      constructor <;> nlinarith
    · rw [if_neg hlt]
      exact cosine_bounds hb
  · intro s s' h h'
    rcases lt_or_eq_of_le h' with h3 | h3
    · unfold joinSchedules
      rw [if_pos h3, if_pos (lt_of_le_of_lt h h3)]
      exact hlmono s s' h
    · rw [h3, hat]
      unfold joinSchedules
      by_cases hlt : s < T1
      · rw [if_pos hlt]
        have := hlmono s T1 hlt.le
        rwa [hjoin] at this
      · rw [if_neg hlt]
        exact (cosine_bounds hb).2
  · intro s s' h h'
    unfold joinSchedules
    rw [if_neg (not_lt.mpr h), if_neg (not_lt.mpr (h.trans h'))]
    exact cosine_anti hb hT2 (by linarith) (by linarith)
  · intro s h
    unfold joinSchedules
    rw [if_neg (not_lt.mpr (by linarith))]
    exact cosine_end hT2 (by linarith)
  · exact join_continuous (linear_continuous hT1) cosine_continuous (by rw [hjoin, cosine_zero hT2])
  · intro s hs0 hs1
    rcases lt_or_eq_of_le hs1 with h3 | h3
    · unfold joinSchedules
      rw [if_pos h3, hlin s hs0 hs1]
    · rw [h3, hat, div_self hT1.ne', mul_one]

/-- `create_learning_rate_fn` fails exactly when the number of steps per epoch is not positive. -/
theorem C53_rejects (config : ScheduleConfig) (base spe : ℝ) : learningRateFn config base spe = none ↔ spe ≤ 0 := by
  have h1 : 0 < max (config.numEpochs - config.warmupEpochs) 1 := lt_of_lt_of_le one_pos (le_max_right _ _)
  unfold learningRateFn
  simp only
  constructor
  · intro h
    by_contra hs
    rw [if_pos (mul_pos h1 (not_le.mp hs))] at h
    cases h
  · intro h
    rw [if_neg (not_lt.mpr (mul_nonpos_of_nonneg_of_nonpos h1.le h))]

/-- The KL schedule. -/
theorem C53_kl (config : ScheduleConfig) (spe : ℝ) (hk : 0 ≤ config.klPenalty) (ht : 0 < config.klTransitionEpochs)
    (hs : 0 < spe) :
    let kl := klPenaltyFn config spe
    let T0 := config.klZeroEpochs * spe
    let T1 := config.klTransitionEpochs * spe
    (∀ s, 0 ≤ kl s ∧ kl s ≤ config.klPenalty) ∧ (∀ s s', s ≤ s' → kl s ≤ kl s') ∧ (∀ s, s ≤ T0 → kl s = 0) ∧
      (∀ s, T0 + T1 ≤ s → kl s = config.klPenalty) ∧ Continuous kl := by
  intro kl T0 T1
  have hT1 : 0 < T1 := mul_pos ht hs
  have h0 : linearSchedule 0 config.klPenalty T1 0 = 0 := by
    rw [linear_eq hT1, min_eq_left hT1.le]; simp
  have hb : ∀ s, 0 ≤ linearSchedule 0 config.klPenalty T1 s ∧ linearSchedule 0 config.klPenalty T1 s ≤ config.klPenalty := by
    intro s
    rw [linear_eq hT1]
    have := clip_mem (c := s) hT1
    constructor <;> nlinarith
  have hm : ∀ s s', s ≤ s' → linearSchedule 0 config.klPenalty T1 s ≤ linearSchedule 0 config.klPenalty T1 s' := by
    intro s s' h
    rw [linear_eq hT1, linear_eq hT1]
    have := clip_mono hT1 h
    nlinarith
  have hkl : ∀ s, kl s = if s < T0 then 0 else linearSchedule 0 config.klPenalty T1 (s - T0) := fun s => rfl
  refine ⟨?_, ?_, ?_, ?_, ?_⟩
  · intro s
    rw [hkl]
    split
    · exact ⟨le_rfl, hk⟩
    · exact hb _
  · intro s s' h
    rw [hkl, hkl]
    by_cases h1 : s < T0
    · rw [if_pos h1]
      split
      · exact le_rfl
      · exact (hb _).1
    · rw [if_neg h1, if_neg (by linarith)]
      exact hm _ _ (by linarith)
  · intro s h
    rw [hkl]
    rcases lt_or_eq_of_le h with h1 | h1
    · rw [if_pos h1]
    · rw [if_neg (by linarith), h1, sub_self, h0]
  · intro s h
    rw [hkl, if_neg (by linarith), linear_eq hT1, min_eq_right (by linarith), max_eq_right hT1.le, div_self hT1.ne']
    ring
  · exact join_continuous continuous_const (linear_continuous hT1) h0.symm

/-- Without a transition the KL term is never switched on. -/
theorem C53_kl_no_transition (config : ScheduleConfig) (spe : ℝ) (ht : config.klTransitionEpochs * spe ≤ 0) (s : ℝ) :
    klPenaltyFn config spe s = 0 := by
  unfold klPenaltyFn joinSchedules linearSchedule
  rw [if_pos ht]
  split <;> rfl

/-- The up-and-down schedule. -/
theorem C53_updown (config : ScheduleConfig) (base spe : ℝ) (hb : 0 ≤ base) (hw : 0 < config.warmupEpochs)
    (hs : 0 < spe) :
    let lr := updownLearningRateFn config base spe
    let T := config.warmupEpochs * spe
    lr 0 = 0 ∧ lr T = base ∧ (∀ s, 0 ≤ lr s ∧ lr s ≤ base) ∧ (∀ s, 2 * T ≤ s → lr s = 0) ∧ Continuous lr := by
  intro lr T
  have hT : 0 < T := mul_pos hw hs
  have hlr : ∀ s, lr s = if s < T then linearSchedule 0 base T s else linearSchedule base 0 T (s - T) := fun s => rfl
  have h0 : linearSchedule base 0 T 0 = base := by
    rw [linear_eq hT, min_eq_left hT.le]; simp
  have h1 : linearSchedule 0 base T T = base := by
    rw [linear_eq hT, min_self, max_eq_right hT.le, div_self hT.ne']; ring
  refine ⟨?_, ?_, ?_, ?_, ?_⟩
  · rw [hlr, if_pos hT, linear_eq hT, min_eq_left hT.le]; simp
  · rw [hlr, if_neg (lt_irrefl _), sub_self, h0]
  · intro s
    rw [hlr]
    split
    · rw [linear_eq hT]
      have := clip_mem (c := s) hT
      constructor <;> nlinarith
    · rw [linear_eq hT]
      have := clip_mem (c := s - T) hT
      constructor <;> nlinarith
  · intro s h
    rw [hlr, if_neg (by linarith), linear_eq hT, min_eq_right (by linarith), max_eq_right hT.le, div_self hT.ne']
    ring
  · exact join_continuous (linear_continuous hT) (linear_continuous hT) (by rw [h0, h1])

/-- The configuration file (config/niles.py 87-96) with 1198 steps per epoch meets the hypotheses. -/
example : ∃ lr, learningRateFn ⟨15, 1, 0.01, 10, 0⟩ 0.00375 1198 = some lr ∧ lr 0 = 0 := by
  obtain ⟨lr, h, h0, _⟩ := C53_learning_rate ⟨15, 1, 0.01, 10, 0⟩ 0.00375 1198 (by norm_num) (by norm_num) (by norm_num)
  exact ⟨lr, h, h0⟩

end Verif.Niles
