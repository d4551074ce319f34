import Verif.Props.C47
import Verif.Model.LatentSDE
import Mathlib.Analysis.SpecialFunctions.Log.Basic

/-!
# C68: the KL terms of the latent SDE

`C68_path`: the KL term returned with a trajectory is the Riemann sum of the KL rate along the trajectory of the latent
state, is non-negative, and does not influence the trajectory. `C68_partial`: when every diffusion coefficient exceeds
`1e-8` the rate is `1/2 |(post - prior) / sigma|^2` and the term vanishes only if posterior and prior drift agree along
the path. `C68_violated`: with a smaller diffusion coefficient the term is zero whatever the drifts. `C68_initial`: the
KL divergence of the initial distributions.
-/

namespace Verif.SDE

set_option linter.unusedSectionVars false

variable {K : Type*} [Field K] [LinearOrder K] [IsStrictOrderedRing K] {n : ℕ}

theorem logqp_nonneg (N : Nets K n) (z : Fin n → K) (t : K) : 0 ≤ logqp N z t :=
  mul_nonneg (by norm_num) (Finset.sum_nonneg fun _ _ => sq_nonneg _)

/-- For all networks, initial states and Brownian increments. -/
theorem C68_path (N : Nets K n) (z0 : Fin n → K) (dw : List (Fin n → K)) (hdw : 0 < dw.length) :
    ∃ Z : ℕ → Fin n → K, Z 0 = z0 ∧
      (∀ (k : ℕ) (hk : k < dw.length) (i : Fin n),
        let t : K := k / dw.length
        Z (k + 1) i = Z k i + (1 / dw.length) * N.post (Z k) t i +
          (1 / 2) * (dw[k] i * N.sigma (Z k) i +
            dw[k] i * N.sigma (fun j => Z k j + dw[k] j * N.sigma (Z k) j) i)) ∧
      ∃ kl : K, samplePath (dynamics N) z0 dw = .ok (Z dw.length, kl) ∧ 0 ≤ kl ∧
        kl = ∑ k ∈ Finset.range dw.length, (1 / dw.length) * logqp N (Z k) (k / dw.length) := by
  obtain ⟨ys, h1, h2, h3⟩ := C47_segments (dynamics N) (z0, 0) 0 [1] dw dw.length hdw (by simp) (by simp)
  have hlen : ys.length = 1 := by simpa using h2
  obtain ⟨X, hX0, hX, hXn⟩ := (h3 0 (by simp)).1 (by simp)
  have hdt : ((1 : K) - 0) / dw.length = 1 / dw.length := by rw [sub_zero]
  have hX' : ∀ (k : ℕ) (hk : k < dw.length), X (k + 1) = X k + (1 / dw.length : K) • (dynamics N (X k) (k / dw.length) dw[k]).1 +
      (1 / 2 : K) • ((dynamics N (X k) (k / dw.length) dw[k]).2 +
        (dynamics N (X k + (dynamics N (X k) (k / dw.length) dw[k]).2) (k / dw.length + 1 / dw.length) dw[k]).2) := by
    intro k hk
    have := hX k hk
    simpa [div_eq_mul_inv] using this
  have hkl : ∀ k ≤ dw.length, (X k).2 = ∑ j ∈ Finset.range k, (1 / dw.length) * logqp N (X j).1 (j / dw.length) := by
    intro k
    induction k with
    | zero => intro _; rw [hX0]; simp
    | succ k ih =>
      intro hk
      rw [hX' k (by omega), Finset.sum_range_succ, ← ih (by omega)]
      simp [dynamics]
  refine ⟨fun k => (X k).1, by simp only [hX0]; rfl, ?_, (X dw.length).2, ?_, ?_, hkl _ le_rfl⟩
  · intro k hk i t
    have := congrArg (fun p : (Fin n → K) × K => p.1 i) (hX' k hk)
    simp only [dynamics, Prod.fst_add, Prod.smul_fst, Pi.add_apply, Pi.smul_apply, smul_eq_mul] at this
    exact this
  · unfold samplePath
    rw [h1]
    obtain ⟨y, rfl⟩ := List.length_eq_one_iff.1 hlen
    have : y = X dw.length := by simpa using hXn
    rw [this]
  · rw [hkl _ le_rfl]
    refine Finset.sum_nonneg fun k _ => mul_nonneg ?_ (logqp_nonneg _ _ _)
    positivity

/-- With diffusion coefficients above `1e-8` the rate is the squared, scaled difference of the drifts, and the KL term
vanishes only if the drifts agree along the whole path. -/
theorem C68_partial (N : Nets K n) (hσ : ∀ z i, (1 : K) / 10 ^ 8 < N.sigma z i) :
    (∀ z t, logqp N z t = (1 / 2) * ∑ i, ((N.post z t i - N.prior z t i) / N.sigma z i) ^ 2) ∧
    ∀ (z0 : Fin n → K) (dw : List (Fin n → K)), 0 < dw.length → ∀ z1 kl, samplePath (dynamics N) z0 dw = .ok (z1, kl) →
      (kl = 0 ↔ ∃ Z : ℕ → Fin n → K, Z 0 = z0 ∧
        (∀ (k : ℕ) (hk : k < dw.length) (i : Fin n),
          Z (k + 1) i = Z k i + (1 / dw.length) * N.post (Z k) (k / dw.length) i +
            (1 / 2) * (dw[k] i * N.sigma (Z k) i +
              dw[k] i * N.sigma (fun j => Z k j + dw[k] j * N.sigma (Z k) j) i)) ∧
        ∀ k < dw.length, N.post (Z k) (k / dw.length) = N.prior (Z k) (k / dw.length)) := by
  have hrate : ∀ z t, logqp N z t = (1 / 2) * ∑ i, ((N.post z t i - N.prior z t i) / N.sigma z i) ^ 2 := by
    intro z t
    unfold logqp divideNoNan
    congr 1
    refine Finset.sum_congr rfl fun i _ => ?_
    rw [if_neg]
    exact not_le.2 ((hσ z i).trans_le (le_abs_self _))
  have hpos : ∀ z i, 0 < N.sigma z i := fun z i => lt_trans (by positivity) (hσ z i)
  have hzero : ∀ z t, logqp N z t = 0 ↔ N.post z t = N.prior z t := by
    intro z t
    rw [hrate]
    constructor
    · intro h
      have h2 : ∑ i, ((N.post z t i - N.prior z t i) / N.sigma z i) ^ 2 = 0 := by
        rcases mul_eq_zero.1 h with h | h
        · norm_num at h
        · exact h
      rw [Finset.sum_eq_zero_iff_of_nonneg (fun _ _ => sq_nonneg _)] at h2
      funext i
      have := h2 i (Finset.mem_univ _)
      rw [sq_eq_zero_iff, div_eq_zero_iff] at this
      rcases this with h | h
      · exact sub_eq_zero.1 h
      · exact absurd h (hpos z i).ne'
    · intro h; simp [h]
  refine ⟨hrate, ?_⟩
  intro z0 dw hdw z1 kl hs
  obtain ⟨Z, hZ0, hZ, kl', hs', hkl0, hkl⟩ := C68_path N z0 dw hdw
  rw [hs'] at hs
  simp only [Except.ok.injEq, Prod.mk.injEq] at hs
  obtain ⟨-, rfl⟩ := hs
  have hl : (0 : K) < 1 / dw.length := by
    have : (0 : K) < dw.length := by exact_mod_cast hdw
    positivity
  have hiff : kl' = 0 ↔ ∀ k < dw.length, N.post (Z k) (k / dw.length) = N.prior (Z k) (k / dw.length) := by
    rw [hkl, Finset.sum_eq_zero_iff_of_nonneg (fun k _ => mul_nonneg hl.le (logqp_nonneg _ _ _))]
    constructor
    · intro h k hk
      have := h k (Finset.mem_range.2 hk)
      rcases mul_eq_zero.1 this with h | h
      · exact absurd h hl.ne'
      · exact (hzero _ _).1 h
    · intro h k hk
      rw [(hzero _ _).2 (h k (Finset.mem_range.1 hk)), mul_zero]
  rw [hiff]
  constructor
  · intro h
    exact ⟨Z, hZ0, hZ, h⟩
  · rintro ⟨Y, hY0, hY, hYe⟩
    have hYZ : ∀ k ≤ dw.length, Y k = Z k := by
      intro k
      induction k with
      | zero => intro _; rw [hY0, hZ0]
      | succ k ih =>
        intro hk
        funext i
        rw [hY k (by omega) i, hZ k (by omega) i, ih (by omega)]
    intro k hk
    rw [← hYZ k hk.le]
    exact hYe k hk

/-- C68 is false when the diffusion network returns `1e-8` or less: the KL term is zero whatever the drifts are. -/
theorem C68_violated (N : Nets K n) (hσ : ∀ z i, |N.sigma z i| ≤ 1 / 10 ^ 8) (z0 : Fin n → K) (dw : List (Fin n → K))
    (hdw : 0 < dw.length) : ∃ z1, samplePath (dynamics N) z0 dw = .ok (z1, 0) := by
  obtain ⟨Z, -, -, kl, hs, -, hkl⟩ := C68_path N z0 dw hdw
  have h0 : ∀ z t, logqp N z t = 0 := by
    intro z t
    unfold logqp divideNoNan
    rw [Finset.sum_eq_zero, mul_zero]
    intro i _
    rw [if_pos (hσ z i), sq, mul_zero]
  refine ⟨Z dw.length, ?_⟩
  rw [hs, hkl]
  simp [h0]

/-- `VariationalDriftDiffusion` ignores the Brownian path: all samples are equal. -/
theorem C68_no_noise (N : Nets K n) (z0 : Fin n → K) (dw dw' : List (Fin n → K)) (h : dw.length = dw'.length) :
    samplePath (variational N) z0 dw = samplePath (variational N) z0 dw' := by
  have hseg : ∀ (ts : K × K) (l l' : List (Fin n → K)) (s : K × ((Fin n → K) × K)) (dt : K), l.length = l'.length →
      l.foldl (stepFn (variational N) ts dt) s = l'.foldl (stepFn (variational N) ts dt) s := by
    intro ts l
    induction l with
    | nil => intro l' s dt hl; cases l' with
      | nil => rfl
      | cons => simp at hl
    | cons a l ih =>
      intro l' s dt hl
      cases l' with
      | nil => simp at hl
      | cons b l' =>
        rw [List.foldl_cons, List.foldl_cons]
        have hst : stepFn (variational N) ts dt s a = stepFn (variational N) ts dt s b := by
          unfold stepFn heun variational dynamics
          simp
        rw [hst]
        exact ih l' _ dt (by simpa using hl)
  rcases Nat.eq_zero_or_pos dw.length with h0 | h0
  · have h1 := List.length_eq_zero_iff.1 h0
    have h2 := List.length_eq_zero_iff.1 (h ▸ h0)
    rw [h1, h2]
  · have h0' : 0 < dw'.length := h ▸ h0
    unfold samplePath
    rw [sdeint_ok _ _ 0 [1] dw dw.length h0 (by simp) (by simp), sdeint_ok _ _ 0 [1] dw' dw'.length h0' (by simp) (by simp)]
    simp only [List.length_cons, List.length_nil, segments, segScan, sdeintSeg, List.take_length, Bool.false_eq_true,
      if_false]
    rw [hseg (0, 1) dw dw' _ _ h, h]

/-- The KL divergence of diagonal normal distributions is non-negative, and zero only for equal distributions; the
divergence of the initial state from the prior is half the squared length of the initial state in units of the scale. -/
theorem C68_initial :
    (∀ (mq sq mp sp : Fin n → ℝ), (∀ i, 0 < sq i) → (∀ i, 0 < sp i) →
      0 ≤ klDiag mq sq mp sp ∧ (klDiag mq sq mp sp = 0 ↔ mq = mp ∧ sq = sp)) ∧
    ∀ (z0 : Fin n → ℝ) (s : ℝ), 0 < s → klQ0 z0 s = (1 / 2) * ∑ i, (z0 i / s) ^ 2 := by
  constructor
  · intro mq sq mp sp hq hp
    have hterm : ∀ i, Real.log (sp i / sq i) + (sq i ^ 2 + (mq i - mp i) ^ 2) / (2 * sp i ^ 2) - 1 / 2 =
        (1 / 2) * ((sq i / sp i) ^ 2 - 1 - Real.log ((sq i / sp i) ^ 2)) + (mq i - mp i) ^ 2 / (2 * sp i ^ 2) := by
      intro i
      have h1 := (hq i).ne'
      have h2 := (hp i).ne'
      rw [Real.log_pow, Real.log_div h1 h2, Real.log_div h2 h1]
      push_cast
      field_simp
      ring
    have hx : ∀ i, 0 < (sq i / sp i) ^ 2 := fun i => by have := hq i; have := hp i; positivity
    have hA : ∀ i, 0 ≤ (1 / 2) * ((sq i / sp i) ^ 2 - 1 - Real.log ((sq i / sp i) ^ 2)) := fun i => by
      have := Real.log_le_sub_one_of_pos (hx i)
      linarith
    have hB : ∀ i, 0 ≤ (mq i - mp i) ^ 2 / (2 * sp i ^ 2) := fun i => by have := hp i; positivity
    have hkl : klDiag mq sq mp sp = ∑ i, ((1 / 2) * ((sq i / sp i) ^ 2 - 1 - Real.log ((sq i / sp i) ^ 2)) +
        (mq i - mp i) ^ 2 / (2 * sp i ^ 2)) := Finset.sum_congr rfl fun i _ => hterm i
    have hnn : ∀ i ∈ (Finset.univ : Finset (Fin n)), 0 ≤ (1 / 2) * ((sq i / sp i) ^ 2 - 1 - Real.log ((sq i / sp i) ^ 2)) +
        (mq i - mp i) ^ 2 / (2 * sp i ^ 2) := fun i _ => add_nonneg (hA i) (hB i)
    rw [hkl]
    refine ⟨Finset.sum_nonneg hnn, ?_⟩
    rw [Finset.sum_eq_zero_iff_of_nonneg hnn]
    constructor
    · intro h
      refine ⟨funext fun i => ?_, funext fun i => ?_⟩
      · have h1 := h i (Finset.mem_univ i)
        have h2 : (mq i - mp i) ^ 2 / (2 * sp i ^ 2) = 0 := by linarith [hA i, hB i]
        rw [div_eq_zero_iff] at h2
        rcases h2 with h2 | h2
        · exact sub_eq_zero.1 (by simpa using h2)
        · have := hp i; exact absurd h2 (by positivity)
      · have h1 := h i (Finset.mem_univ i)
        have h2 : (sq i / sp i) ^ 2 - 1 - Real.log ((sq i / sp i) ^ 2) = 0 := by linarith [hA i, hB i]
        by_contra hne
        have hne1 : (sq i / sp i) ^ 2 ≠ 1 := by
          intro h3
          have h4 : sq i / sp i = 1 := by
            have h5 : 0 < sq i / sp i := div_pos (hq i) (hp i)
            nlinarith
          exact hne ((div_eq_one_iff_eq (hp i).ne').1 h4)
        have := Real.log_lt_sub_one_of_pos (hx i) hne1
        linarith
    · rintro ⟨rfl, rfl⟩ i -
      have h1 := (hq i).ne'
      simp [h1]
  · intro z0 s hs
    unfold klQ0 klDiag
    rw [Finset.mul_sum]
    refine Finset.sum_congr rfl fun i _ => ?_
    have h1 := hs.ne'
    rw [mul_one, div_self h1, Real.log_one]
    field_simp
    ring

/-- Witness: one step, drifts that differ, unit diffusion: the KL term is `1/2`. -/
example : ∃ z1, samplePath (dynamics (⟨fun _ _ _ => 1, fun _ _ _ => 0, fun _ _ => 1⟩ : Nets ℚ 1)) (fun _ => 0)
    [fun _ => 3] = .ok (z1, 1 / 2) := by
  obtain ⟨Z, -, -, kl, hs, -, hkl⟩ := C68_path (⟨fun _ _ _ => 1, fun _ _ _ => 0, fun _ _ => 1⟩ : Nets ℚ 1)
    (fun _ => 0) [fun _ => 3] (by simp)
  refine ⟨Z 1, ?_⟩
  rw [hs, hkl]
  norm_num [logqp, divideNoNan]

example : ∃ z1, samplePath (dynamics (⟨fun _ _ _ => 1, fun _ _ _ => 0, fun _ _ => 1 / 10 ^ 9⟩ : Nets ℚ 1)) (fun _ => 0)
    [fun _ => 3] = .ok (z1, 0) :=
  C68_violated _ (by intro z i; rw [abs_of_nonneg] <;> norm_num) _ _ (by simp)

end Verif.SDE
