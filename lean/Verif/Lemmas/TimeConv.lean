import Verif.Lemmas.BDFStable
import Mathlib.Analysis.SpecialFunctions.Exp

/-!
# Convergence of a fractional step scheme from zero stability

Norms of the errors of velocity, tentative velocity and pressure gradient. The pressure is extrapolated linearly, so that the
tentative velocity differs from the velocity by a second difference of the pressure gradient times the time step.
-/

namespace Verif.NS

/-- Discrete Gronwall inequality with a sum on the right. -/
theorem gronwall_sum {A C : ℝ} (hC : 0 ≤ C) (x : ℕ → ℝ) (N : ℕ)
    (h : ∀ n ≤ N, x n ≤ A + C * ∑ j ∈ Finset.range n, x j) : x N ≤ A * (1 + C) ^ N := by
  have key : ∀ n ≤ N, A + C * ∑ j ∈ Finset.range n, x j ≤ A * (1 + C) ^ n := by
    intro n
    induction n with
    | zero => intro _; simp
    | succ n ih =>
      intro hn
      have h1 := ih (by omega)
      have h2 := h n (by omega)
      rw [Finset.sum_range_succ, pow_succ]
      nlinarith [mul_le_mul_of_nonneg_left (h2.trans h1) hC]
  exact (h N le_rfl).trans (key N le_rfl)

/-- The sums over a window of values are bounded by the sum of all of them. -/
theorem window_sum (y : ℕ → ℝ) (hy : ∀ i, 0 ≤ y i) (k N : ℕ) :
    ∑ j ∈ Finset.range (N + 1), ∑ i ∈ Finset.range k, y (j + i) ≤
      k * (∑ i ∈ Finset.range k, y i + ∑ j ∈ Finset.range (N + 1), y (j + k)) := by
  rw [Finset.sum_comm]
  have h1 : ∑ i ∈ Finset.range k, y i + ∑ j ∈ Finset.range (N + 1), y (j + k) = ∑ m ∈ Finset.range (k + (N + 1)), y m := by
    refine Eq.trans ?_ (Finset.sum_range_add y k (N + 1)).symm
    refine congrArg _ (Finset.sum_congr rfl fun j _ => ?_)
    rw [add_comm]
  rw [h1]
  have h2 : ∀ i ∈ Finset.range k, ∑ j ∈ Finset.range (N + 1), y (j + i) ≤ ∑ m ∈ Finset.range (k + (N + 1)), y m := by
    intro i hi
    have hi := Finset.mem_range.mp hi
    have : ∑ j ∈ Finset.range (N + 1), y (j + i) = ∑ m ∈ (Finset.range (N + 1)).map (addRightEmbedding i), y m := by
      rw [Finset.sum_map]
      rfl
    rw [this]
    refine Finset.sum_le_sum_of_subset_of_nonneg ?_ (fun m _ _ => hy m)
    intro m hm
    simp only [Finset.mem_map, Finset.mem_range, addRightEmbedding_apply] at hm ⊢
    obtain ⟨a, ha, rfl⟩ := hm
    omega
  refine (Finset.sum_le_sum h2).trans_eq ?_
  rw [Finset.sum_const, Finset.card_range, nsmul_eq_mul]

/-- Errors of the scheme: `e` of the velocities, `w` of the tentative velocities, `g` of the pressure gradients (with two
starting values), `θ` and `δ` of the truncation, up to step `N`. -/
structure StepErrors (V : Type) [NormedAddCommGroup V] [NormedSpace ℝ V] (ρ : List ℝ) (k : ℕ) (lam Lam b dt : ℝ) (N : ℕ)
    (eps Gam del the : ℝ) (e : ℕ → V) (w g θ : ℕ → ℝ) : Prop where
  w0 : ∀ j, 0 ≤ w j
  g0 : ∀ j, 0 ≤ g j
  θ0 : ∀ j, 0 ≤ θ j
  start : ∀ i < k, ‖e i‖ ≤ eps
  startg : g 0 ≤ Gam ∧ g 1 ≤ Gam
  step : ∀ j ≤ N, ‖∑ i ∈ Finset.range (k + 1), ρ.getD i 0 • e (j + i)‖ ≤ dt * (g (j + 2) + lam * w j + θ j)
  tent : ∀ j ≤ N, w j ≤ ‖e (j + k)‖ + dt / b * (g (j + 2) + 2 * g (j + 1) + g j + del)
  pres : ∀ j ≤ N, g (j + 2) ≤ lam * w j + θ j
  trunc : ∀ j ≤ N, θ j ≤ Lam * ∑ i ∈ Finset.range k, ‖e (j + i)‖ + the

theorem StepErrors.mono {V : Type} [NormedAddCommGroup V] [NormedSpace ℝ V] {ρ : List ℝ} {k : ℕ} {lam Lam b dt : ℝ}
    {N M : ℕ} {eps Gam del the : ℝ} {e : ℕ → V} {w g θ : ℕ → ℝ}
    (h : StepErrors V ρ k lam Lam b dt N eps Gam del the e w g θ) (hM : M ≤ N) :
    StepErrors V ρ k lam Lam b dt M eps Gam del the e w g θ :=
  ⟨h.w0, h.g0, h.θ0, h.start, h.startg, fun j hj => h.step j (hj.trans hM), fun j hj => h.tent j (hj.trans hM),
    fun j hj => h.pres j (hj.trans hM), fun j hj => h.trunc j (hj.trans hM)⟩

/-- One application of zero stability. -/
theorem step_ineq {ρ : List ℝ} {k : ℕ} {Z : ℝ} (hZ : 0 < Z)
    (hst : ∀ (V : Type) [NormedAddCommGroup V] [NormedSpace ℝ V] (e : ℕ → V) (N : ℕ),
      ‖e (N + k)‖ ≤ Z * (∑ i ∈ Finset.range k, ‖e i‖ +
        ∑ j ∈ Finset.range (N + 1), ‖∑ i ∈ Finset.range (k + 1), ρ.getD i 0 • e (j + i)‖))
    {V : Type} [NormedAddCommGroup V] [NormedSpace ℝ V] {lam Lam b dt : ℝ} {N : ℕ} {eps Gam del the : ℝ} {e : ℕ → V}
    {w g θ : ℕ → ℝ} (h : StepErrors V ρ k lam Lam b dt N eps Gam del the e w g θ) (hlam : 0 ≤ lam) (hLam : 0 ≤ Lam)
    (hb : 0 < b) (hdt : 0 < dt) (hq : dt / b * lam ≤ 1 / 16) :
    ‖e (N + k)‖ ≤ Z * (k * eps + dt * ((4 * lam + 4 * Lam * k) * ∑ j ∈ Finset.range (N + 1), ‖e (j + k)‖ +
      4 * Lam * k * (k * eps) + 4 * ((N + 1) * the) + 4 * lam * (dt / b) * (4 * Gam + (N + 1) * del))) := by
  obtain ⟨q, hqd⟩ : ∃ q, q = dt / b := ⟨_, rfl⟩
  rw [← hqd] at hq ⊢
  have hq0 : 0 ≤ q := by rw [hqd]; positivity
  obtain ⟨S, hS⟩ : ∃ S, S = ∑ i ∈ Finset.range k, ‖e i‖ := ⟨_, rfl⟩
  obtain ⟨X, hX⟩ : ∃ X, X = ∑ j ∈ Finset.range (N + 1), ‖e (j + k)‖ := ⟨_, rfl⟩
  obtain ⟨W, hW⟩ : ∃ W, W = ∑ j ∈ Finset.range (N + 1), w j := ⟨_, rfl⟩
  obtain ⟨G, hG⟩ : ∃ G, G = ∑ j ∈ Finset.range (N + 1), g (j + 2) := ⟨_, rfl⟩
  obtain ⟨H, hH⟩ : ∃ H, H = ∑ j ∈ Finset.range (N + 1), θ j := ⟨_, rfl⟩
  have hmem : ∀ {j}, j ∈ Finset.range (N + 1) → j ≤ N := fun hj => by have := Finset.mem_range.mp hj; omega
  have hX0 : 0 ≤ X := by rw [hX]; exact Finset.sum_nonneg fun _ _ => norm_nonneg _
  have hS0 : 0 ≤ S := by rw [hS]; exact Finset.sum_nonneg fun _ _ => norm_nonneg _
  have hW0 : 0 ≤ W := by rw [hW]; exact Finset.sum_nonneg fun _ _ => h.w0 _
  have hG0 : 0 ≤ G := by rw [hG]; exact Finset.sum_nonneg fun _ _ => h.g0 _
  have hH0 : 0 ≤ H := by rw [hH]; exact Finset.sum_nonneg fun _ _ => h.θ0 _
  have hS1 : S ≤ k * eps := by
    rw [hS]
    refine (Finset.sum_le_sum fun i hi => h.start i (Finset.mem_range.mp hi)).trans_eq ?_
    rw [Finset.sum_const, Finset.card_range, nsmul_eq_mul]
  -- the pressure gradients
  have hG1 : G ≤ lam * W + H := by
    rw [hG, hW, hH, Finset.mul_sum, ← Finset.sum_add_distrib]
    exact Finset.sum_le_sum fun j hj => h.pres j (hmem hj)
  have hg1 : ∑ j ∈ Finset.range (N + 1), g (j + 1) ≤ G + Gam := by
    have e1 : ∑ j ∈ Finset.range (N + 1), g (j + 1) + g (N + 2) = G + g 1 := by
      rw [hG, ← Finset.sum_range_succ (fun j => g (j + 1)), Finset.sum_range_succ' (fun j => g (j + 1))]
    have := h.g0 (N + 2)
    have := h.startg.2
    linarith
  have hg2 : ∑ j ∈ Finset.range (N + 1), g j ≤ G + 2 * Gam := by
    have e1 : ∑ j ∈ Finset.range (N + 1), g j + g (N + 1) = ∑ j ∈ Finset.range (N + 1), g (j + 1) + g 0 := by
      rw [← Finset.sum_range_succ (fun j => g j), Finset.sum_range_succ' (fun j => g j)]
    have := h.g0 (N + 1)
    have := h.startg.1
    linarith
  -- the tentative velocities
  have hW1 : W ≤ X + q * (4 * G + 4 * Gam + (N + 1) * del) := by
    have h1 : W ≤ ∑ j ∈ Finset.range (N + 1), (‖e (j + k)‖ + q * (g (j + 2) + 2 * g (j + 1) + g j + del)) := by
      rw [hW, hqd]
      exact Finset.sum_le_sum fun j hj => h.tent j (hmem hj)
    rw [Finset.sum_add_distrib, ← Finset.mul_sum, ← hX, Finset.sum_add_distrib, Finset.sum_add_distrib,
      Finset.sum_add_distrib, ← hG, ← Finset.mul_sum, Finset.sum_const, Finset.card_range, nsmul_eq_mul] at h1
    push_cast at h1
    refine h1.trans ?_
    have : q * (G + 2 * ∑ j ∈ Finset.range (N + 1), g (j + 1) + ∑ j ∈ Finset.range (N + 1), g j + (N + 1) * del) ≤
        q * (4 * G + 4 * Gam + (N + 1) * del) := mul_le_mul_of_nonneg_left (by linarith) hq0
    linarith
  have hqG : q * G ≤ 1 / 16 * W + q * H := by
    calc q * G ≤ q * (lam * W + H) := mul_le_mul_of_nonneg_left hG1 hq0
      _ = (q * lam) * W + q * H := by ring
      _ ≤ 1 / 16 * W + q * H := by gcongr
  have hW2 : W ≤ 2 * X + 8 * (q * H) + 2 * (q * (4 * Gam + (N + 1) * del)) := by
    have : 0 ≤ q * H := by positivity
    linarith
  have hlW : lam * W ≤ 2 * lam * X + H + 2 * lam * q * (4 * Gam + (N + 1) * del) := by
    have h1 : lam * W ≤ lam * (2 * X + 8 * (q * H) + 2 * (q * (4 * Gam + (N + 1) * del))) :=
      mul_le_mul_of_nonneg_left hW2 hlam
    have h2 : (q * lam) * H ≤ 1 / 16 * H := mul_le_mul_of_nonneg_right hq hH0
    linarith
  have hH1 : H ≤ Lam * (k * (S + X)) + (N + 1) * the := by
    have h1 : H ≤ ∑ j ∈ Finset.range (N + 1), (Lam * ∑ i ∈ Finset.range k, ‖e (j + i)‖ + the) := by
      rw [hH]
      exact Finset.sum_le_sum fun j hj => h.trunc j (hmem hj)
    rw [Finset.sum_add_distrib, ← Finset.mul_sum, Finset.sum_const, Finset.card_range, nsmul_eq_mul] at h1
    push_cast at h1
    have h2 := window_sum (fun i => ‖e i‖) (fun _ => norm_nonneg _) k N
    rw [← hS, ← hX] at h2
    have := mul_le_mul_of_nonneg_left h2 hLam
    linarith
  have hmain := hst V e N
  have hR : ∑ j ∈ Finset.range (N + 1), ‖∑ i ∈ Finset.range (k + 1), ρ.getD i 0 • e (j + i)‖ ≤ dt * (G + lam * W + H) := by
    refine (Finset.sum_le_sum fun j hj => h.step j (hmem hj)).trans_eq ?_
    rw [← Finset.mul_sum, Finset.sum_add_distrib, Finset.sum_add_distrib, ← Finset.mul_sum, hG, hW, hH]
  rw [← hS] at hmain
  refine hmain.trans (mul_le_mul_of_nonneg_left ?_ hZ.le)
  rw [← hX]
  have hk : Lam * (k * (S + X)) ≤ Lam * (k * (k * eps + X)) := by gcongr
  have hin : G + lam * W + H ≤ (4 * lam + 4 * Lam * k) * X + 4 * Lam * k * (k * eps) + 4 * ((N + 1) * the) +
      4 * lam * q * (4 * Gam + (N + 1) * del) := by linarith
  have := mul_le_mul_of_nonneg_left hin hdt.le
  linarith

set_option maxHeartbeats 2000000 in
/-- Zero stable schemes converge: the errors are bounded by those of the starting values and of the truncation. -/
theorem time_conv {ρ : List ℝ} {k : ℕ} (hst : Stable ρ k) {lam Lam b T : ℝ} (hlam : 0 ≤ lam) (hLam : 0 ≤ Lam) (hb : 0 < b)
    (hT : 0 ≤ T) :
    ∃ C dt0, 0 < C ∧ 0 < dt0 ∧ ∀ (V : Type) [NormedAddCommGroup V] [NormedSpace ℝ V] (dt : ℝ) (N : ℕ)
      (eps Gam del the : ℝ) (e : ℕ → V) (w g θ : ℕ → ℝ), 0 < dt → dt ≤ dt0 → N * dt ≤ T → 0 ≤ eps → 0 ≤ Gam → 0 ≤ del →
      0 ≤ the → StepErrors V ρ k lam Lam b dt N eps Gam del the e w g θ →
      ‖e (N + k)‖ ≤ C * (eps + dt ^ 2 * Gam + dt * del + the) ∧
      g (N + 2) ≤ C * (eps + dt * Gam + dt * del + the) := by
  obtain ⟨Z, hZ, hst⟩ := hst
  obtain ⟨c, hc⟩ : ∃ c, c = Z * (4 * lam + 4 * Lam * k) := ⟨_, rfl⟩
  have hc0 : 0 ≤ c := by rw [hc]; positivity
  obtain ⟨A0, hA0⟩ : ∃ A0, A0 = Z * (k + 4 * Lam * k * k + 4 * (T + 1) + 16 * lam / b + 4 * lam / b * (T + 1)) := ⟨_, rfl⟩
  have hA00 : 0 ≤ A0 := by rw [hA0]; positivity
  obtain ⟨C1, hC1⟩ : ∃ C1, C1 = 2 * A0 * Real.exp (2 * c * T) := ⟨_, rfl⟩
  have hC10 : 0 ≤ C1 := by rw [hC1]; positivity
  obtain ⟨dt0, hdt0⟩ : ∃ dt0, dt0 = min 1 (min (b / (16 * (lam + 1))) (1 / (2 * (c + 1)))) := ⟨_, rfl⟩
  have hd1 : dt0 ≤ 1 := by rw [hdt0]; exact min_le_left _ _
  have hd2 : dt0 ≤ b / (16 * (lam + 1)) := by rw [hdt0]; exact (min_le_right _ _).trans (min_le_left _ _)
  have hd3 : dt0 ≤ 1 / (2 * (c + 1)) := by rw [hdt0]; exact (min_le_right _ _).trans (min_le_right _ _)
  have hd0 : 0 < dt0 := by rw [hdt0]; positivity
  obtain ⟨C2, hC2⟩ : ∃ C2, C2 = 4 * lam * C1 + 4 * (Lam * (k * (C1 + 1)) + 1) + 4 * lam / b + 12 * lam / b := ⟨_, rfl⟩
  have hC20 : 0 ≤ C2 := by rw [hC2]; positivity
  refine ⟨C1 + C2 + 1, dt0, by positivity, hd0, ?_⟩
  intro V _ _ dt N eps Gam del the e w g θ hdt hdtle hNT heps hGam hdel hthe h
  have hdt1 : dt ≤ 1 := hdtle.trans hd1
  have hqlam : dt / b * lam ≤ 1 / 16 := by
    have h1 := hdtle.trans hd2
    rw [le_div_iff₀ (by positivity)] at h1
    rw [div_mul_eq_mul_div, div_le_iff₀ hb]
    nlinarith
  have hcdt : c * dt ≤ 1 / 2 := by
    have h1 := hdtle.trans hd3
    rw [le_div_iff₀ (by positivity)] at h1
    nlinarith
  obtain ⟨r, hr⟩ : ∃ r, r = eps + dt ^ 2 * Gam + dt * del + the := ⟨_, rfl⟩
  have hr0 : 0 ≤ r := by rw [hr]; positivity
  -- the velocities
  have hvel : ∀ M ≤ N, ‖e (M + k)‖ ≤ C1 * r := by
    intro M hM
    have hstep : ∀ n ≤ M, ‖e (n + k)‖ ≤ 2 * (A0 * r) + 2 * (c * dt) * ∑ j ∈ Finset.range n, ‖e (j + k)‖ := by
      intro n hn
      have h1 := step_ineq hZ hst (h.mono (hn.trans hM)) hlam hLam hb hdt hqlam
      have hn1 : ((n : ℝ) + 1) * dt ≤ T + 1 := by
        have : (n : ℝ) ≤ N := by exact_mod_cast hn.trans hM
        have : (n : ℝ) * dt ≤ N * dt := mul_le_mul_of_nonneg_right this hdt.le
        linarith
      obtain ⟨X, hX⟩ : ∃ X, X = ∑ j ∈ Finset.range n, ‖e (j + k)‖ := ⟨_, rfl⟩
      rw [Finset.sum_range_succ, ← hX] at h1
      rw [← hX]
      have hX0 : 0 ≤ X := by rw [hX]; exact Finset.sum_nonneg fun _ _ => norm_nonneg _
      have hbound : Z * (k * eps + dt * (4 * Lam * k * (k * eps) + 4 * ((n + 1) * the) +
          4 * lam * (dt / b) * (4 * Gam + (n + 1) * del))) ≤ A0 * r := by
        have t1 : dt * (4 * Lam * k * (k * eps)) ≤ 4 * Lam * k * k * eps := by
          have : 0 ≤ 4 * Lam * k * (k * eps) := by positivity
          nlinarith
        have t2 : dt * (4 * ((n + 1) * the)) ≤ 4 * (T + 1) * the := by
          have := mul_le_mul_of_nonneg_right hn1 hthe
          linarith
        have t3 : dt * (4 * lam * (dt / b) * (4 * Gam + (n + 1) * del)) ≤
            16 * lam / b * (dt ^ 2 * Gam) + 4 * lam / b * (T + 1) * (dt * del) := by
          have e1 : dt * (4 * lam * (dt / b) * (4 * Gam + (n + 1) * del)) =
              16 * lam / b * (dt ^ 2 * Gam) + 4 * lam / b * (((n + 1) * dt) * (dt * del)) := by
            field_simp
            ring
          rw [e1]
          have h2 := mul_le_mul_of_nonneg_right hn1 (show 0 ≤ dt * del by positivity)
          have h3 : 0 ≤ 4 * lam / b := by positivity
          have := mul_le_mul_of_nonneg_left h2 h3
          linarith
        rw [hA0, mul_assoc Z]
        refine mul_le_mul_of_nonneg_left ?_ hZ.le
        have i1 : eps ≤ r := by rw [hr]; linarith [show 0 ≤ dt ^ 2 * Gam by positivity, show 0 ≤ dt * del by positivity]
        have i2 : dt ^ 2 * Gam ≤ r := by rw [hr]; linarith [show 0 ≤ dt * del by positivity]
        have i3 : dt * del ≤ r := by rw [hr]; linarith [show 0 ≤ dt ^ 2 * Gam by positivity]
        have i4 : the ≤ r := by rw [hr]; linarith [show 0 ≤ dt ^ 2 * Gam by positivity, show 0 ≤ dt * del by positivity]
        have j1 : (k + 4 * Lam * k * k) * eps ≤ (k + 4 * Lam * k * k) * r := by gcongr
        have j2 : 16 * lam / b * (dt ^ 2 * Gam) ≤ 16 * lam / b * r := by gcongr
        have j3 : 4 * lam / b * (T + 1) * (dt * del) ≤ 4 * lam / b * (T + 1) * r := by gcongr
        have j4 : 4 * (T + 1) * the ≤ 4 * (T + 1) * r := by gcongr
        linarith
      have hx0 : 0 ≤ ‖e (n + k)‖ := norm_nonneg _
      have h5 : ‖e (n + k)‖ ≤ A0 * r + c * dt * (X + ‖e (n + k)‖) := by
        rw [hc]
        linarith
      have h6 : c * dt * ‖e (n + k)‖ ≤ 1 / 2 * ‖e (n + k)‖ := mul_le_mul_of_nonneg_right hcdt hx0
      linarith
    have hgr := gronwall_sum (A := 2 * (A0 * r)) (C := 2 * (c * dt)) (by positivity) (fun n => ‖e (n + k)‖) M hstep
    refine hgr.trans ?_
    have hexp : (1 + 2 * (c * dt)) ^ M ≤ Real.exp (2 * c * T) := by
      have h1 : 1 + 2 * (c * dt) ≤ Real.exp (2 * (c * dt)) := by
        have := Real.add_one_le_exp (2 * (c * dt))
        linarith
      calc (1 + 2 * (c * dt)) ^ M ≤ Real.exp (2 * (c * dt)) ^ M := pow_le_pow_left₀ (by positivity) h1 M
        _ = Real.exp (M * (2 * (c * dt))) := by rw [← Real.exp_nat_mul]
        _ ≤ Real.exp (2 * c * T) := by
          rw [Real.exp_le_exp]
          have : (M : ℝ) ≤ N := by exact_mod_cast hM
          have h2 : (M : ℝ) * dt ≤ T := (mul_le_mul_of_nonneg_right this hdt.le).trans hNT
          have := mul_le_mul_of_nonneg_left h2 (show 0 ≤ 2 * c by positivity)
          linarith
    rw [hC1]
    have := mul_le_mul_of_nonneg_left hexp (show 0 ≤ 2 * (A0 * r) by positivity)
    linarith
  obtain ⟨r', hr'⟩ : ∃ r', r' = eps + dt * Gam + dt * del + the := ⟨_, rfl⟩
  have hrr : r ≤ r' := by
    rw [hr, hr']
    have : dt ^ 2 * Gam ≤ dt * Gam := by nlinarith [mul_nonneg hdt.le hGam]
    linarith
  have hr'0 : 0 ≤ r' := hr0.trans hrr
  -- the pressure gradients
  have hpre : ∀ M ≤ N, g (M + 2) ≤ C2 * r' := by
    obtain ⟨P, hP⟩ : ∃ P, P = 2 * (2 * lam * (C1 * r) + 2 * (dt / b * lam) * del +
      2 * (Lam * (k * ((C1 + 1) * r)) + the)) + 12 * (dt / b * lam) * Gam := ⟨_, rfl⟩
    have hP0 : 0 ≤ P := by rw [hP]; positivity
    have hall : ∀ M, ∀ i ≤ M, i ≤ N + 2 → g i ≤ max P Gam ∧ (2 ≤ i → g i ≤ P) := by
      intro M
      induction M with
      | zero =>
        intro i hi _
        obtain rfl : i = 0 := by omega
        exact ⟨h.startg.1.trans (le_max_right _ _), by omega⟩
      | succ M ih =>
        intro i hi hiN
        rcases Nat.lt_or_ge i 2 with hi2 | hi2
        · refine ⟨?_, by omega⟩
          interval_cases i
          · exact h.startg.1.trans (le_max_right _ _)
          · exact h.startg.2.trans (le_max_right _ _)
        · obtain ⟨j, rfl⟩ : ∃ j, i = j + 2 := ⟨i - 2, by omega⟩
          suffices hs : g (j + 2) ≤ P from ⟨hs.trans (le_max_left _ _), fun _ => hs⟩
          have hj : j ≤ N := by omega
          have p1 := (ih (j + 1) (by omega) (by omega)).1
          have p2 := (ih j (by omega) (by omega)).1
          have h1 := h.pres j hj
          have h2 := h.tent j hj
          have h3 := h.trunc j hj
          have h4 := hvel j hj
          have hmax : max P Gam ≤ P + Gam := max_le (by linarith) (by linarith)
          have hs : ∑ i ∈ Finset.range k, ‖e (j + i)‖ ≤ k * ((C1 + 1) * r) := by
            have : ∀ i ∈ Finset.range k, ‖e (j + i)‖ ≤ (C1 + 1) * r := by
              intro i hi
              have hi := Finset.mem_range.mp hi
              rcases Nat.lt_or_ge (j + i) k with h5 | h5
              · have := h.start _ h5
                have : eps ≤ r := by
                  rw [hr]; linarith [show 0 ≤ dt ^ 2 * Gam by positivity, show 0 ≤ dt * del by positivity]
                linarith [mul_nonneg hC10 hr0]
              · obtain ⟨m, hm⟩ : ∃ m, j + i = m + k := ⟨j + i - k, by omega⟩
                rw [hm]
                have := hvel m (by omega)
                linarith
            refine (Finset.sum_le_sum this).trans_eq ?_
            rw [Finset.sum_const, Finset.card_range, nsmul_eq_mul]
          have h3' : θ j ≤ Lam * (k * ((C1 + 1) * r)) + the := h3.trans (by gcongr)
          have h5 : lam * w j ≤ lam * (C1 * r) + (dt / b * lam) * (g (j + 2) + 3 * (P + Gam) + del) := by
            have : lam * w j ≤ lam * (‖e (j + k)‖ + dt / b * (g (j + 2) + 2 * g (j + 1) + g j + del)) :=
              mul_le_mul_of_nonneg_left h2 hlam
            have h6 : lam * (‖e (j + k)‖ + dt / b * (g (j + 2) + 2 * g (j + 1) + g j + del)) ≤
                lam * (C1 * r + dt / b * (g (j + 2) + 3 * (P + Gam) + del)) := by
              refine mul_le_mul_of_nonneg_left (add_le_add h4 (mul_le_mul_of_nonneg_left ?_ (by positivity))) hlam
              linarith
            linarith
          obtain ⟨z, hz⟩ : ∃ z, z = dt / b * lam := ⟨_, rfl⟩
          rw [← hz] at h5 hqlam hP
          have hz0 : 0 ≤ z := by rw [hz]; positivity
          have hg0 := h.g0 (j + 2)
          have k1 : z * g (j + 2) ≤ 1 / 16 * g (j + 2) := mul_le_mul_of_nonneg_right hqlam hg0
          have k2 : z * P ≤ 1 / 16 * P := mul_le_mul_of_nonneg_right hqlam hP0
          have k3 : 0 ≤ z * Gam := by positivity
          have k4 : 0 ≤ z * del := by positivity
          have k5 : 0 ≤ lam * (C1 * r) := by positivity
          have k6 : 0 ≤ Lam * (k * ((C1 + 1) * r)) := by positivity
          linarith
    intro M hM
    refine ((hall (M + 2) (M + 2) le_rfl (by omega)).2 (by omega)).trans ?_
    have i1 : dt / b * lam * del = lam / b * (dt * del) := by ring
    have i2 : dt / b * lam * Gam = lam / b * (dt * Gam) := by ring
    have i3 : dt * del ≤ r' := by rw [hr']; linarith [show 0 ≤ dt * Gam by positivity]
    have i4 : dt * Gam ≤ r' := by rw [hr']; linarith [show 0 ≤ dt * del by positivity]
    have i5 : the ≤ r' := by rw [hr']; linarith [show 0 ≤ dt * Gam by positivity, show 0 ≤ dt * del by positivity]
    rw [hP, hC2]
    have j1 : lam / b * (dt * del) ≤ lam / b * r' := by gcongr
    have j2 : lam / b * (dt * Gam) ≤ lam / b * r' := by gcongr
    have j3 : lam * (C1 * r) ≤ lam * (C1 * r') := by gcongr
    have j4 : Lam * (k * ((C1 + 1) * r)) ≤ Lam * (k * ((C1 + 1) * r')) := by gcongr
    have e1 : 2 * (dt / b * lam) * del = 2 * (lam / b * (dt * del)) := by ring
    have e2 : 12 * (dt / b * lam) * Gam = 12 * (lam / b * (dt * Gam)) := by ring
    have e3 : 4 * lam / b = 4 * (lam / b) := by ring
    have e4 : 12 * lam / b = 12 * (lam / b) := by ring
    rw [e1, e2, e3, e4]
    linarith
  constructor
  · refine (hvel N le_rfl).trans ?_
    rw [← hr]
    exact mul_le_mul_of_nonneg_right (by linarith) hr0
  · refine (hpre N le_rfl).trans ?_
    rw [← hr']
    exact mul_le_mul_of_nonneg_right (by linarith) hr'0

end Verif.NS
