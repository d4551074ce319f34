import Verif.Lemmas.Pushforward
import Verif.Props.C88_C91
import Verif.Lemmas.CubeClosed
import Verif.Props.C92
import Mathlib.Analysis.Calculus.FDeriv.Add

/-!
# C123: pushforward steps

With `num_pushforward_steps = k` the first `k` steps of a training rollout run with the current weights as constants. The value
of the loss does not change. The errors of the first `k` steps do not reach the weights, the later ones do so as errors of
a rollout from the state after `k` steps. The KL terms of all steps reach the weights.
-/

namespace Verif.Niles

open Verif.Core Verif.NS

variable {K : Type*} [Field K] [LinearOrder K] {low : Nodes1D K} {wave : K → K} {c : SolverConfig K} {sem : StokesSEM K 2}
  {Θ : Type*} {nets : Θ → ℕ → Closure K} {pen : K} {n k : ℕ} {batch : List (Example K)}

/-- The loss that is differentiated: in the first `k` steps the tokens are those of the weights `θ₀` and the KL terms those of
the weights `θ`, both at the flow of `θ₀`; afterwards everything depends on `θ`. -/
theorem C123_mixed (θ₀ θ : Θ) : trainLoss low wave c sem nets pen n k batch θ₀ θ =
    computeLoss low wave c sem (fun b i ts => if i < k then ((nets θ₀ b i ts).1, (nets θ b i ts).2) else nets θ b i ts) pen n batch := by
  unfold trainLoss
  refine computeLoss_congr_ex fun j hj => ?_
  unfold rollout
  split
  · rfl
  · have hex : exampleAt batch j = batch[j] := by
      unfold exampleAt
      rw [List.getD_eq_getElem _ _ hj]
    simp only
    rw [scanBody_mixed (net := nets θ₀ j) k n
      ⟨0, batch[j].u.take c.timeOrder, batch[j].p.take c.timeOrder, (batch[j].u.take c.timeOrder).map sem.C, 0, 0⟩ _
      (Or.inr ⟨⟨rfl, rfl, rfl, rfl⟩, fun r _ => by rw [Nat.zero_add, hex]; rfl⟩)]

/-- Stopping gradients changes no value. -/
theorem C123_value (θ : Θ) : trainLoss low wave c sem nets pen n k batch θ θ = computeLoss low wave c sem (nets θ) pen n batch := by
  rw [C123_mixed]
  congr 1
  funext b i ts
  split <;> rfl

/-- Without pushforward steps the loss itself is differentiated. -/
theorem C123_zero (θ₀ θ : Θ) : trainLoss low wave c sem nets pen n 0 batch θ₀ θ = computeLoss low wave c sem (nets θ) pen n batch := by
  rw [C123_mixed]
  congr 1

/-- A rollout that is differentiated: the first `k` states are those of the weights `θ₀`; the rest is the rollout with the
weights `θ` from the state after `k` steps. -/
theorem C123_rollout {net net' : Closure K} {ex : Example K} {preds targets : List (Vel K 2)} {kl kl' : K} (hk : k ≤ n)
    (h : rollout low wave c sem (fun i ts => if i < k then ((net i ts).1, (net' i ts).2) else net' i ts) n ex =
      .ok (preds, targets, kl, kl')) :
    ∃ s s', scanBody low wave c sem net k
        ⟨0, ex.u.take c.timeOrder, ex.p.take c.timeOrder, (ex.u.take c.timeOrder).map sem.C, 0, 0⟩ = .ok (s, preds.take k) ∧
      scanBody low wave c sem net' (n - k) s = .ok (s', preds.drop k) := by
  unfold rollout at h
  split at h
  · cases h
  simp only at h
  obtain ⟨m, rfl⟩ : ∃ m, n = k + m := ⟨n - k, by omega⟩
  rw [scanBody_split] at h
  rcases scanBody_same (low := low) (wave := wave) (c := c) (sem := sem) (net := net)
    (net' := fun i ts => if i < k then ((net i ts).1, (net' i ts).2) else net' i ts) k
    ⟨0, ex.u.take c.timeOrder, ex.p.take c.timeOrder, (ex.u.take c.timeOrder).map sem.C, 0, 0⟩ _ ⟨rfl, rfl, rfl, rfl⟩
    (fun i ts _ hi => by beta_reduce; rw [if_pos (by simpa using hi)]) with ⟨e, h1, h2⟩ | ⟨s, t, us, h1, h2, h3, h4, h5⟩
  · rw [h2] at h; cases h
  · rw [h2] at h
    simp only at h
    rcases scanBody_same (low := low) (wave := wave) (c := c) (sem := sem) (net := net')
      (net' := fun i ts => if i < k then ((net i ts).1, (net' i ts).2) else net' i ts) m s t h3
      (fun i ts hi _ => by beta_reduce; rw [if_neg (by simp only at h4; omega)]) with ⟨e, g1, g2⟩ | ⟨s', t', us', g1, g2, _⟩
    · rw [g2] at h; cases h
    · rw [g2] at h
      simp only at h
      split at h
      · cases h
      · simp only [Except.ok.injEq, Prod.mk.injEq] at h
        obtain ⟨rfl, -⟩ := h
        refine ⟨s, s', ?_, ?_⟩
        · rw [h1, List.take_left' h5]
        · rw [Nat.add_sub_cancel_left, g1, List.drop_left' h5]

/-- The first states and the targets of a rollout that is differentiated. -/
theorem mixed_prefix {net net' : Closure K} {ex : Example K} {preds targets : List (Vel K 2)} {kl kl' : K} {m : ℕ} (hm : m ≤ n)
    (hk : m ≤ k) (h : rollout low wave c sem (fun i ts => if i < k then ((net i ts).1, (net' i ts).2) else net' i ts) n ex =
      .ok (preds, targets, kl, kl')) :
    (∃ s, scanBody low wave c sem net m
        ⟨0, ex.u.take c.timeOrder, ex.p.take c.timeOrder, (ex.u.take c.timeOrder).map sem.C, 0, 0⟩ = .ok (s, preds.take m)) ∧
      targets = (ex.u.drop c.timeOrder).take n := by
  unfold rollout at h
  split at h
  · cases h
  simp only at h
  obtain ⟨r, rfl⟩ : ∃ r, n = m + r := ⟨n - m, by omega⟩
  rw [scanBody_split] at h
  rcases scanBody_same (low := low) (wave := wave) (c := c) (sem := sem) (net := net)
    (net' := fun i ts => if i < k then ((net i ts).1, (net' i ts).2) else net' i ts) m
    ⟨0, ex.u.take c.timeOrder, ex.p.take c.timeOrder, (ex.u.take c.timeOrder).map sem.C, 0, 0⟩ _ ⟨rfl, rfl, rfl, rfl⟩
    (fun i ts _ hi => by beta_reduce; rw [if_pos (by simp only [Nat.zero_add] at hi; omega)])
    with ⟨e, h1, h2⟩ | ⟨s, t, us, h1, h2, h3, h4, h5⟩
  · rw [h2] at h; cases h
  · rw [h2] at h
    simp only at h
    cases hq : scanBody low wave c sem (fun i ts => if i < k then ((net i ts).1, (net' i ts).2) else net' i ts) r t with
    | error e => rw [hq] at h; cases h
    | ok q =>
      rw [hq] at h
      simp only at h
      split at h
      · cases h
      · simp only [Except.ok.injEq, Prod.mk.injEq] at h
        obtain ⟨rfl, rfl, -⟩ := h
        exact ⟨⟨s, by rw [h1, List.take_left' h5]⟩, rfl⟩

/-- The parts of a loss. -/
theorem computeLoss_parts {nets : ℕ → Closure K} {L : K} {mse : List K} (h : computeLoss low wave c sem nets pen n batch = .ok (L, mse)) :
    ∃ rs, rollouts low wave c sem nets n 0 batch = .ok rs ∧
      mse = (List.range n).map (fun i => meanOf (rs.map fun r => frameLoss sem (r.1.getD i 0) (r.2.1.getD i 0))) ∧
      L = mse.sum + pen * (meanOf (rs.map (·.2.2.1)) + meanOf (rs.map (·.2.2.2))) := by
  unfold computeLoss at h
  split at h
  · cases h
  · cases hr : rollouts low wave c sem nets n 0 batch with
    | error e => rw [hr] at h; cases h
    | ok rs =>
      rw [hr] at h
      simp only [Except.ok.injEq, Prod.mk.injEq] at h
      exact ⟨rs, rfl, h.2.symm, by rw [← h.1, ← h.2]⟩

/-- The errors of the first `k` steps are the same for all weights. -/
theorem C123_frozen {θ₀ θ θ' : Θ} {L L' : K} {mse mse' : List K}
    (h : trainLoss low wave c sem nets pen n k batch θ₀ θ = .ok (L, mse))
    (h' : trainLoss low wave c sem nets pen n k batch θ₀ θ' = .ok (L', mse')) : mse.take k = mse'.take k := by
  rw [C123_mixed] at h h'
  obtain ⟨rs, hr, hm, -⟩ := computeLoss_parts h
  obtain ⟨rs', hr', hm', -⟩ := computeLoss_parts h'
  obtain ⟨hl, hs⟩ := rollouts_spec n 0 batch rs hr
  obtain ⟨hl', hs'⟩ := rollouts_spec n 0 batch rs' hr'
  rw [hm, hm', ← List.map_take, ← List.map_take]
  refine List.map_congr_left fun i hi => ?_
  rw [List.take_range, List.mem_range] at hi
  refine congrArg meanOf (List.ext_getElem (by simp [hl, hl']) fun j h1 h2 => ?_)
  rw [List.length_map] at h1 h2
  rw [List.getElem_map, List.getElem_map]
  have e1 := hs j (by omega) h1
  have e2 := hs' j (by omega) h2
  obtain ⟨⟨s1, p1⟩, t1⟩ := mixed_prefix (m := min k n) (net := nets θ₀ (0 + j)) (net' := nets θ (0 + j)) (min_le_right _ _)
    (min_le_left _ _) (preds := rs[j].1) (targets := rs[j].2.1) (kl := rs[j].2.2.1) (kl' := rs[j].2.2.2) e1
  obtain ⟨⟨s2, p2⟩, t2⟩ := mixed_prefix (m := min k n) (net := nets θ₀ (0 + j)) (net' := nets θ' (0 + j)) (min_le_right _ _)
    (min_le_left _ _) (preds := rs'[j].1) (targets := rs'[j].2.1) (kl := rs'[j].2.2.1) (kl' := rs'[j].2.2.2) e2
  rw [p1, Except.ok.injEq, Prod.mk.injEq] at p2
  rw [t1, t2]
  have : ∀ l : List (Vel K 2), l.getD i 0 = (l.take (min k n)).getD i 0 := fun l => by
    rw [List.getD_eq_getElem?_getD, List.getD_eq_getElem?_getD, List.getElem?_take_of_lt hi]
  rw [this rs[j].1, this rs'[j].1, p2.2]

/-- If no step is left, the errors do not depend on the weights at all: what is trained is the KL term. -/
theorem C123_all {θ₀ θ θ' : Θ} {L L' : K} {mse mse' : List K} (hk : n ≤ k)
    (h : trainLoss low wave c sem nets pen n k batch θ₀ θ = .ok (L, mse))
    (h' : trainLoss low wave c sem nets pen n k batch θ₀ θ' = .ok (L', mse')) : mse = mse' := by
  have hf := C123_frozen h h'
  rw [C123_mixed] at h h'
  obtain ⟨rs, hr, hm, -⟩ := computeLoss_parts h
  obtain ⟨rs', hr', hm', -⟩ := computeLoss_parts h'
  rwa [List.take_of_length_le (by rw [hm]; simpa using hk), List.take_of_length_le (by rw [hm']; simpa using hk)] at hf

/-- The gradient of a training step: the errors of the first `k` steps contribute nothing. `rest` is the sum of the later errors
and of the KL term. -/
theorem C123_gradient {E : Type*} [NormedAddCommGroup E] [NormedSpace ℝ E] {low : Nodes1D ℝ} {wave : ℝ → ℝ} {c : SolverConfig ℝ}
    {sem : StokesSEM ℝ 2} {nets : E → ℕ → Closure ℝ} {pen : ℝ} {batch : List (Example ℝ)} {θ₀ : E} {L : E → ℝ}
    {mse : E → List ℝ} (h : ∀ θ, trainLoss low wave c sem nets pen n k batch θ₀ θ = .ok (L θ, mse θ)) (L' : E →L[ℝ] ℝ) :
    HasFDerivAt L L' θ₀ ↔ HasFDerivAt (fun θ => ((mse θ).drop k).sum + (L θ - (mse θ).sum)) L' θ₀ := by
  have : L = fun θ => (((mse θ).drop k).sum + (L θ - (mse θ).sum)) + ((mse θ₀).take k).sum := by
    funext θ
    rw [C123_frozen (h θ₀) (h θ)]
    have := List.sum_take_add_sum_drop (mse θ) k
    linarith
  constructor
  · intro hL
    have h2 := hL.sub_const ((mse θ₀).take k).sum
    have e : (fun θ => ((mse θ).drop k).sum + (L θ - (mse θ).sum)) = fun θ => L θ - ((mse θ₀).take k).sum := by
      funext θ
      have := congrFun this θ
      linarith
    rw [e]
    exact h2
  · intro hL
    rw [this]
    exact hL.add_const _

/-- The loss of a training step is defined for all weights, if the networks keep the shape and the windows are long enough. -/
theorem C123_total [IsStrictOrderedRing K] {vmesh pmesh : Mesh K 2} {quad overQuad : Quadrature1D K}
    {masks : List (String × (ℕ → Bool))} {bcs : List (String × BCType)}
    (S : StepSetup vmesh pmesh quad overQuad masks bcs sem low 0 true) (hT : 2 ≤ c.timeOrder) (hRe : 0 < c.reynolds)
    (hdt : 0 < c.dt) (halpha : c.alpha = 0) (hatol : c.atol = 0) (hc : SizesMatch c vmesh)
    (hnets : ∀ θ b, KeepsShape (nets θ b)) (hb : batch ≠ [])
    (hlen : ∀ ex ∈ batch, c.timeOrder + n ≤ ex.u.length ∧ c.timeOrder ≤ ex.p.length) (θ₀ θ : Θ) :
    ∃ L mse, trainLoss low wave c sem nets pen n k batch θ₀ θ = .ok (L, mse) := by
  rw [C123_mixed]
  refine C73_total S hT hRe hdt halpha hatol hc (fun b i M l ts h1 h2 => ?_) pen n batch hb hlen
  beta_reduce
  split
  · exact hnets θ₀ b i M l ts h1 h2
  · exact hnets θ b i M l ts h1 h2

/-- Eight steps of which seven are pushforward steps, on a periodic square, for a network with one weight: the hypothesis of
`C123_gradient` holds. -/
example : ∃ (cs : CubeStokes 2) (c : SolverConfig ℝ) (L : ℝ → ℝ) (mse : ℝ → List ℝ), cubeStokes 4 2 4 1 0 1 [0, 1] [] = .ok cs ∧
    ∀ θ : ℝ, trainLoss cs.low (fun x => x) c cs.sem (fun (θ : ℝ) _ _ ts => (ts.map fun t => t.map fun x => θ * x, θ ^ 2, θ)) (1 / 10) 8 7
      [⟨List.replicate 11 fun _ _ => 1, List.replicate 3 0⟩] 1 θ = .ok (L θ, mse θ) := by
  have hb : CubeBCs 2 [0, 1] [] := Or.inr rfl
  obtain ⟨cs, hcs⟩ := C92_create (over := 1) (n := 4) (d := 2) (p := 4) (a := 0) (b := 1) (by norm_num) (by norm_num)
    (by norm_num) (by norm_num) [0, 1] hb
  obtain ⟨vnode, pnode, l, h⟩ := cubeStokes_of (by norm_num) (by norm_num) (by norm_num) (by norm_num) hb hcs
  have S := h.stepSetup (by norm_num) (by norm_num) (by norm_num) hb 0 true (fun _ => Or.inr fun k => by fin_cases k <;> simp)
  have ht := fun θ : ℝ => C123_total (wave := fun x => x) (pen := 1 / 10) (n := 8) (k := 7)
    (batch := [⟨List.replicate 11 fun _ _ => 1, List.replicate 3 0⟩])
    (nets := fun (θ : ℝ) _ _ ts => (ts.map fun t => t.map fun x => θ * x, θ ^ 2, θ))
    (c := ⟨3, 20000, 1 / 1000, 0, 1 / 25, 0, cs.vmesh.numElements, cs.vmesh.nodesPerElem * 2, false⟩) S
    (by norm_num) (by norm_num) (by norm_num) rfl rfl ⟨rfl, rfl, by simp⟩ (fun θ b i M L ts h1 h2 =>
      ⟨by simp [h1], fun t ht => by obtain ⟨t', ht', rfl⟩ := List.mem_map.mp ht; simp [h2 t' ht']⟩)
    (by simp) (by intro ex hex; simp at hex; subst hex; simp) 1 θ
  choose L mse hL using ht
  exact ⟨cs, _, L, mse, hcs, hL⟩

end Verif.Niles
