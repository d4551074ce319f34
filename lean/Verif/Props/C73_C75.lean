import Verif.Props.C72

/-!
# C73-C75: the loss, the element permutation and the nodal closure term

`C73_loss`: `mse[i]` is the mean over the batch of half the squared distance between prediction `i` and frame `K + i` of
the same example, and the loss is their sum plus the weighted mean KL terms. `C73_zero`: `mse` vanishes exactly when all
predictions are the targets. `C73_nonneg`: the loss is at least the sum of `mse`. `C73_short`: a window
with fewer than `K + n` frames is rejected, `C73_total`: all others are accepted.

`C74_permutation`: a network that acts on each token separately gives the same closure term with and without
`permute_elements`.

`C75_violated`: "ungathering" (scatter) does not undo the gather: with the identity network the closure term at a node
that several element corners share is a multiple of the velocity. `C75_partial`: it is the velocity times the number of
corners at the node, so at nodes of one corner it is the velocity.
-/

set_option linter.unusedSectionVars false

namespace Verif.Niles

open Verif.Core Verif.NS Verif.Linalg

variable {K : Type*} [Field K] [LinearOrder K]

variable {sem : StokesSEM K 2} {low : Nodes1D K} {wave : K → K} {c : SolverConfig K} {nets : ℕ → Closure K}

section loss

theorem rollouts_spec (n : ℕ) : ∀ (b : ℕ) (batch : List (Example K)) (rs : List (List (Vel K 2) × List (Vel K 2) × K × K)),
    rollouts low wave c sem nets n b batch = .ok rs →
    rs.length = batch.length ∧ ∀ (j : ℕ) (h : j < batch.length) (h' : j < rs.length),
      rollout low wave c sem (nets (b + j)) n batch[j] = .ok rs[j]
  | b, [], rs, h => by
      simp only [rollouts, Except.ok.injEq] at h
      subst h
      simp
  | b, ex :: exs, rs, h => by
      rw [rollouts] at h
      cases h1 : rollout low wave c sem (nets b) n ex with
      | error e => rw [h1] at h; cases h
      | ok r =>
        rw [h1] at h
        simp only at h
        cases h2 : rollouts low wave c sem nets n (b + 1) exs with
        | error e => rw [h2] at h; cases h
        | ok rs' =>
          rw [h2] at h
          simp only [Except.ok.injEq] at h
          subst h
          obtain ⟨h3, h4⟩ := rollouts_spec n (b + 1) exs rs' h2
          refine ⟨by simp [h3], fun j hj hj' => ?_⟩
          cases j with
          | zero => simpa using h1
          | succ j =>
            have := h4 j (by simpa using hj) (by simpa using hj')
            rw [show b + 1 + j = b + (j + 1) by omega] at this
            simpa using this

/-- The shape of the loss. -/
theorem C73_loss (hT : 1 ≤ c.timeOrder) {pen : K} {n : ℕ} {batch : List (Example K)} {loss : K} {mse : List K}
    (h : computeLoss low wave c sem nets pen n batch = .ok (loss, mse)) :
    ∃ (preds : Fin batch.length → List (Vel K 2)) (kl0 klp : Fin batch.length → K),
      0 < batch.length ∧ mse.length = n ∧
      (∀ b : Fin batch.length, ∃ targets, rollout low wave c sem (nets b) n batch[b] = .ok (preds b, targets, kl0 b, klp b)) ∧
      (∀ i (hi : i < mse.length), mse[i] = (∑ b : Fin batch.length, ∑ p ∈ Finset.range sem.numV, ∑ k,
        (1 / 2) * ((preds b).getD i 0 p k - batch[b].u.getD (c.timeOrder + i) 0 p k) ^ 2) / batch.length) ∧
      loss = mse.sum + pen * ((∑ b, kl0 b) / batch.length + (∑ b, klp b) / batch.length) := by
  unfold computeLoss at h
  split at h
  · cases h
  · rename_i hne
    cases hr : rollouts low wave c sem nets n 0 batch with
    | error e => rw [hr] at h; cases h
    | ok rs =>
      rw [hr] at h
      simp only [Except.ok.injEq, Prod.mk.injEq] at h
      obtain ⟨rfl, rfl⟩ := h
      obtain ⟨hl, hall⟩ := rollouts_spec n 0 batch rs hr
      have hsum : ∀ g : (List (Vel K 2) × List (Vel K 2) × K × K) → K,
          (rs.map g).sum = ∑ b : Fin batch.length, g (rs[b.1]'(by rw [hl]; exact b.2)) := by
        intro g
        have : rs.map g = List.ofFn (fun b : Fin batch.length => g (rs[b.1]'(by rw [hl]; exact b.2))) := by
          apply List.ext_getElem (by simp [hl])
          intro i h1 h2
          simp
        rw [this, List.sum_ofFn]
      refine ⟨fun b => (rs[b.1]'(by rw [hl]; exact b.2)).1, fun b => (rs[b.1]'(by rw [hl]; exact b.2)).2.2.1,
        fun b => (rs[b.1]'(by rw [hl]; exact b.2)).2.2.2, ?_, by simp, ?_, ?_, ?_⟩
      · cases batch with
        | nil => exact absurd rfl hne
        | cons _ _ => simp
      · intro b
        refine ⟨(rs[b.1]'(by rw [hl]; exact b.2)).2.1, ?_⟩
        have := hall b.1 b.2 (by rw [hl]; exact b.2)
        rw [Nat.zero_add] at this
        exact this
      · intro i hi
        simp only [List.getElem_map, List.getElem_range, meanOf, List.length_map, hl]
        rw [hsum]
        congr 1
        refine Finset.sum_congr rfl fun b _ => ?_
        unfold frameLoss
        have := hall b.1 b.2 (by rw [hl]; exact b.2)
        have ht := (C72_window hT this).2.2.1 i (by simpa using hi)
        have : (rs[b.1]'(by rw [hl]; exact b.2)).2.1.getD i 0 = batch[b].u.getD (c.timeOrder + i) 0 := by
          rw [List.getD_eq_getElem?_getD, List.getD_eq_getElem?_getD]
          exact congrArg (fun o => o.getD 0) ht
        rw [this]
      · simp only [meanOf, List.length_map, hl, hsum]

/-- The mean squared error of every step is zero exactly when every prediction is its target. -/
theorem C73_zero [IsStrictOrderedRing K] (hT : 1 ≤ c.timeOrder) {pen : K} {n : ℕ} {batch : List (Example K)} {loss : K}
    {mse : List K} (h : computeLoss low wave c sem nets pen n batch = .ok (loss, mse)) :
    (∀ x ∈ mse, 0 ≤ x) ∧
    ((∀ x ∈ mse, x = 0) ↔ ∀ (b : ℕ) (hb : b < batch.length) (preds targets : List (Vel K 2)) (q : K × K),
      rollout low wave c sem (nets b) n batch[b] = .ok (preds, targets, q) → ∀ i < n, ∀ p < sem.numV,
        preds.getD i 0 p = batch[b].u.getD (c.timeOrder + i) 0 p) := by
  obtain ⟨preds, kl0, klp, hB, hn, hro, hmse, _⟩ := C73_loss hT h
  have hBpos : (0 : K) < batch.length := by exact_mod_cast hB
  have hnn : ∀ i (b : Fin batch.length), ∀ p ∈ Finset.range sem.numV, 0 ≤ ∑ k, (1 / 2) * ((preds b).getD i 0 p k - batch[b].u.getD (c.timeOrder + i) 0 p k) ^ 2 :=
    fun i b p _ => Finset.sum_nonneg fun k _ => by positivity
  have hnn' : ∀ i, ∀ b ∈ (Finset.univ : Finset (Fin batch.length)), 0 ≤ ∑ p ∈ Finset.range sem.numV, ∑ k, (1 / 2) * ((preds b).getD i 0 p k - batch[b].u.getD (c.timeOrder + i) 0 p k) ^ 2 :=
    fun i b _ => Finset.sum_nonneg (hnn i b)
  constructor
  · intro x hx
    obtain ⟨i, hi, rfl⟩ := List.getElem_of_mem hx
    rw [hmse i hi]
    exact div_nonneg (Finset.sum_nonneg (hnn' i)) hBpos.le
  · constructor
    · intro h0 b hb preds' targets q hr i hi p hp
      obtain ⟨t, ht⟩ := hro ⟨b, hb⟩
      have heq := ht.symm.trans hr
      simp only [Except.ok.injEq, Prod.mk.injEq] at heq
      obtain ⟨rfl, _⟩ := heq
      have h1 := h0 _ (List.getElem_mem (show i < mse.length by omega))
      rw [hmse i (by omega), div_eq_zero_iff, or_iff_left hBpos.ne', Finset.sum_eq_zero_iff_of_nonneg (hnn' i)] at h1
      have h2 := h1 ⟨b, hb⟩ (Finset.mem_univ _)
      rw [Finset.sum_eq_zero_iff_of_nonneg (hnn i _)] at h2
      have h3 := h2 p (Finset.mem_range.mpr hp)
      rw [Finset.sum_eq_zero_iff_of_nonneg (fun k _ => by positivity)] at h3
      funext k
      have h4 := h3 k (Finset.mem_univ k)
      rcases mul_eq_zero.mp h4 with h5 | h5
      · norm_num at h5
      · exact sub_eq_zero.mp (pow_eq_zero_iff (by norm_num) |>.mp h5)
    · intro hz x hx
      obtain ⟨i, hi, rfl⟩ := List.getElem_of_mem hx
      rw [hmse i hi]
      rw [Finset.sum_eq_zero, zero_div]
      intro b _
      refine Finset.sum_eq_zero fun p hp => Finset.sum_eq_zero fun k _ => ?_
      obtain ⟨t, ht⟩ := hro b
      rw [hz b.1 b.2 _ _ _ ht i (by omega) p (Finset.mem_range.mp hp)]
      simp

/-- With nonnegative KL terms and weight the loss bounds the squared error. -/
theorem C73_nonneg [IsStrictOrderedRing K] (hT : 1 ≤ c.timeOrder) {pen : K} (hpen : 0 ≤ pen) {n : ℕ}
    {batch : List (Example K)} {loss : K} {mse : List K} (hkl : ∀ b i ts, 0 ≤ (nets b i ts).2.1 ∧ 0 ≤ (nets b i ts).2.2)
    (h : computeLoss low wave c sem nets pen n batch = .ok (loss, mse)) : 0 ≤ mse.sum ∧ mse.sum ≤ loss := by
  refine ⟨List.sum_nonneg (C73_zero hT h).1, ?_⟩
  obtain ⟨preds, kl0, klp, hB, hn, hro, hmse, rfl⟩ := C73_loss hT h
  have hBpos : (0 : K) < batch.length := by exact_mod_cast hB
  have hq : ∀ b, 0 ≤ kl0 b ∧ 0 ≤ klp b := by
    intro b
    obtain ⟨t, ht⟩ := hro b
    obtain ⟨_, _, _, P, fs, q0, qp, _, h1, h2, hall⟩ := C72_window hT ht
    have : ∀ i < n, 0 ≤ q0 i ∧ 0 ≤ qp i := by
      intro i hi
      have hc := (hall i hi).1
      unfold closureTerm at hc
      split at hc
      · cases hc
      · split at hc
        · cases hc
        · simp only at hc
          split at hc
          · cases hc
          · split at hc
            · cases hc
            · simp only [Except.ok.injEq, Prod.mk.injEq] at hc
              obtain ⟨_, rfl', rfl''⟩ := hc
              rw [← rfl', ← rfl'']
              exact hkl _ _ _
    rw [h1, h2]
    exact ⟨Finset.sum_nonneg fun i hi => (this i (Finset.mem_range.mp hi)).1,
      Finset.sum_nonneg fun i hi => (this i (Finset.mem_range.mp hi)).2⟩
  have e1 : 0 ≤ ∑ b, kl0 b := Finset.sum_nonneg fun b _ => (hq b).1
  have e2 : 0 ≤ ∑ b, klp b := Finset.sum_nonneg fun b _ => (hq b).2
  have := mul_nonneg hpen (add_nonneg (div_nonneg e1 hBpos.le) (div_nonneg e2 hBpos.le))
  linarith

/-- A window that does not contain all targets is rejected. -/
theorem C73_short {pen : K} {n : ℕ} {batch : List (Example K)} (ex : Example K) (hex : ex ∈ batch)
    (hs : ex.u.length < c.timeOrder + n) (r : K × List K) :
    computeLoss low wave c sem nets pen n batch ≠ .ok r := by
  intro h
  unfold computeLoss at h
  split at h
  · cases h
  · cases hr : rollouts low wave c sem nets n 0 batch with
    | error e => rw [hr] at h; cases h
    | ok rs =>
      obtain ⟨hl, hall⟩ := rollouts_spec n 0 batch rs hr
      obtain ⟨j, hj, rfl⟩ := List.getElem_of_mem hex
      have := hall j hj (by omega)
      unfold rollout at this
      split at this
      · cases this
      · simp only at this
        split at this
        · cases this
        · cases this

theorem rollouts_total {n : ℕ} : ∀ (batch : List (Example K)) (b : ℕ), (∀ i, ∀ ex ∈ batch, ∃ r, rollout low wave c sem (nets i) n ex = .ok r) →
    ∃ rs, rollouts low wave c sem nets n b batch = .ok rs
  | [], _, _ => ⟨[], rfl⟩
  | ex :: exs, b, h => by
      obtain ⟨r, hr⟩ := h b ex List.mem_cons_self
      obtain ⟨rs, hrs⟩ := rollouts_total exs (b + 1) fun i e he => h i e (List.mem_cons_of_mem _ he)
      exact ⟨r :: rs, by rw [rollouts]; simp only [hr, hrs]⟩

/-- The loss is defined for every batch whose windows have enough frames, whatever the networks that keep the shape. -/
theorem C73_total [IsStrictOrderedRing K] {vmesh pmesh : Mesh K 2} {quad overQuad : Quadrature1D K}
    {masks : List (String × (ℕ → Bool))} {bcs : List (String × BCType)}
    (S : StepSetup vmesh pmesh quad overQuad masks bcs sem low 0 true) (hT : 2 ≤ c.timeOrder) (hRe : 0 < c.reynolds)
    (hdt : 0 < c.dt) (halpha : c.alpha = 0) (hatol : c.atol = 0) (hc : SizesMatch c vmesh) (hnets : ∀ b, KeepsShape (nets b))
    (pen : K) (n : ℕ) (batch : List (Example K)) (hb : batch ≠ [])
    (hlen : ∀ ex ∈ batch, c.timeOrder + n ≤ ex.u.length ∧ c.timeOrder ≤ ex.p.length) :
    ∃ loss mse, computeLoss low wave c sem nets pen n batch = .ok (loss, mse) := by
  obtain ⟨k, hk⟩ : ∃ k, c.timeOrder = k + 1 := ⟨c.timeOrder - 1, by omega⟩
  obtain ⟨rs, hrs⟩ := rollouts_total (low := low) (wave := wave) (c := c) (sem := sem) (nets := nets) (n := n) batch 0
    fun i ex hex => by
      obtain ⟨_, _, preds, targets, kl0, klp, _, _, h, _⟩ := C72_rollout (wave := wave) S k hk (by omega) hRe hdt halpha hatol hc
        (hnets i) n ex (hlen ex hex).1 (hlen ex hex).2
      exact ⟨_, h⟩
  unfold computeLoss
  rw [if_neg (by simpa using hb)]
  simp only [hrs]
  exact ⟨_, _, rfl⟩

/-- The configuration of the examples: one element of order two, a third order scheme. -/
def exConfig : SolverConfig ℚ := ⟨3, 20000, 1 / 1000, 0, 1 / 25, 0, exVMesh.numElements, exVMesh.nodesPerElem * 2, false⟩

/-- A network that takes a multiple of its input and reports a KL term. -/
def exNet (b : ℕ) : Closure ℚ := fun i ts => (ts.map fun t => t.map fun x => x / 2, b, i)

theorem exNet_keeps (b : ℕ) : KeepsShape (exNet b) := by
  intro i M L ts h1 h2
  refine ⟨by simp [exNet, h1], fun t ht => ?_⟩
  obtain ⟨t', ht', rfl⟩ := List.mem_map.mp ht
  simp [h2 t' ht']

/-- The loss of the enclosed element of C42 is defined for every batch with long enough windows. -/
theorem exLoss : ∃ sem : StokesSEM ℚ 2, ∀ (wave : ℚ → ℚ) (pen : ℚ) (n : ℕ) (nets : ℕ → Closure ℚ), (∀ b, KeepsShape (nets b)) →
    ∀ batch : List (Example ℚ), batch ≠ [] → (∀ ex ∈ batch, 3 + n ≤ ex.u.length ∧ 3 ≤ ex.p.length) →
      ∃ loss mse, computeLoss exLow wave exConfig sem nets pen n batch = .ok (loss, mse) := by
  obtain ⟨sem, S⟩ := exStep_enclosed
  refine ⟨sem, fun wave pen n nets hn batch hb hlen => ?_⟩
  exact C73_total (c := exConfig) ⟨S.setup, S.filter, Or.inl rfl, S.pressure⟩ (by decide) (by norm_num [exConfig]) (by norm_num [exConfig]) rfl rfl
    ⟨rfl, rfl, by simp [exConfig]⟩ hn pen n batch hb hlen

/-- The hypotheses of C73 hold for two examples of five frames and two steps. -/
example : ∃ (sem : StokesSEM ℚ 2) (loss : ℚ) (mse : List ℚ), 1 ≤ exConfig.timeOrder ∧
    computeLoss exLow (fun x => x) exConfig sem exNet (1 / 10) 2
      [⟨List.replicate 5 exForce, List.replicate 5 fun j => j⟩, ⟨List.replicate 5 0, List.replicate 5 0⟩] = .ok (loss, mse) := by
  obtain ⟨sem, h⟩ := exLoss
  obtain ⟨loss, mse, h⟩ := h (fun x => x) (1 / 10) 2 exNet exNet_keeps
    [⟨List.replicate 5 exForce, List.replicate 5 fun j => j⟩, ⟨List.replicate 5 0, List.replicate 5 0⟩] (by simp)
    (by intro ex hex; simp at hex; rcases hex with rfl | rfl <;> simp)
  exact ⟨sem, loss, mse, by decide, h⟩

end loss

section perm

/-- The element permutation does not change the closure term of a network that acts on each token separately. -/
theorem C74_permutation (mesh : Mesh K 2) (hm : mesh.numElements = 144) (g : ℕ → List K → List K) (q : ℕ → K × K)
    (i : ℕ) (u : Vel K 2) :
    closureTerm { c with permuteElements := true } mesh (fun i ts => (ts.map (g i), q i)) i u =
      closureTerm { c with permuteElements := false } mesh (fun i ts => (ts.map (g i), q i)) i u := by
  obtain ⟨h1, h2⟩ := tokens_shape mesh u
  obtain ⟨y, hy, hy'⟩ := C52_inverse C52_default (tokens mesh u) (by rw [h1, hm]) (g i)
  have hp : elementPerm.Perm (List.range 144) := C52_perm C52_default
  have hlen : y.length = mesh.numElements := by
    obtain ⟨y', e1, e2, _⟩ := takeIdx_some (tokens mesh u) elementPerm (fun j hj => by
      rw [h1, hm]; exact List.mem_range.mp (hp.subset hj))
    have : takeIdx (tokens mesh u) elementPerm = some y := hy
    rw [this, Option.some.injEq] at e1
    rw [e1, e2, hp.length_eq, hm]
    simp
  have hshape := takeIdx_shape hy h2
  unfold closureTerm permuteIf
  have hy1 : takeIdx (tokens mesh u) elementPerm = some y := hy
  have hy2 : takeIdx (y.map (g i)) (argsort elementPerm) = some ((tokens mesh u).map (g i)) := hy'
  simp only [hy1, if_true, hy2, Bool.false_eq_true, if_false]
  by_cases hc : mesh.numElements = c.numElements ∧ (mesh.nodesPerElem * 2 = c.numChannels ∨ mesh.numElements = 0)
  · obtain ⟨hc1, hc2⟩ := hc
    rcases hc2 with hc2 | hc2
    · rw [if_neg, if_neg]
      · push Not; exact ⟨by rw [h1, hc1], fun t ht => by rw [h2 t ht, hc2]⟩
      · push Not; exact ⟨by rw [hlen, hc1], fun t ht => by rw [hshape t ht, hc2]⟩
    · omega
  · have : ∀ ts : List (List K), ts.length = mesh.numElements → (∀ t ∈ ts, t.length = mesh.nodesPerElem * 2) →
        (ts.length ≠ c.numElements ∨ ∃ t ∈ ts, t.length ≠ c.numChannels) := by
      intro ts e1 e2
      by_contra hcon
      push Not at hcon
      apply hc
      refine ⟨by rw [← e1, hcon.1], Or.inl ?_⟩
      have hpos : 0 < ts.length := by omega
      rw [← e2 ts[0] (List.getElem_mem hpos), hcon.2 ts[0] (List.getElem_mem hpos)]
    rw [if_pos (this _ hlen hshape), if_pos (this _ h1 h2)]

end perm

section ungather

/-- The identity network. -/
def idNet : Closure K := fun _ ts => (ts, 0, 0)

theorem untokens_tokens (mesh : Mesh K 2) (u : Vel K 2) :
    ∃ fl, untokens mesh (tokens mesh u) = .ok fl ∧ ∀ m < mesh.numElements, ∀ n < mesh.nodesPerElem, ∀ k,
      fl m n k = vGather mesh u m n k := by
  unfold untokens
  rw [if_pos (tokens_shape mesh u)]
  refine ⟨_, rfl, fun m hm n hn k => ?_⟩
  unfold tokens
  rw [List.getD_eq_getElem (List.map _ _) [] (by simpa using hm), List.getElem_map, List.getElem_range]
  have key : ∀ (N : ℕ), n < N → ((List.range N).flatMap fun n => (List.finRange 2).map fun k => vGather mesh u m n k).getD
      (n * 2 + k) 0 = vGather mesh u m n k := by
    intro N hN
    induction N with
    | zero => omega
    | succ N ih =>
      rw [List.range_succ, List.flatMap_append]
      have hl : ((List.range N).flatMap fun n => (List.finRange 2).map fun k => vGather mesh u m n k).length = N * 2 := by
        simp [List.length_flatMap]
      have hk := k.2
      rcases Nat.lt_succ_iff_lt_or_eq.mp hN with h | h
      · rw [List.getD_eq_getElem?_getD, List.getElem?_append_left (by omega), ← List.getD_eq_getElem?_getD]
        exact ih h
      · subst h
        rw [List.getD_eq_getElem?_getD, List.getElem?_append_right (by omega), hl, Nat.add_sub_cancel_left]
        fin_cases k <;> simp [List.finRange]
  exact key _ hn

/-- With the identity network the closure term is the velocity times the number of element corners at the node. -/
theorem C75_partial (mesh : Mesh K 2) (hr : mesh.InRange) (hc : SizesMatch c mesh) (hperm : c.permuteElements = false)
    (i : ℕ) (u : Vel K 2) :
    ∃ f, closureTerm c mesh idNet i u = .ok (f, 0, 0) ∧ ∀ p < mesh.numNodes,
      f p = fun k => (((Finset.range mesh.numElements ×ˢ Finset.range mesh.nodesPerElem).filter
        (fun x => mesh.elements x.1 x.2 = (p : ℤ))).card : K) * u p k := by
  obtain ⟨fl, hfl, hval⟩ := untokens_tokens mesh u
  obtain ⟨h1, h2⟩ := tokens_shape mesh u
  refine ⟨vScatter mesh fl, ?_, ?_⟩
  · unfold closureTerm permuteIf
    rw [hperm]
    simp only [Bool.false_eq_true, if_false, idNet]
    rw [if_neg]
    · simp only [hfl]
    · rw [hc.elements, hc.channels]; push Not; exact ⟨h1, h2⟩
  · intro p hp
    funext k
    unfold vScatter
    rw [Mesh.scatter_apply, Finset.card_filter, Nat.cast_sum, Finset.sum_product, Finset.sum_mul]
    refine Finset.sum_congr rfl fun m hm => ?_
    rw [Finset.sum_mul]
    refine Finset.sum_congr rfl fun n hn => ?_
    rw [Finset.mem_range] at hm hn
    rw [hval m hm n hn k]
    rcases hr m hm n hn with he | ⟨h0, h1⟩
    · rw [he]
      simp [maskOf, sentinel]
    · obtain ⟨a, ha⟩ := Int.eq_ofNat_of_zero_le h0
      rw [ha] at h1
      have ha' : a < mesh.numNodes := by exact_mod_cast h1
      unfold vGather
      rw [Mesh.gather_apply _ _ _ _ hn, ha, writePos_nat ha', if_pos (show ((a : ℤ) ≠ -1) by omega), readPos_nat ha', maskOf_nat]
      by_cases hap : a = p
      · subst hap; simp
      · have h2 : ¬ ((a : ℤ) = p) := by exact_mod_cast hap
        have h3 : ¬ (some a = some p) := by simpa using hap
        rw [if_neg h3, if_neg h2]; simp

/-- Two quadratic elements that share an edge, nodes 6, 7 and 8. -/
def exTwo : Mesh ℚ 2 where
  numNodes := 15
  numElements := 2
  grid := exVGrid
  coords := fun p => ![(p / 3 : ℕ), (p % 3 : ℕ)]
  elements := fun m n => (6 * m + n : ℕ)
  nodeIndices := fun p => p

theorem exTwo_range : exTwo.InRange := by
  intro m hm n hn
  right
  have hm' : m < 2 := hm
  have hn' : n < 9 := hn
  change (0 : ℤ) ≤ ((6 * m + n : ℕ) : ℤ) ∧ ((6 * m + n : ℕ) : ℤ) < 15
  omega

/-- The claim that the closure term of the identity network is the velocity fails at a node of two elements. -/
theorem C75_violated : ∃ (c : SolverConfig ℚ) (u : Vel ℚ 2) (f : Vel ℚ 2), SizesMatch c exTwo ∧
    closureTerm c exTwo idNet 0 u = .ok (f, 0, 0) ∧ ∃ p < exTwo.numNodes, f p ≠ u p := by
  set c : SolverConfig ℚ := ⟨3, 20000, 1 / 1000, 0, 1 / 25, 0, exTwo.numElements, exTwo.nodesPerElem * 2, false⟩
  have hc : SizesMatch c exTwo := ⟨rfl, rfl, by simp [c]⟩
  obtain ⟨f, hf, hv⟩ := C75_partial (c := c) exTwo exTwo_range hc rfl 0 (fun _ _ => 1)
  refine ⟨c, fun _ _ => 1, f, hc, hf, 6, by decide, ?_⟩
  rw [hv 6 (by decide)]
  intro h
  have h1 := congrFun h 0
  have h2 : ((Finset.range exTwo.numElements ×ˢ Finset.range exTwo.nodesPerElem).filter
      (fun x => exTwo.elements x.1 x.2 = ((6 : ℕ) : ℤ))).card = 2 := by decide +kernel
  rw [h2] at h1
  norm_num at h1

/-- The mesh of C75 meets the hypotheses of `C75_partial`. -/
example : exTwo.InRange ∧ SizesMatch (⟨3, 20000, 1 / 1000, 0, 1 / 25, 0, 2, 18, false⟩ : SolverConfig ℚ) exTwo :=
  ⟨exTwo_range, rfl, rfl, by simp⟩

/-- A mesh with 144 elements, as `C74_permutation` asks for. -/
example : ∃ mesh : Mesh ℚ 2, mesh.InRange ∧ mesh.numElements = 144 ∧
    SizesMatch (⟨3, 20000, 1 / 1000, 0, 1 / 25, 0, 144, 18, true⟩ : SolverConfig ℚ) mesh := by
  refine ⟨⟨144 * 9, 144, exVGrid, fun p => ![(p : ℚ), 0], fun m n => (9 * m + n : ℕ), fun p => p⟩, ?_, rfl, rfl, rfl, fun _ => rfl⟩
  intro m hm n hn
  right
  have hm' : m < 144 := hm
  have hn' : n < 9 := hn
  change (0 : ℤ) ≤ ((9 * m + n : ℕ) : ℤ) ∧ ((9 * m + n : ℕ) : ℤ) < ((144 * 9 : ℕ) : ℤ)
  omega

end ungather

end Verif.Niles
