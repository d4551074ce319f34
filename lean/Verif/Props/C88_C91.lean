import Verif.Model.TrainStep
import Verif.Props.C73_C75
import Mathlib.Analysis.Calculus.FDeriv.Add
import Mathlib.Analysis.Calculus.FDeriv.Mul

/-!
# C88-C91: metrics, data parallel training, random keys and the call of the network in niles/train.py
-/

namespace Verif.Niles

open Verif.Core Verif.NS Verif.Comm

section Metrics

variable {K : Type*} [Field K]

/-- C88 as far as it holds: `mse@k` is the error of solver step `k` when there are at least `k` steps. Missing: shorter
evaluations. -/
theorem C88_partial (mse : List K) {k : ℕ} (hk : k ∈ [8, 16, 32, 64, 128]) (hn : k ≤ mse.length) :
    (evalMse mse).lookup ("mse@" ++ toString k) = some mse[k - 1]? ∧ k - 1 < mse.length := by
  have key : ∀ j : ℕ, 0 < j → j ≤ mse.length → clampGet mse (j - 1) = mse[j - 1]? ∧ j - 1 < mse.length := by
    intro j h0 hj
    unfold clampGet
    rw [Nat.min_eq_left (by omega)]
    exact ⟨rfl, by omega⟩
  fin_cases hk
  · exact (key 8 (by norm_num) hn).imp (congrArg some) id
  · exact (key 16 (by norm_num) hn).imp (congrArg some) id
  · exact (key 32 (by norm_num) hn).imp (congrArg some) id
  · exact (key 64 (by norm_num) hn).imp (congrArg some) id
  · exact (key 128 (by norm_num) hn).imp (congrArg some) id

theorem sum_take_getD (l : List K) (m : ℕ) (hm : m ≤ l.length) : (l.take m).sum = ∑ i ∈ Finset.range m, l.getD i 0 := by
  induction m with
  | zero => simp
  | succ m ih =>
    rw [List.take_add_one, List.sum_append, Finset.sum_range_succ, ih (by omega), List.getD_eq_getElem?_getD,
      List.getElem?_eq_getElem (by omega)]
    simp

/-- C88, the averages: `mse` is the mean over all solver steps and `mse@1to8` over the first eight, or over all when there
are fewer. -/
theorem C88_means [CharZero K] (mse : List K) (h0 : mse ≠ []) :
    ∃ m m8, (evalMse mse).lookup "mse" = some (some m) ∧ (mse.length : K) * m = ∑ i ∈ Finset.range mse.length, mse.getD i 0 ∧
      (evalMse mse).lookup "mse@1to8" = some (some m8) ∧
      ((min 8 mse.length : ℕ) : K) * m8 = ∑ i ∈ Finset.range (min 8 mse.length), mse.getD i 0 := by
  have hpos := List.length_pos_of_ne_nil h0
  refine ⟨_, _, rfl, ?_, rfl, ?_⟩
  · unfold meanOf
    rw [mul_div_cancel₀ _ (by exact_mod_cast hpos.ne')]
    rw [← sum_take_getD mse _ le_rfl, List.take_length]
  · unfold meanOf
    rw [List.length_take, mul_div_cancel₀ _ (by exact_mod_cast (by omega : min 8 mse.length ≠ 0)),
      ← sum_take_getD mse _ (Nat.min_le_right _ _)]
    congr 1
    rcases Nat.le_total 8 mse.length with h | h
    · rw [Nat.min_eq_left h]
    · rw [Nat.min_eq_right h, List.take_length, List.take_of_length_le h]

/-- C88 is false: with fewer than 128 solver steps `mse@128` is the error of the last step. -/
theorem C88_violated (mse : List K) (h0 : mse ≠ []) (hn : mse.length < 128) :
    (evalMse mse).lookup "mse@128" = some (some (mse.getLast h0)) := by
  have hpos := List.length_pos_of_ne_nil h0
  have : clampGet mse (128 - 1) = some (mse.getLast h0) := by
    unfold clampGet
    rw [Nat.min_eq_right (by omega), List.getElem?_eq_getElem (by omega), List.getLast_eq_getElem]
  exact congrArg some this

/-- C88, the names: all metrics of the configuration but one are written, that one never. -/
theorem C88_names : (∀ s ∈ configMetrics, s ≠ "eval_mse@1t08" → s ∈ writtenNames) ∧
    "eval_mse@1t08" ∈ configMetrics ∧ "eval_mse@1t08" ∉ writtenNames := by decide +kernel

/-- The default number of evaluation steps is 125. -/
example : (evalMse ((List.range 125).map fun i : ℕ => (i : ℚ))).lookup "mse@128" = some (some 124) := by
  have h := C88_violated ((List.range 125).map fun i : ℕ => (i : ℚ)) (by simp) (by simp)
  rw [h]
  simp [List.getLast_map, List.getLast_range]

/-- The means of nine errors. -/
example : (evalMse [(1 : ℚ), 2, 3, 4, 5, 6, 7, 8, 18]).lookup "mse" = some (some 6) ∧
    (evalMse [(1 : ℚ), 2, 3, 4, 5, 6, 7, 8, 18]).lookup "mse@1to8" = some (some (9 / 2)) := by
  obtain ⟨m, m8, h1, h2, h3, h4⟩ := C88_means [(1 : ℚ), 2, 3, 4, 5, 6, 7, 8, 18] (by simp)
  rw [h1, h3]
  simp only [List.length_cons, List.length_nil] at h2 h4
  norm_num [Finset.sum_range_succ] at h2 h4
  exact ⟨congrArg (some ∘ some) (by linarith), congrArg (some ∘ some) (by linarith)⟩

end Metrics

section Replicas

variable {K V S B : Type*} [Field K] [AddCommMonoid V] [SMul K V] {P : ℕ}

/-- C89: copies of the state that agree at the start agree after any number of steps, whatever the batches, the keys, the
gradients and the optimizer. -/
theorem C89_replicas (grad : Fin P → S → B → V) (apply : S → V → S) :
    ∀ (batches : List (Fin P → B)) (s : Fin P → S), (∀ d e, s d = s e) →
      ∀ d e, pTrain K grad apply batches s d = pTrain K grad apply batches s e
  | [], s, h => h
  | b :: bs, s, h => by
      refine C89_replicas grad apply bs _ fun d e => ?_
      unfold pTrainStep
      rw [h d e]

/-- C89: with equal copies at the start every device follows the history of a single state that is updated with the
averaged gradient. -/
theorem C89_training (grad : Fin P → S → B → V) (apply : S → V → S) : ∀ (batches : List (Fin P → B)) (s₀ : S) (d : Fin P),
    pTrain K grad apply batches (fun _ => s₀) d =
      batches.foldl (fun s b => apply s ((1 / (P : K)) • ∑ e, grad e s (b e))) s₀
  | [], _, _ => rfl
  | b :: bs, s₀, d => C89_training grad apply bs (apply s₀ ((1 / (P : K)) • ∑ e, grad e s₀ (b e))) d

/-- Two devices, gradient descent with rate 1/2 for the loss `(s - b)² / 2`, two batches. -/
example : pTrain ℚ (fun (_ : Fin 2) (s b : ℚ) => s - b) (fun s g => s - g / 2) [![1, 3], ![0, 4]] (fun _ => 0) 1 = 3 / 2 := by
  rw [C89_training]
  norm_num [Fin.sum_univ_two]

end Replicas

section Loss

variable {K : Type*} [Field K] [LinearOrder K]
variable {low : Nodes1D K} {wave : K → K} {c : SolverConfig K} {sem : StokesSEM K 2}

theorem rollouts_congr (n : ℕ) {nets nets' : ℕ → Closure K} : ∀ (xs : List (Example K)) (b b' : ℕ),
    (∀ j < xs.length, nets (b + j) = nets' (b' + j)) →
    rollouts low wave c sem nets n b xs = rollouts low wave c sem nets' n b' xs
  | [], _, _, _ => rfl
  | x :: xs, b, b', h => by
      have h0 := h 0 (by simp)
      simp only [Nat.add_zero] at h0
      rw [rollouts, rollouts, h0, rollouts_congr n xs (b + 1) (b' + 1) fun j hj => by
        have := h (j + 1) (by simpa using hj)
        rwa [Nat.add_assoc, Nat.add_comm 1 j, Nat.add_assoc, Nat.add_comm 1 j]]

theorem rollouts_append (n : ℕ) {nets : ℕ → Closure K} : ∀ (xs ys : List (Example K)) (b : ℕ) {r1 r2},
    rollouts low wave c sem nets n b xs = .ok r1 → rollouts low wave c sem nets n (b + xs.length) ys = .ok r2 →
    rollouts low wave c sem nets n b (xs ++ ys) = .ok (r1 ++ r2)
  | [], ys, b, r1, r2, h1, h2 => by
      simp only [rollouts, Except.ok.injEq] at h1
      subst h1
      simpa using h2
  | x :: xs, ys, b, r1, r2, h1, h2 => by
      rw [List.cons_append, rollouts]
      rw [rollouts] at h1
      cases hx : rollout low wave c sem (nets b) n x with
      | error e => rw [hx] at h1; cases h1
      | ok r =>
        rw [hx] at h1
        simp only at h1 ⊢
        cases hr : rollouts low wave c sem nets n (b + 1) xs with
        | error e => rw [hr] at h1; cases h1
        | ok rs =>
          rw [hr] at h1
          simp only [Except.ok.injEq] at h1
          subst h1
          rw [rollouts_append n xs ys (b + 1) hr (by
            rw [List.length_cons] at h2
            rwa [Nat.add_assoc, Nat.add_comm 1])]
          rfl

theorem rollouts_flatten (n : ℕ) {nets : ℕ → ℕ → Closure K} {m : ℕ} (hm : 0 < m) :
    ∀ (parts : List (List (Example K))) (rss : List (List (List (Vel K 2) × List (Vel K 2) × K × K))) (d : ℕ),
    parts.length = rss.length → (∀ (i : ℕ) (h : i < parts.length) (h' : i < rss.length), parts[i].length = m ∧
      rollouts low wave c sem (nets (d + i)) n 0 parts[i] = .ok rss[i]) →
    rollouts low wave c sem (fun b => nets (b / m) (b % m)) n (d * m) parts.flatten = .ok rss.flatten
  | [], [], _, _, _ => rfl
  | p :: ps, r :: rs, d, hl, h => by
      obtain ⟨h1, h2⟩ := h 0 (by simp) (by simp)
      simp only [List.getElem_cons_zero, Nat.add_zero] at h1 h2
      rw [List.flatten_cons, List.flatten_cons]
      refine rollouts_append n p ps.flatten (d * m) ?_ ?_
      · rw [← h2]
        refine rollouts_congr n p _ _ fun j hj => ?_
        rw [h1] at hj
        beta_reduce
        rw [Nat.mul_comm d m, Nat.mul_add_div hm, Nat.div_eq_of_lt hj, Nat.mul_add_mod, Nat.mod_eq_of_lt hj]
        simp
      · rw [h1, show d * m + m = (d + 1) * m by ring]
        refine rollouts_flatten n hm ps rs (d + 1) (by simpa using hl) fun i hi hi' => ?_
        have := h (i + 1) (by simpa using hi) (by simpa using hi')
        simp only [List.getElem_cons_succ] at this
        rwa [show d + 1 + i = d + (i + 1) by omega]

/-- The contribution of one example to the loss. -/
def exampleLoss (sem : StokesSEM K 2) (pen : K) (n : ℕ) (r : List (Vel K 2) × List (Vel K 2) × K × K) : K :=
  ((List.range n).map fun i => frameLoss sem (r.1.getD i 0) (r.2.1.getD i 0)).sum + pen * (r.2.2.1 + r.2.2.2)

theorem meanOf_add {α : Type*} (l : List α) (f g : α → K) :
    meanOf (l.map f) + meanOf (l.map g) = meanOf (l.map fun x => f x + g x) := by
  unfold meanOf
  simp only [List.length_map, List.sum_map_add, add_div]

theorem meanOf_mul {α : Type*} (l : List α) (a : K) (f : α → K) : a * meanOf (l.map f) = meanOf (l.map fun x => a * f x) := by
  unfold meanOf
  simp only [List.length_map, List.sum_map_mul_left, mul_div_assoc]

theorem meanOf_sum {α : Type*} (l : List α) (f : ℕ → α → K) : ∀ is : List ℕ,
    (is.map fun i => meanOf (l.map (f i))).sum = meanOf (l.map fun x => (is.map fun i => f i x).sum)
  | [] => by simp [meanOf]
  | i :: is => by
      rw [List.map_cons, List.sum_cons, meanOf_sum l f is, meanOf_add]
      simp

theorem computeLoss_ok {nets : ℕ → Closure K} {pen : K} {n : ℕ} {batch : List (Example K)} {loss : K} {mse : List K}
    (h : computeLoss low wave c sem nets pen n batch = .ok (loss, mse)) :
    ∃ rs, rollouts low wave c sem nets n 0 batch = .ok rs ∧ loss = meanOf (rs.map (exampleLoss sem pen n)) := by
  unfold computeLoss at h
  split at h
  · cases h
  · cases hr : rollouts low wave c sem nets n 0 batch with
    | error e => rw [hr] at h; cases h
    | ok rs =>
      rw [hr] at h
      simp only [Except.ok.injEq, Prod.mk.injEq] at h
      refine ⟨rs, rfl, ?_⟩
      rw [← h.1, meanOf_sum, meanOf_add, meanOf_mul, meanOf_add]
      rfl

theorem computeLoss_of {nets : ℕ → Closure K} {pen : K} {n : ℕ} {batch : List (Example K)} (hb : batch ≠ [])
    {rs} (h : rollouts low wave c sem nets n 0 batch = .ok rs) :
    ∃ mse, computeLoss low wave c sem nets pen n batch = .ok (meanOf (rs.map (exampleLoss sem pen n)), mse) := by
  have he : batch.isEmpty = false := by simpa using hb
  unfold computeLoss
  rw [he, h]
  simp only [Bool.false_eq_true, if_false]
  refine ⟨(List.range n).map fun i => meanOf (rs.map fun r => frameLoss sem (r.1.getD i 0) (r.2.1.getD i 0)), ?_⟩
  rw [meanOf_sum, meanOf_add, meanOf_mul, meanOf_add]
  rfl

theorem sum_flatten_means [CharZero K] {m : ℕ} (hm : 0 < m) : ∀ ls : List (List K), (∀ l ∈ ls, l.length = m) →
    ls.flatten.sum = m * (ls.map meanOf).sum ∧ ls.flatten.length = ls.length * m
  | [], _ => by simp
  | l :: ls, h => by
      obtain ⟨h1, h2⟩ := sum_flatten_means hm ls fun x hx => h x (List.mem_cons_of_mem _ hx)
      have hl := h l List.mem_cons_self
      have hm' : (m : K) ≠ 0 := by exact_mod_cast hm.ne'
      constructor
      · rw [List.flatten_cons, List.sum_append, h1, List.map_cons, List.sum_cons]
        unfold meanOf
        rw [hl]
        field_simp
      · rw [List.flatten_cons, List.length_append, h2, hl, List.length_cons]
        ring

/-- C89: the mean over the devices of their losses is the loss of the whole batch, when the network of an example draws
the noise of its device and place. -/
theorem C89_loss [CharZero K] {m : ℕ} (hm : 0 < m) {nets : ℕ → ℕ → Closure K} {pen : K} {n : ℕ}
    {parts : List (List (Example K))} (hP : parts ≠ []) (hparts : ∀ p ∈ parts, p.length = m) {loss : Fin parts.length → K}
    (h : ∀ d : Fin parts.length, ∃ mse, computeLoss low wave c sem (nets d) pen n parts[d] = .ok (loss d, mse)) :
    ∃ mse, computeLoss low wave c sem (fun b => nets (b / m) (b % m)) pen n parts.flatten =
      .ok (pmean (K := K) loss, mse) := by
  choose mses hms using h
  choose rs hrs hloss using fun d => computeLoss_ok (hms d)
  have hlen : ∀ d : Fin parts.length, (rs d).length = m := fun d => by
    rw [(rollouts_spec n 0 _ _ (hrs d)).1]
    exact hparts _ (List.getElem_mem _)
  have hfl := rollouts_flatten (low := low) (wave := wave) (c := c) (sem := sem) n (nets := nets) hm parts (List.ofFn rs) 0
    (by simp) (fun i hi hi' => ⟨hparts _ (List.getElem_mem _), by
      rw [List.getElem_ofFn, Nat.zero_add]; exact hrs ⟨i, hi⟩⟩)
  rw [Nat.zero_mul] at hfl
  have hne : parts.flatten ≠ [] := by
    obtain ⟨p, ps, rfl⟩ := List.exists_cons_of_ne_nil hP
    have := hparts p List.mem_cons_self
    intro h
    rw [List.flatten_cons, List.append_eq_nil_iff] at h
    rw [h.1] at this
    simp at this
    omega
  obtain ⟨mse, hmse⟩ := computeLoss_of (pen := pen) hne hfl
  refine ⟨mse, ?_⟩
  rw [hmse]
  congr 2
  set F := exampleLoss sem pen n
  have hP' : (parts.length : K) ≠ 0 := by
    exact_mod_cast (List.length_pos_of_ne_nil hP).ne'
  have hm' : (m : K) ≠ 0 := by exact_mod_cast hm.ne'
  obtain ⟨e1, e2⟩ := sum_flatten_means (K := K) hm ((List.ofFn rs).map fun r => r.map F) (by
    intro l hl
    simp only [List.mem_map, List.mem_ofFn] at hl
    obtain ⟨r, ⟨d, rfl⟩, rfl⟩ := hl
    rw [List.length_map, hlen])
  have hmap : ((List.ofFn rs).flatten.map F) = ((List.ofFn rs).map fun r => r.map F).flatten := by
    rw [List.map_flatten]
  unfold pmean
  rw [hmap]
  conv_lhs => unfold meanOf
  rw [e1, e2]
  have e3 : (((List.ofFn rs).map fun r => r.map F).map meanOf).sum = ∑ d, loss d := by
    rw [List.map_map, List.map_ofFn, List.sum_ofFn]
    refine Finset.sum_congr rfl fun d _ => ?_
    rw [hloss d]
    rfl
  rw [e3, List.length_map, List.length_ofFn, smul_eq_mul]
  push_cast
  field_simp

/-- Two devices with one example each; the hypothesis of `C89_loss` holds, with different networks. -/
example : ∃ (sem : StokesSEM ℚ 2) (loss : Fin 2 → ℚ) (mse : List ℚ),
    computeLoss exLow (fun x => x) exConfig sem (fun b => exNet (b / 1)) (1 / 10) 1
      [⟨List.replicate 4 exForce, List.replicate 4 fun j => j⟩, ⟨List.replicate 4 0, List.replicate 4 0⟩] =
      .ok ((1 / 2) * ∑ d, loss d, mse) := by
  obtain ⟨sem, h⟩ := exLoss
  let parts : List (List (Example ℚ)) := [[⟨List.replicate 4 exForce, List.replicate 4 fun j => j⟩],
    [⟨List.replicate 4 0, List.replicate 4 0⟩]]
  have hp : ∀ d : Fin parts.length, ∃ loss mse, computeLoss exLow (fun x => x) exConfig sem (fun _ => exNet d) (1 / 10) 1 parts[d] =
      .ok (loss, mse) := by
    intro d
    refine h _ _ _ _ (fun _ => exNet_keeps _) _ ?_ ?_
    · fin_cases d <;> simp [parts]
    · fin_cases d <;> simp [parts]
  choose loss mses hl using hp
  obtain ⟨mse, hm⟩ := C89_loss (nets := fun d _ => exNet d) (m := 1) one_pos (parts := parts) (by simp [parts]) (by simp [parts])
    (fun d => ⟨_, hl d⟩)
  exact ⟨sem, loss, mse, hm⟩

end Loss

section Gradient

variable {low : Nodes1D ℝ} {wave : ℝ → ℝ} {c : SolverConfig ℝ} {sem : StokesSEM ℝ 2}
variable {E : Type*} [NormedAddCommGroup E] [NormedSpace ℝ E]

/-- C89: the average of the gradients of the devices is the gradient of the loss of the whole batch. The networks may
depend on the parameters in any way; with `stop_gradient` they are the networks with the stopped terms held fixed. -/
theorem C89_gradient {m : ℕ} (hm : 0 < m) {nets : E → ℕ → ℕ → Closure ℝ} {pen : ℝ} {n : ℕ}
    {parts : List (List (Example ℝ))} (hP : parts ≠ []) (hparts : ∀ p ∈ parts, p.length = m) {θ : E}
    {loss : Fin parts.length → E → ℝ} {G : Fin parts.length → E →L[ℝ] ℝ}
    (h : ∀ d : Fin parts.length, ∀ θ', ∃ mse, computeLoss low wave c sem (nets θ' d) pen n parts[d] = .ok (loss d θ', mse))
    (hG : ∀ d, HasFDerivAt (loss d) (G d) θ) :
    ∃ L : E → ℝ, (∀ θ', ∃ mse, computeLoss low wave c sem (fun b => nets θ' (b / m) (b % m)) pen n parts.flatten =
      .ok (L θ', mse)) ∧ HasFDerivAt L (pmean (K := ℝ) G) θ := by
  refine ⟨fun θ' => pmean (K := ℝ) fun d => loss d θ', fun θ' => C89_loss hm hP hparts fun d => h d θ', ?_⟩
  unfold pmean
  have := (HasFDerivAt.fun_sum (u := Finset.univ) fun d _ => hG d).const_smul (1 / (parts.length : ℝ))
  exact this

end Gradient

section Shards

/-- C89: `prepare_tf_data` cuts the batch into equal parts, in order, without losing an example, and succeeds exactly when
the number of local devices divides the batch. -/
theorem C89_shards {α : Type*} {L : ℕ} (hL : 0 < L) (batch : List α) :
    (L ∣ batch.length ↔ ∃ parts, shards L batch = .ok parts) ∧
    ∀ parts, shards L batch = .ok parts → parts.length = L ∧ parts.flatten = batch ∧
      ∀ p ∈ parts, p.length = batch.length / L := by
  have hflat : ∀ (m k : ℕ) (xs : List α), xs.length = k * m →
      ((List.range k).map fun d => (xs.drop (d * m)).take m).flatten = xs := by
    intro m k
    induction k with
    | zero => intro xs h; simpa using (List.length_eq_zero_iff.1 (by simpa using h)).symm
    | succ k ih =>
      intro xs h
      rw [List.range_succ_eq_map, List.map_cons, List.map_map, List.flatten_cons]
      have h1 := ih (xs.drop m) (by rw [List.length_drop, h, Nat.succ_mul]; omega)
      have h2 : ((List.range k).map ((fun d => (xs.drop (d * m)).take m) ∘ Nat.succ)) =
          (List.range k).map fun d => ((xs.drop m).drop (d * m)).take m := by
        refine List.map_congr_left fun d _ => ?_
        simp only [Function.comp_apply, List.drop_drop, Nat.succ_mul]
        rw [Nat.add_comm]
      rw [h2, h1]
      simp
  have hiff : L ∣ batch.length ↔ batch.length % L = 0 := Nat.dvd_iff_mod_eq_zero
  constructor
  · rw [hiff]
    unfold shards
    constructor
    · intro h
      exact ⟨_, if_neg (by rintro (h' | h') <;> omega)⟩
    · rintro ⟨parts, h⟩
      split at h
      · cases h
      · rename_i h'
        by_contra h0
        exact h' (Or.inr h0)
  · intro parts h
    unfold shards at h
    split at h
    · cases h
    · rename_i h'
      have h0 : batch.length % L = 0 := by
        by_contra h0
        exact h' (Or.inr h0)
      simp only [Except.ok.injEq] at h
      subst h
      have hmul : batch.length = L * (batch.length / L) := (Nat.mul_div_cancel' (hiff.2 h0)).symm
      refine ⟨by simp, hflat _ _ _ hmul, ?_⟩
      intro p hp
      simp only [List.mem_map, List.mem_range] at hp
      obtain ⟨d, hd, rfl⟩ := hp
      rw [List.length_take, List.length_drop]
      have : (d + 1) * (batch.length / L) ≤ L * (batch.length / L) := Nat.mul_le_mul_right _ hd
      rw [← hmul, Nat.succ_mul] at this
      omega

example : shards 2 [1, 2, 3, 4] = .ok [[1, 2], [3, 4]] := by rfl

end Shards

section Keys

/-- C90 as far as it holds: in one process the keys of different devices, training steps or solver steps differ. Missing:
several processes. -/
theorem C90_partial (L proc : ℕ) {dev dev' step step' i i' : ℕ} (h : zKey L proc dev step i = zKey L proc dev' step' i') :
    dev = dev' ∧ step = step' ∧ i = i' := by
  simp only [zKey, trainKey, Key.foldIn.injEq, Key.split.injEq, true_and, and_true] at h
  exact ⟨h.1.1, h.1.2, h.2⟩

/-- C90 is false: with more than one process there are different devices that draw the same noise in every step. -/
theorem C90_violated {L : ℕ} {procs : ℕ} (hp : 2 ≤ procs) (dev : ℕ) :
    ∃ p < procs, ∃ q < procs, p ≠ q ∧ ∀ step i, zKey L p dev step i = zKey L q dev step i :=
  ⟨0, by omega, 1, by omega, by omega, fun _ _ => rfl⟩

/-- C90 is false also because with two local devices the keys of training are those that initialised the network. -/
theorem C90_init (proc : ℕ) : trainKey 2 proc 0 = initKeys.1 ∧ trainKey 2 proc 1 = initKeys.2 := ⟨rfl, rfl⟩

example : zKey 4 0 1 7 3 ≠ zKey 4 0 2 7 3 := fun h => absurd (C90_partial 4 0 h).1 (by decide)

end Keys

section Call

variable {V : Type*}

/-- C91 as far as it holds: the call that initialises the network binds its arguments. Missing: the calls of training and
evaluation. -/
theorem C91_partial (f inputs z : V) : initCall f inputs z = .ok [("inputs", inputs), ("z_rng", z), ("debug", f)] := by
  simp [initCall, bindCall, modelSig]

/-- C91 is false: the calls of `compute_mse_loss` raise `TypeError`, for all arguments. -/
theorem C91_violated (f inputs z train : V) :
    modelCall f inputs z train = .error "TypeError: unexpected keyword argument" := by
  simp [modelCall, bindCall, modelSig, List.lookup, List.filter]

end Call

end Verif.Niles
