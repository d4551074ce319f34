import Verif.Model.Pushforward

/-!
# Rollouts whose first network outputs are constants
-/

namespace Verif.Niles

open Verif.Core Verif.NS

variable {K : Type*} [Field K] [LinearOrder K] {low : Nodes1D K} {wave : K → K} {c : SolverConfig K} {sem : StokesSEM K 2}

/-- Two carries that differ in the KL terms only. -/
def SameFlow (s t : Carry K) : Prop := s.i = t.i ∧ s.us = t.us ∧ s.ps = t.ps ∧ s.cus = t.cus

/-- The closure term reads the network at its own inputs only. -/
theorem closureTerm_congr {net net' : Closure K} {mesh : Mesh K 2} {i : ℕ} {u : Vel K 2}
    (h : ∀ inputs, permuteIf c.permuteElements elementPerm (tokens mesh u) = .ok inputs → net i inputs = net' i inputs) :
    closureTerm c mesh net i u = closureTerm c mesh net' i u := by
  unfold closureTerm
  split
  · rfl
  · rename_i inputs hin
    rw [h inputs hin]

theorem bodyFn_congr {net net' : Closure K} {s : Carry K}
    (h : ∀ ul inputs, s.us.getLast? = some ul →
      permuteIf c.permuteElements elementPerm (tokens sem.vspace.mesh ul) = .ok inputs → net s.i inputs = net' s.i inputs) :
    bodyFn low wave c sem net s = bodyFn low wave c sem net' s := by
  unfold bodyFn
  split
  · rfl
  · rename_i ul hul
    rw [closureTerm_congr (fun inputs hin => h ul inputs hul hin)]

/-- Equal tokens give equal flows. -/
theorem bodyFn_same {net net' : Closure K} {s t : Carry K} (hst : SameFlow s t)
    (h : ∀ ul inputs, s.us.getLast? = some ul →
      permuteIf c.permuteElements elementPerm (tokens sem.vspace.mesh ul) = .ok inputs → (net s.i inputs).1 = (net' s.i inputs).1) :
    (∃ e, bodyFn low wave c sem net s = .error e ∧ bodyFn low wave c sem net' t = .error e) ∨
    ∃ s' t' u, bodyFn low wave c sem net s = .ok (s', u) ∧ bodyFn low wave c sem net' t = .ok (t', u) ∧ SameFlow s' t' := by
  obtain ⟨h1, h2, h3, h4⟩ := hst
  unfold bodyFn
  rw [← h1, ← h2, ← h3, ← h4]
  cases hul : s.us.getLast? with
  | none => exact Or.inl ⟨_, rfl, rfl⟩
  | some ul =>
    simp only
    unfold closureTerm
    cases hin : permuteIf c.permuteElements elementPerm (tokens sem.vspace.mesh ul) with
    | error e => exact Or.inl ⟨_, rfl, rfl⟩
    | ok inputs =>
      simp only
      by_cases hsh : inputs.length ≠ c.numElements ∨ ∃ t ∈ inputs, t.length ≠ c.numChannels
      · simp only [if_pos hsh]
        exact Or.inl ⟨_, rfl, rfl⟩
      · simp only [if_neg hsh]
        rw [← h ul inputs hul hin]
        cases permuteIf c.permuteElements (argsort elementPerm) (net s.i inputs).1 with
        | error e => exact Or.inl ⟨_, rfl, rfl⟩
        | ok ts =>
          simp only
          cases untokens sem.vspace.mesh ts with
          | error e => exact Or.inl ⟨_, rfl, rfl⟩
          | ok fl =>
            simp only
            cases solveStep low wave c sem s.us s.ps s.cus (vScatter sem.vspace.mesh fl) with
            | error e => exact Or.inl ⟨_, rfl, rfl⟩
            | ok r => exact Or.inr ⟨_, _, _, rfl, rfl, rfl, rfl, rfl, rfl⟩

theorem bodyFn_i {net : Closure K} {s s' : Carry K} {u : Vel K 2} (h : bodyFn low wave c sem net s = .ok (s', u)) : s'.i = s.i + 1 := by
  unfold bodyFn at h
  split at h
  · cases h
  split at h
  · cases h
  split at h
  · cases h
  · simp only [Except.ok.injEq, Prod.mk.injEq] at h
    rw [← h.1]

/-- The outputs of a run, from its first step on. -/
theorem scanOutputs_cons {net : Closure K} {n : ℕ} {s s' : Carry K} {u : Vel K 2} (hb : bodyFn low wave c sem net s = .ok (s', u)) :
    ∃ ul inputs, s.us.getLast? = some ul ∧ permuteIf c.permuteElements elementPerm (tokens sem.vspace.mesh ul) = .ok inputs ∧
      scanOutputs low wave c sem net (n + 1) s = (net s.i inputs).1 :: scanOutputs low wave c sem net n s' := by
  have hb' := hb
  unfold bodyFn at hb
  cases hul : s.us.getLast? with
  | none => rw [hul] at hb; cases hb
  | some ul =>
    rw [hul] at hb
    simp only at hb
    unfold closureTerm at hb
    cases hin : permuteIf c.permuteElements elementPerm (tokens sem.vspace.mesh ul) with
    | error e => rw [hin] at hb; cases hb
    | ok inputs =>
      refine ⟨ul, inputs, rfl, hin, ?_⟩
      simp only [scanOutputs, hul, hin, hb']

/-- Networks with equal tokens give equal flows. -/
theorem scanBody_same {net net' : Closure K} (m : ℕ) : ∀ s t : Carry K, SameFlow s t →
    (∀ i ts, s.i ≤ i → i < s.i + m → (net i ts).1 = (net' i ts).1) →
    (∃ e, scanBody low wave c sem net m s = .error e ∧ scanBody low wave c sem net' m t = .error e) ∨
    ∃ s' t' us, scanBody low wave c sem net m s = .ok (s', us) ∧ scanBody low wave c sem net' m t = .ok (t', us) ∧
      SameFlow s' t' ∧ s'.i = s.i + m ∧ us.length = m := by
  induction m with
  | zero => intro s t hst _; exact Or.inr ⟨s, t, [], rfl, rfl, hst, rfl, rfl⟩
  | succ m ih =>
    intro s t hst hf
    have hb := bodyFn_same (low := low) (wave := wave) (c := c) (sem := sem) (net := net) (net' := net') hst
      (fun ul inputs hul hin => hf s.i inputs le_rfl (by omega))
    unfold scanBody
    rcases hb with ⟨e, h1, h2⟩ | ⟨s', t', u, h1, h2, h3⟩
    · left
      exact ⟨e, by rw [h1], by rw [h2]⟩
    · have hi := bodyFn_i h1
      have := ih s' t' h3 (fun i ts h4 h5 => hf i ts (by omega) (by omega))
      rw [h1, h2]
      simp only
      rcases this with ⟨e, g1, g2⟩ | ⟨s1, t1, us, g1, g2, g3, g4, g5⟩
      · left
        exact ⟨e, by rw [g1], by rw [g2]⟩
      · right
        exact ⟨s1, t1, u :: us, by rw [g1], by rw [g2], g3, by omega, by simp [g5]⟩

/-- A scan in two parts. -/
theorem scanBody_split {net : Closure K} (m m' : ℕ) : ∀ s : Carry K, scanBody low wave c sem net (m + m') s =
    match scanBody low wave c sem net m s with
    | .error e => .error e
    | .ok (s', us) =>
      match scanBody low wave c sem net m' s' with
      | .error e => .error e
      | .ok (s'', us') => .ok (s'', us ++ us') := by
  induction m with
  | zero =>
    intro s
    simp only [Nat.zero_add, scanBody]
    cases scanBody low wave c sem net m' s with
    | error e => rfl
    | ok r => rfl
  | succ m ih =>
    intro s
    rw [show m + 1 + m' = (m + m') + 1 by omega]
    simp only [scanBody]
    cases bodyFn low wave c sem net s with
    | error e => rfl
    | ok r =>
      simp only
      rw [ih]
      cases scanBody low wave c sem net m r.1 with
      | error e => rfl
      | ok r' =>
        simp only
        cases scanBody low wave c sem net m' r'.1 with
        | error e => rfl
        | ok r'' => rfl

/-- The stopped network along the run of `net` is a mixture of the two networks. -/
theorem scanBody_mixed {net net' : Closure K} (k : ℕ) {frozen : ℕ → List (List K)} (m : ℕ) : ∀ s t : Carry K,
    (k ≤ t.i ∨ SameFlow s t ∧ ∀ r < m, frozen (s.i + r) = (scanOutputs low wave c sem net m s).getD r []) →
    scanBody low wave c sem (stopNet k frozen net') m t =
      scanBody low wave c sem (fun i ts => if i < k then ((net i ts).1, (net' i ts).2) else net' i ts) m t := by
  induction m with
  | zero => intro s t _; rfl
  | succ m ih =>
    intro s t h
    have hbody : bodyFn low wave c sem (stopNet k frozen net') t =
        bodyFn low wave c sem (fun i ts => if i < k then ((net i ts).1, (net' i ts).2) else net' i ts) t := by
      refine bodyFn_congr fun ul inputs hul hin => ?_
      unfold stopNet
      by_cases hk : t.i < k
      · rcases h with h | ⟨hst, hf⟩
        · omega
        · have := hf 0 (by omega)
          simp only [scanOutputs, hst.2.1, hul, hin, List.getD_cons_zero, add_zero] at this
          rw [if_pos hk, if_pos hk, ← hst.1, this]
      · rw [if_neg hk, if_neg hk]
    unfold scanBody
    rw [hbody]
    cases hb : bodyFn low wave c sem (fun i ts => if i < k then ((net i ts).1, (net' i ts).2) else net' i ts) t with
    | error e => rfl
    | ok r =>
      obtain ⟨t', u⟩ := r
      have hi := bodyFn_i hb
      simp only
      by_cases hk : k ≤ t'.i
      · rw [ih s t' (Or.inl hk)]
      · rcases h with h | ⟨hst, hf⟩
        · omega
        · have hs := bodyFn_same (low := low) (wave := wave) (c := c) (sem := sem) (net := net)
            (net' := fun i ts => if i < k then ((net i ts).1, (net' i ts).2) else net' i ts) hst
            (fun ul inputs hul hin => by beta_reduce; rw [if_pos (by have := hst.1; omega)])
          rcases hs with ⟨e, _, h2⟩ | ⟨s', t'', u', h1, h2, h3⟩
          · rw [h2] at hb; cases hb
          · rw [hb, Except.ok.injEq, Prod.mk.injEq] at h2
            obtain ⟨rfl, rfl⟩ := h2
            rw [ih s' t' (Or.inr ⟨h3, fun r hr => ?_⟩)]
            have := hf (r + 1) (by omega)
            obtain ⟨ul, inputs, _, _, ho⟩ := scanOutputs_cons (n := m) h1
            rw [bodyFn_i h1, show s.i + 1 + r = s.i + (r + 1) by omega, this, ho, List.getD_cons_succ]

/-- Equal rollouts of all examples. -/
theorem rollouts_congr_ex (n : ℕ) {nets nets' : ℕ → Closure K} : ∀ (xs : List (Example K)) (b : ℕ),
    (∀ (j : ℕ) (h : j < xs.length), rollout low wave c sem (nets (b + j)) n xs[j] = rollout low wave c sem (nets' (b + j)) n xs[j]) →
    rollouts low wave c sem nets n b xs = rollouts low wave c sem nets' n b xs
  | [], _, _ => rfl
  | x :: xs, b, h => by
      have h0 := h 0 (by simp)
      simp only [Nat.add_zero, List.getElem_cons_zero] at h0
      rw [rollouts, rollouts, h0, rollouts_congr_ex (nets' := nets') n xs (b + 1) fun j hj => by
        have := h (j + 1) (by simpa using hj)
        rw [List.getElem_cons_succ] at this
        rwa [Nat.add_assoc, Nat.add_comm 1 j]]

/-- Equal rollouts give equal losses. -/
theorem computeLoss_congr_ex {nets nets' : ℕ → Closure K} {pen : K} {n : ℕ} {batch : List (Example K)}
    (h : ∀ (j : ℕ) (h : j < batch.length), rollout low wave c sem (nets j) n batch[j] = rollout low wave c sem (nets' j) n batch[j]) :
    computeLoss low wave c sem nets pen n batch = computeLoss low wave c sem nets' pen n batch := by
  unfold computeLoss
  rw [rollouts_congr_ex (nets' := nets') n batch 0 fun j hj => by rw [Nat.zero_add]; exact h j hj]

end Verif.Niles
