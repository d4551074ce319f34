import Verif.Lemmas.Train

/-!
# C54, C55, C56: the training loop under crashes

`C54` Every crash history: checkpoints are written only at multiples of the interval and at the end, a process restores
the newest, executes the following steps consecutively, and finishes with the final state on disk.
`C55` The final state of an interrupted run: equal to the uninterrupted one when the batches repeat with the period of the
checkpoints; different in general, because a restarted process reads the batches from the beginning.
`C56` The number of evaluation batches.
-/

namespace Verif.Niles

variable {S B : Type*}

/-- The executions from an empty directory, with crashes and restarts at any moment. -/
abbrev Reachable (cfg : LoopConfig) (update : ℕ → S → B → S) (stream : ℕ → B) (init : TState S) (sys : Sys S) : Prop :=
  Relation.ReflTransGen (SysStep cfg update stream init) ⟨[], none⟩ sys

/-- **C54**, the files and the process in every reachable state: no exception; checkpoint steps are multiples of the
interval or the last step, newest first, at most 50; at most one interval of work is not on disk; a finished process has
the state of the last step, and that state is the newest checkpoint. -/
theorem C54_reachable (cfg : LoopConfig) (hc : 0 < cfg.stepsPerCheckpoint) (he : 0 < cfg.evalEverySteps)
    (hs : 0 < cfg.stepsPerEval) (update : ℕ → S → B → S) (stream : ℕ → B) (init : TState S) (h0 : init.step = 0)
    (sys : Sys S) (h : Reachable cfg update stream init sys) :
    (∀ c ∈ sys.disk, 0 < c.step ∧ c.step ≤ cfg.numSteps ∧
      (c.step % cfg.stepsPerCheckpoint = 0 ∨ c.step = cfg.numSteps)) ∧
    sys.disk.Pairwise (fun a b => b.step < a.step) ∧ sys.disk.length ≤ 50 ∧
    ∀ p, sys.proc = some p →
      p.phase ≠ .failed ∧ p.state.step ≤ cfg.numSteps ∧
      p.state.step ≤ (sys.disk.headD init).step + cfg.stepsPerCheckpoint ∧
      (p.phase = .done → p.state.step = cfg.numSteps ∧ (0 < cfg.numSteps → sys.disk.head? = some p.state)) := by
  have hinv := sysInv_reachable cfg hc he hs update stream init h0 sys h
  refine ⟨hinv.1.due, hinv.1.sorted, hinv.1.size, fun p hp => ?_⟩
  obtain ⟨off, hq⟩ := hinv.2 p hp
  rw [latest_headD _ _ h0]
  have hdm := Nat.div_add_mod p.step cfg.stepsPerCheckpoint
  have hml := Nat.mod_lt p.step hc
  rw [Nat.mul_comm] at hdm
  refine ⟨hq.not_failed, ?_, ?_, fun hd => ⟨(hq.done hd).2.1, (hq.done hd).2.2.2⟩⟩
  · cases hph : p.phase with
    | train => have := hq.train hph; omega
    | eval => have := hq.mid (Or.inl hph); omega
    | save => have := hq.mid (Or.inr hph); omega
    | done => have := hq.done hph; omega
    | failed => exact absurd hph hq.not_failed
  · cases hph : p.phase with
    | train => have := hq.train hph; omega
    | eval => have := hq.mid (Or.inl hph); omega
    | save => have := hq.mid (Or.inr hph); omega
    | done =>
      obtain ⟨d1, d2, d3, d4⟩ := hq.done hph
      rcases Nat.eq_zero_or_pos cfg.numSteps with hz | hz
      · omega
      · have : latest sys.disk = p.state.step := by simp [latest, d4 hz]
        omega
    | failed => exact absurd hph hq.not_failed

/-- **C54**, every process: after any crash history, a process starts from the newest checkpoint (the initial state if
there is none), executes consecutive steps from there, each once, and, left alone, finishes within three phases per
remaining step, having executed exactly the missing steps and with the final state as the newest checkpoint. -/
theorem C54_resume (cfg : LoopConfig) (hc : 0 < cfg.stepsPerCheckpoint) (he : 0 < cfg.evalEverySteps)
    (hs : 0 < cfg.stepsPerEval) (update : ℕ → S → B → S) (stream : ℕ → B) (init : TState S) (h0 : init.step = 0)
    (disk : List (TState S)) (h : Reachable cfg update stream init ⟨disk, none⟩) (n : ℕ) :
    let off := (disk.headD init).step
    let r := ticks cfg update stream n (disk, startProc cfg init disk)
    (startProc cfg init disk).state = disk.headD init ∧ (∀ c ∈ disk, c.step ≤ off) ∧ off ≤ cfg.numSteps ∧
    (∃ k, k ≤ cfg.numSteps - off ∧ r.2.executed = List.range' off k) ∧
    (3 * (cfg.numSteps - off) ≤ n → r.2.phase = .done ∧ r.2.executed = List.range' off (cfg.numSteps - off) ∧
      r.2.state.step = cfg.numSteps ∧ (0 < cfg.numSteps → r.1.head? = some r.2.state)) := by
  intro off r
  have hinv := sysInv_reachable cfg hc he hs update stream init h0 _ h
  have hst := startProc_inv cfg init h0 disk hinv.1
  have hoff : off = latest disk := latest_headD disk init h0
  have hr := ticks_inv cfg hc he hs update stream (latest disk) n disk _ hinv.1 hst
  have hr2 : ProcInv cfg r.1 (latest disk) r.2 := hr.2
  refine ⟨rfl, ?_, ?_, ⟨r.2.executed.length, ?_, by rw [hoff]; exact hr2.executed⟩, ?_⟩
  · intro c hmem
    rw [hoff]
    cases disk with
    | nil => simp at hmem
    | cons d ds =>
      simp only [latest, List.head?_cons, Option.map_some, Option.getD_some]
      rcases List.mem_cons.mp hmem with h | h
      · rw [h]
      · exact ((List.pairwise_cons.mp hinv.1.sorted).1 c h).le
  · rw [hoff]; exact le_trans hst.off_le hst.le_num
  · have := hr2.le_num
    have := hr2.off_le
    cases hph : r.2.phase with
    | train => have := hr2.train hph; omega
    | eval => have := hr2.mid (Or.inl hph); omega
    | save => have := hr2.mid (Or.inr hph); omega
    | done => have := hr2.done hph; omega
    | failed => exact absurd hph hr2.not_failed
  · intro hn
    have hrem : remaining cfg (startProc cfg init disk) ≤ n := by
      have hstep : (startProc cfg init disk).step = off := rfl
      unfold remaining
      rw [hstep]
      split <;> omega
    have hdone : r.2.phase = .done :=
      ticks_done cfg hc he hs update stream (latest disk) n disk _ hinv.1 hst hrem
    obtain ⟨d1, d2, d3, d4⟩ := hr2.done hdone
    refine ⟨hdone, ?_, d2, d4⟩
    rw [hr2.executed, d3, d1, hoff]

/-- **C54**, the hypotheses on the intervals are needed: if one of them is 0 (fewer steps per epoch than the reciprocal of
`eval_every_epochs` or `checkpoint_epochs`), every process stops with an exception in its first iteration, nothing is ever
saved, and training never completes. -/
theorem C54_zero_interval (cfg : LoopConfig) (hN : 0 < cfg.numSteps)
    (hz : cfg.evalEverySteps = 0 ∨ cfg.stepsPerCheckpoint = 0) (update : ℕ → S → B → S) (stream : ℕ → B)
    (init : TState S) (h0 : init.step = 0) (sys : Sys S) (h : Reachable cfg update stream init sys) :
    sys.disk = [] ∧ ∀ p, sys.proc = some p → p.phase ≠ .done ∧ p.executed.length ≤ 1 := by
  have key : sys.disk = [] ∧ ∀ p, sys.proc = some p → p.phase ≠ .done ∧ p.executed.length ≤ 1 ∧
      (p.phase = .train → p.executed = []) ∧ (p.phase = .save → cfg.evalEverySteps ≠ 0) := by
    induction h with
    | refl => simp
    | tail _ hstep ih =>
      cases hstep with
      | start disk =>
        obtain ⟨i1, -⟩ := ih
        simp only at i1
        subst i1
        refine ⟨rfl, fun p hp => ?_⟩
        cases hp
        have hph : (startProc cfg init []).phase = .train := by
          simp only [startProc, List.headD_nil, h0, nextPhase]
          exact if_pos hN
        rw [hph]
        simp [startProc]
      | tick disk p =>
        obtain ⟨i1, i2⟩ := ih
        obtain ⟨i3, i4, i5, i6⟩ := i2 p rfl
        simp only at i1
        subst i1
        cases hph : p.phase with
        | train =>
          simp only [tick, hph]
          refine ⟨by simp, fun q hq => ?_⟩
          cases hq
          simp [i5 hph]
        | eval =>
          simp only [tick, hph]
          split_ifs with h1 <;> refine ⟨rfl, fun q hq => ?_⟩ <;> cases hq <;> simp [i4, h1]
        | save =>
          by_cases hc : cfg.stepsPerCheckpoint = 0
          · simp only [tick, hph]
            rw [if_pos hc]
            refine ⟨rfl, fun q hq => ?_⟩
            cases hq
            simpa using i4
          · exfalso
            rcases hz with hz | hz
            · exact i6 hph hz
            · exact hc hz
        | done => exact absurd hph i3
        | failed =>
          simp only [tick, hph]
          refine ⟨by simp, fun q hq => ?_⟩
          cases hq
          exact ⟨i3, i4, i5, i6⟩
      | crash disk p => exact ⟨ih.1, by simp⟩
  exact ⟨key.1, fun p hp => ⟨(key.2 p hp).1, (key.2 p hp).2.1⟩⟩

/-- The settings used in the examples: 5 steps, a checkpoint every 2 steps, an evaluation every 3 steps. -/
def exCfg : LoopConfig := ⟨5, 2, 3, 1⟩

/-- A crash in the middle of the fourth step, a restart, and a run to the end: the second process restores step 2 and
executes the steps 2, 3, 4. -/
example : Reachable exCfg (fun _ (s : ℕ) (b : ℕ) => s + b) id ⟨0, 0⟩ ⟨[⟨2, 1⟩], none⟩ ∧
    ticks exCfg (fun _ (s : ℕ) (b : ℕ) => s + b) id 9 ([⟨2, 1⟩], startProc exCfg ⟨0, 0⟩ [⟨2, 1⟩]) =
      ([⟨5, 4⟩, ⟨4, 2⟩, ⟨2, 1⟩], ⟨.done, 5, 3, ⟨5, 4⟩, [2, 3, 4]⟩) := by
  refine ⟨?_, by decide +kernel⟩
  refine Relation.ReflTransGen.trans (Relation.ReflTransGen.single (SysStep.start [])) ?_
  have h := ticks_reachable exCfg (fun _ (s : ℕ) (b : ℕ) => s + b) id ⟨0, 0⟩ 10 [] (startProc exCfg ⟨0, 0⟩ [])
  have e : (ticks exCfg (fun _ (s : ℕ) (b : ℕ) => s + b) id 10 ([], startProc exCfg ⟨0, 0⟩ [])).1 = [⟨2, 1⟩] := by
    decide +kernel
  rw [e] at h
  exact h.tail (SysStep.crash _ _)

example : exCfg.stepsPerCheckpoint ≠ 0 ∧ exCfg.evalEverySteps ≠ 0 ∧ exCfg.stepsPerEval ≠ 0 := by decide

/-! ### C55 -/

/-- The parameters after `n` steps of training on the batches `stream 0`, `stream 1`, ... without interruption. -/
def trained (update : ℕ → S → B → S) (stream : ℕ → B) (start : S) : ℕ → S
  | 0 => start
  | n + 1 => update n (trained update stream start n) (stream n)

/-- Without a crash the loop computes `trained`: this fixes the meaning of "uninterrupted". -/
theorem C55_uninterrupted (cfg : LoopConfig) (hc : 0 < cfg.stepsPerCheckpoint) (he : 0 < cfg.evalEverySteps)
    (hs : 0 < cfg.stepsPerEval) (update : ℕ → S → B → S) (stream : ℕ → B) (init : TState S) (h0 : init.step = 0) :
    (ticks cfg update stream (3 * cfg.numSteps) ([], startProc cfg init [])).2.state =
      ⟨cfg.numSteps, trained update stream init.params cfg.numSteps⟩ := by
  have hd : DiskInv cfg ([] : List (TState S)) := ⟨by simp, by simp, by simp⟩
  have hst := startProc_inv cfg init h0 [] hd
  have key : ∀ (n : ℕ) (disk : List (TState S)) (p : Proc S), DiskInv cfg disk → ProcInv cfg disk 0 p →
      ParamInv (trained update stream init.params) disk (some p) →
      ParamInv (trained update stream init.params) (ticks cfg update stream n (disk, p)).1
        (some (ticks cfg update stream n (disk, p)).2) := by
    intro n
    induction n with
    | zero => exact fun _ _ _ _ h => h
    | succ n ih =>
      intro disk p hd hp h
      have hi := tick_inv cfg hc he hs update stream disk 0 p hd hp
      refine ih _ _ hi.1 hi.2 (param_tick cfg update stream _ disk p h fun hph => ?_)
      obtain ⟨t1, t2, t3, t4⟩ := hp.train hph
      have hdr : p.drawn = p.state.step := by rw [hp.drawn, t3, t2]; rfl
      rw [hdr]
      rfl
  have h1 := key (3 * cfg.numSteps) [] _ hd hst ⟨by simp, fun q hq => by
    cases hq
    change init.params = trained update stream init.params init.step
    rw [h0]; rfl⟩
  have h2 := C54_resume cfg hc he hs update stream init h0 [] Relation.ReflTransGen.refl (3 * cfg.numSteps)
  obtain ⟨-, -, -, -, h3⟩ := h2
  have h4 := h3 (by omega)
  have h5 := h1.proc _ rfl
  rw [h4.2.2.1] at h5
  calc _ = (⟨_, _⟩ : TState S) := rfl
    _ = _ := by rw [h4.2.2.1, h5]

/-- **C55**, proved when the batches repeat with the period of the checkpoints (for example one batch per checkpoint
interval that is the same every time): for every crash history every checkpoint and the final state are those of the
uninterrupted run. For arbitrary batches the property is false, see `C55_violated`; the full statement is this one
without `hper`. -/
theorem C55_partial (cfg : LoopConfig) (hc : 0 < cfg.stepsPerCheckpoint) (he : 0 < cfg.evalEverySteps)
    (hs : 0 < cfg.stepsPerEval) (update : ℕ → S → B → S) (stream : ℕ → B) (init : TState S) (h0 : init.step = 0)
    (hper : ∀ i, stream (i + cfg.stepsPerCheckpoint) = stream i)
    (sys : Sys S) (h : Reachable cfg update stream init sys) :
    (∀ c ∈ sys.disk, c.params = trained update stream init.params c.step) ∧
    ∀ p, sys.proc = some p → p.phase = .done →
      p.state = ⟨cfg.numSteps, trained update stream init.params cfg.numSteps⟩ := by
  have hmul : ∀ k i, stream (i + cfg.stepsPerCheckpoint * k) = stream i := by
    intro k
    induction k with
    | zero => intro i; rfl
    | succ k ih => intro i; rw [Nat.mul_succ, ← Nat.add_assoc, hper, ih]
  have key : ParamInv (trained update stream init.params) sys.disk sys.proc := by
    induction h with
    | refl => exact ⟨by simp, by simp⟩
    | tail hreach hstep ih =>
      have hinv := sysInv_reachable cfg hc he hs update stream init h0 _ hreach
      cases hstep with
      | start disk =>
        refine ⟨ih.disk, fun q hq => ?_⟩
        cases hq
        cases disk with
        | nil =>
          change init.params = trained update stream init.params init.step
          rw [h0]; rfl
        | cons c cs => exact ih.disk c (by simp)
      | tick disk p =>
        obtain ⟨off, hp⟩ := hinv.2 p rfl
        refine param_tick cfg update stream _ disk p ih fun hph => ?_
        obtain ⟨t1, t2, t3, t4⟩ := hp.train hph
        have hoff := hp.off_due (lt_of_le_of_lt hp.off_le t1)
        have hle := hp.off_le
        obtain ⟨k, hk⟩ := Nat.dvd_of_mod_eq_zero hoff
        have : stream p.drawn = stream p.state.step := by
          rw [hp.drawn, t3, ← hmul k (p.step - off), t2]
          congr 1
          omega
        rw [this]
        rfl
      | crash disk p => exact ⟨ih.disk, by simp⟩
  refine ⟨key.disk, fun p hp hdone => ?_⟩
  have h1 := key.proc p hp
  have h2 := (C54_reachable cfg hc he hs update stream init h0 sys h).2.2.2 p hp
  have h3 := (h2.2.2.2 hdone).1
  rw [h3] at h1
  calc p.state = (⟨p.state.step, p.state.params⟩ : TState S) := rfl
    _ = _ := by rw [h3, h1]

/-- Batches of period 2 that are not constant. -/
example : (0 : ℕ) < exCfg.stepsPerCheckpoint ∧ (∀ i, (fun i : ℕ => i % 2) (i + exCfg.stepsPerCheckpoint) = (fun i => i % 2) i) ∧
    (fun i : ℕ => i % 2) 0 ≠ (fun i => i % 2) 1 :=
  ⟨by decide, fun i => Nat.add_mod_right i 2, by decide⟩

/-- **C55** is false: a process killed after a checkpoint reads the first batches again. Two steps, a checkpoint after
every step, batches 1 and 2, `update` appends the batch to the parameters: the uninterrupted run ends with `[1, 2]`, the run killed
after the first checkpoint with `[1, 1]`. -/
theorem C55_violated : ∃ (cfg : LoopConfig) (update : ℕ → List ℕ → ℕ → List ℕ) (stream : ℕ → ℕ) (init : TState (List ℕ))
    (sys : Sys (List ℕ)) (p : Proc (List ℕ)), 0 < cfg.stepsPerCheckpoint ∧ 0 < cfg.evalEverySteps ∧ 0 < cfg.stepsPerEval ∧
    init.step = 0 ∧ Reachable cfg update stream init sys ∧ sys.proc = some p ∧ p.phase = .done ∧
    p.state ≠ (ticks cfg update stream (3 * cfg.numSteps) ([], startProc cfg init [])).2.state := by
  let cfg : LoopConfig := ⟨2, 1, 1, 1⟩
  let update : ℕ → List ℕ → ℕ → List ℕ := fun _ s b => s ++ [b]
  let stream : ℕ → ℕ := fun i => i + 1
  let init : TState (List ℕ) := ⟨0, []⟩
  refine ⟨cfg, update, stream, init, ⟨[⟨2, [1, 1]⟩, ⟨1, [1]⟩], some ⟨.done, 2, 1, ⟨2, [1, 1]⟩, [1]⟩⟩,
    ⟨.done, 2, 1, ⟨2, [1, 1]⟩, [1]⟩, by decide, by decide, by decide, rfl, ?_, rfl, rfl, by decide +kernel⟩
  refine Relation.ReflTransGen.trans (Relation.ReflTransGen.single (SysStep.start [])) ?_
  refine Relation.ReflTransGen.trans (ticks_reachable cfg update stream init 3 [] (startProc cfg init [])) ?_
  have e : (ticks cfg update stream 3 ([], startProc cfg init [])).1 = [⟨1, [1]⟩] := by decide +kernel
  rw [e]
  refine Relation.ReflTransGen.head (SysStep.crash _ _) ?_
  refine Relation.ReflTransGen.head (SysStep.start _) ?_
  have h := ticks_reachable cfg update stream init 3 [⟨1, [1]⟩] (startProc cfg init [⟨1, [1]⟩])
  have e2 : ticks cfg update stream 3 ([⟨1, [1]⟩], startProc cfg init [⟨1, [1]⟩]) =
      ([⟨2, [1, 1]⟩, ⟨1, [1]⟩], ⟨.done, 2, 1, ⟨2, [1, 1]⟩, [1]⟩) := by decide +kernel
  rw [e2] at h
  exact h

/-! ### C56 -/

/-- The number of validation examples (input_pipeline.py 36-40). -/
def numValidation : ℕ := numSplitExamples .validation

/-- **C56** holds for batches of one example. The full statement is the equation for every batch size;
it is false for all others, see `C56_violated`. -/
theorem C56_partial (c : TrainConfig) (hb : c.batchSize = 1) (ha : c.stepsPerEval = -1) :
    c.evalSteps * c.batchSize = ((numValidation / c.batchSize * c.batchSize : ℕ) : ℤ) := by
  simp [TrainConfig.evalSteps, ha, hb, numValidation]

example : ∃ c : TrainConfig, c.batchSize = 1 ∧ c.stepsPerEval = -1 ∧ c.evalSteps = 25600 :=
  ⟨⟨1, 11, 1, false, -1, 100, 1, 1, -1⟩, rfl, rfl, by decide +kernel⟩

/-- **C56** is false for every batch size of at least 2 (that leaves at least one full batch): the code divides by the
batch size twice, and evaluates on fewer examples than there are full batches of. -/
theorem C56_violated (c : TrainConfig) (hb : 2 ≤ c.batchSize) (hn : c.batchSize ≤ numValidation)
    (ha : c.stepsPerEval = -1) :
    c.evalSteps * c.batchSize < ((numValidation / c.batchSize * c.batchSize : ℕ) : ℤ) := by
  have e : c.evalSteps = ((numValidation / c.batchSize / c.batchSize : ℕ) : ℤ) := by
    simp [TrainConfig.evalSteps, ha, numValidation]
  rw [e]
  have hq : 0 < numValidation / c.batchSize := Nat.div_pos hn (by omega)
  have : numValidation / c.batchSize / c.batchSize < numValidation / c.batchSize := Nat.div_lt_self hq hb
  exact_mod_cast Nat.mul_lt_mul_of_pos_right this (by omega)

/-- The default batch size 128: one evaluation batch of the 200 that the validation set has. -/
example : (⟨128, 11, 1, false, -1, 100, 1, 1 / 10, -1⟩ : TrainConfig).evalSteps = 1 ∧ numValidation / 128 = 200 := by
  decide +kernel

/-- With a batch size above 160 there is no evaluation batch at all, and the first evaluation raises an exception: if the
run is long enough for one evaluation, no crash history ever completes it. -/
theorem C56_no_batches (c : TrainConfig) (hb : 160 < c.batchSize) (ha : c.stepsPerEval = -1)
    (he : 0 < c.loop.evalEverySteps) (hN : c.loop.evalEverySteps ≤ c.loop.numSteps)
    (update : ℕ → S → B → S) (stream : ℕ → B) (init : TState S) (h0 : init.step = 0)
    (sys : Sys S) (h : Reachable c.loop update stream init sys) :
    ∀ p, sys.proc = some p → p.phase ≠ .done := by
  have hz : c.loop.stepsPerEval = 0 := by
    have e : c.evalSteps = ((numValidation / c.batchSize / c.batchSize : ℕ) : ℤ) := by
      simp [TrainConfig.evalSteps, ha, numValidation]
    have : numValidation / c.batchSize / c.batchSize = 0 := by
      rw [Nat.div_div_eq_div_mul]
      apply Nat.div_eq_of_lt
      have : 161 * 161 ≤ c.batchSize * c.batchSize := Nat.mul_le_mul hb hb
      have : numValidation = 25600 := rfl
      omega
    simp [TrainConfig.loop, e, this]
  generalize c.loop = cfg at *
  have key : (∀ d ∈ sys.disk, d.step < cfg.evalEverySteps) ∧ ∀ p, sys.proc = some p →
      p.phase ≠ .done ∧ (p.phase = .train → p.state.step = p.step ∧ p.step < cfg.evalEverySteps) ∧
      (p.phase = .eval → p.state.step = p.step + 1 ∧ p.step < cfg.evalEverySteps) ∧
      (p.phase = .save → p.state.step = p.step + 1 ∧ p.step + 1 < cfg.evalEverySteps) := by
    induction h with
    | refl => simp
    | tail _ hstep ih =>
      cases hstep with
      | start disk =>
        refine ⟨ih.1, fun p hp => ?_⟩
        cases hp
        have hlt : (disk.headD init).step < cfg.evalEverySteps := by
          cases disk with
          | nil => simpa [h0] using he
          | cons d ds => exact ih.1 d (by simp)
        have hph : (startProc cfg init disk).phase = .train := if_pos (by omega)
        rw [hph]
        exact ⟨by simp, fun _ => ⟨rfl, hlt⟩, by simp, by simp⟩
      | tick disk p =>
        obtain ⟨i1, i2⟩ := ih
        obtain ⟨i3, i4, i5, i6⟩ := i2 p rfl
        cases hph : p.phase with
        | train =>
          obtain ⟨t1, t2⟩ := i4 hph
          simp only [tick, hph]
          refine ⟨i1, fun q hq => ?_⟩
          cases hq
          simp [t1, t2]
        | eval =>
          obtain ⟨t1, t2⟩ := i5 hph
          simp only [tick, hph]
          split_ifs with h1 h2
          · refine ⟨i1, fun q hq => ?_⟩
            cases hq; simp
          · refine ⟨i1, fun q hq => ?_⟩
            cases hq; simp
          · refine ⟨i1, fun q hq => ?_⟩
            cases hq
            have : p.step + 1 ≠ cfg.evalEverySteps := by
              intro h; apply h2; rw [h]; exact ⟨Nat.mod_self _, hz⟩
            refine ⟨by simp, by simp, by simp, fun _ => ⟨t1, ?_⟩⟩
            simp only
            omega
        | save =>
          obtain ⟨t1, t2⟩ := i6 hph
          have hnp : nextPhase cfg (p.step + 1) = .train := if_pos (by omega)
          simp only [tick, hph]
          split_ifs with h1 h2
          · refine ⟨i1, fun q hq => ?_⟩
            cases hq; simp
          · cases hsv : saveCheckpoint disk p.state with
            | none =>
              refine ⟨i1, fun q hq => ?_⟩
              cases hq; simp
            | some disk' =>
              refine ⟨fun d hd => ?_, fun q hq => ?_⟩
              · unfold saveCheckpoint at hsv
                cases disk with
                | nil =>
                  cases hsv
                  rw [List.mem_singleton] at hd
                  rw [hd]; omega
                | cons d' ds =>
                  simp only at hsv
                  split_ifs at hsv
                  cases hsv
                  rcases List.mem_cons.mp (List.mem_of_mem_take hd) with h | h'
                  · rw [h]; omega
                  · exact i1 d h'
              · cases hq
                simp [hnp, t1, t2]
          · refine ⟨i1, fun q hq => ?_⟩
            cases hq
            simp [hnp, t1, t2]
        | done => exact absurd hph i3
        | failed =>
          simp only [tick, hph]
          refine ⟨i1, fun q hq => ?_⟩
          cases hq
          exact ⟨i3, i4, i5, i6⟩
      | crash disk p => exact ⟨ih.1, by simp⟩
  exact fun p hp => (key.2 p hp).1

/-- Batch size 256, otherwise the default configuration. -/
example : (0 : ℕ) < (⟨256, 11, 1, false, -1, 100, 1, 1 / 10, -1⟩ : TrainConfig).loop.evalEverySteps ∧
    (⟨256, 11, 1, false, -1, 100, 1, 1 / 10, -1⟩ : TrainConfig).loop.evalEverySteps ≤
      (⟨256, 11, 1, false, -1, 100, 1, 1 / 10, -1⟩ : TrainConfig).loop.numSteps := by
  decide +kernel

end Verif.Niles
