import Verif.Prelude
import Verif.Model.Train

/-! Invariants of the training loop. -/

namespace Verif.Niles

variable {S B : Type*}

/-- Steps at which a checkpoint is written. -/
def Due (cfg : LoopConfig) (n : ℕ) : Prop := 0 < n ∧ n ≤ cfg.numSteps ∧ (n % cfg.stepsPerCheckpoint = 0 ∨ n = cfg.numSteps)

/-- The step of the newest checkpoint, 0 if there is none. -/
def latest (disk : List (TState S)) : ℕ := (disk.head?.map TState.step).getD 0

/-- The invariant of the files. -/
structure DiskInv (cfg : LoopConfig) (disk : List (TState S)) : Prop where
  due : ∀ c ∈ disk, Due cfg c.step
  sorted : disk.Pairwise (fun a b => b.step < a.step)
  size : disk.length ≤ 50

/-- The invariant of a process started at step `off`. -/
structure ProcInv (cfg : LoopConfig) (disk : List (TState S)) (off : ℕ) (p : Proc S) : Prop where
  off_le : off ≤ p.step
  off_due : off < cfg.numSteps → off % cfg.stepsPerCheckpoint = 0
  le_num : p.step ≤ cfg.numSteps
  drawn : p.drawn = p.executed.length
  executed : p.executed = List.range' off p.executed.length
  train : p.phase = .train → p.step < cfg.numSteps ∧ p.state.step = p.step ∧ p.executed.length = p.step - off ∧
    latest disk = p.step / cfg.stepsPerCheckpoint * cfg.stepsPerCheckpoint
  mid : p.phase = .eval ∨ p.phase = .save → p.step < cfg.numSteps ∧ p.state.step = p.step + 1 ∧
    p.executed.length = p.step + 1 - off ∧ latest disk = p.step / cfg.stepsPerCheckpoint * cfg.stepsPerCheckpoint
  done : p.phase = .done → p.step = cfg.numSteps ∧ p.state.step = cfg.numSteps ∧ p.executed.length = p.step - off ∧
    (0 < cfg.numSteps → disk.head? = some p.state)
  not_failed : p.phase ≠ .failed

theorem nextPhase_cases (cfg : LoopConfig) (n : ℕ) (h : n ≤ cfg.numSteps) :
    (n < cfg.numSteps ∧ nextPhase cfg n = .train) ∨ (n = cfg.numSteps ∧ nextPhase cfg n = .done) := by
  unfold nextPhase
  rcases lt_or_eq_of_le h with h1 | h1
  · exact Or.inl ⟨h1, if_pos h1⟩
  · exact Or.inr ⟨h1, if_neg (by omega)⟩

theorem latest_headD (disk : List (TState S)) (init : TState S) (h0 : init.step = 0) :
    (disk.headD init).step = latest disk := by
  cases disk with
  | nil => simpa [latest] using h0
  | cons c cs => simp [latest]

theorem startProc_inv (cfg : LoopConfig) (init : TState S) (h0 : init.step = 0)
    (disk : List (TState S)) (hd : DiskInv cfg disk) :
    ProcInv cfg disk (latest disk) (startProc cfg init disk) := by
  have hl := latest_headD disk init h0
  have hle : latest disk ≤ cfg.numSteps := by
    cases disk with
    | nil => simp [latest]
    | cons c cs => simpa [latest] using (hd.due c (by simp)).2.1
  have hmod : latest disk < cfg.numSteps → latest disk % cfg.stepsPerCheckpoint = 0 := by
    intro hlt
    cases disk with
    | nil => simp [latest]
    | cons c cs =>
      have := hd.due c (by simp)
      simp only [latest, List.head?_cons, Option.map_some, Option.getD_some] at hlt ⊢
      rcases this.2.2 with h | h
      · exact h
      · omega
  have hph := nextPhase_cases cfg (disk.headD init).step (by rw [hl]; exact hle)
  have hst : (startProc cfg init disk).step = latest disk := hl
  have hss : (startProc cfg init disk).state.step = latest disk := hl
  have hex : (startProc cfg init disk).executed = [] := rfl
  refine ⟨hst.ge, hmod, hst ▸ hle, rfl, rfl, ?_, ?_, ?_, ?_⟩
  · intro h
    simp only [startProc] at h
    rcases hph with ⟨h1, _⟩ | ⟨_, h2⟩
    · rw [hst, hss, hex]
      rw [hl] at h1
      refine ⟨h1, rfl, by simp, ?_⟩
      have := hmod h1
      exact (Nat.div_mul_cancel (Nat.dvd_of_mod_eq_zero this)).symm
    · rw [h] at h2; cases h2
  · intro h
    simp only [startProc] at h
    rcases hph with ⟨_, h2⟩ | ⟨_, h2⟩ <;> rw [h2] at h <;> simp at h
  · intro h
    simp only [startProc] at h
    rcases hph with ⟨_, h2⟩ | ⟨h1, _⟩
    · rw [h] at h2; cases h2
    · refine ⟨h1, h1, by rw [hst, hex]; simp, ?_⟩
      intro hpos
      cases disk with
      | nil => change init.step = _ at h1; omega
      | cons c cs => rfl
  · intro h
    simp only [startProc] at h
    rcases hph with ⟨_, h2⟩ | ⟨_, h2⟩ <;> rw [h2] at h <;> cases h

theorem div_step (n c : ℕ) (hc : 0 < c) (h : (n + 1) % c ≠ 0) : (n + 1) / c * c = n / c * c := by
  have : (n + 1) / c = n / c := by
    rw [Nat.succ_div]
    rw [if_neg]
    · rfl
    · intro hd; exact h (Nat.mod_eq_zero_of_dvd hd)
  rw [this]

/-- Saving at a due step keeps the invariant of the files. -/
theorem save_inv (cfg : LoopConfig) (disk : List (TState S)) (hd : DiskInv cfg disk) (s : TState S)
    (hlt : latest disk < s.step) (hdue : Due cfg s.step) :
    ∃ disk', saveCheckpoint disk s = some disk' ∧ DiskInv cfg disk' ∧ disk'.head? = some s ∧
      ∀ c ∈ disk', c = s ∨ c ∈ disk := by
  cases disk with
  | nil =>
    refine ⟨[s], rfl, ⟨?_, by simp, by simp⟩, rfl, by simp⟩
    intro c hc
    rw [List.mem_singleton] at hc
    subst hc
    exact hdue
  | cons c cs =>
    have hlt' : c.step < s.step := by simpa [latest] using hlt
    refine ⟨(s :: c :: cs).take 50, ?_, ⟨?_, ?_, ?_⟩, ?_, ?_⟩
    · exact if_neg (by omega)
    · intro x hx
      rcases List.mem_cons.mp (List.mem_of_mem_take hx) with h | h
      · rw [h]; exact hdue
      · exact hd.due x h
    · apply List.Pairwise.sublist (List.take_sublist _ _)
      rw [List.pairwise_cons]
      refine ⟨?_, hd.sorted⟩
      intro x hx
      rcases List.mem_cons.mp hx with h | h
      · rw [h]; exact hlt'
      · have := (List.pairwise_cons.mp hd.sorted).1 x h
        omega
    · rw [List.length_take]; exact Nat.min_le_left _ _
    · simp
    · intro x hx
      rcases List.mem_cons.mp (List.mem_of_mem_take hx) with h | h
      · exact Or.inl h
      · exact Or.inr h

theorem tick_inv (cfg : LoopConfig) (hc : 0 < cfg.stepsPerCheckpoint) (he : 0 < cfg.evalEverySteps)
    (hs : 0 < cfg.stepsPerEval)
    (update : ℕ → S → B → S) (stream : ℕ → B) (disk : List (TState S)) (off : ℕ) (p : Proc S)
    (hd : DiskInv cfg disk) (hp : ProcInv cfg disk off p) :
    DiskInv cfg (tick cfg update stream disk p).1 ∧
      ProcInv cfg (tick cfg update stream disk p).1 off (tick cfg update stream disk p).2 := by
  cases hph : p.phase with
  | train =>
    obtain ⟨h1, h2, h3, h4⟩ := hp.train hph
    have e : tick cfg update stream disk p = (disk, { p with
      phase := .eval
      drawn := p.drawn + 1
      state := ⟨p.state.step + 1, update p.state.step p.state.params (stream p.drawn)⟩
      executed := p.executed ++ [p.step] }) := by simp only [tick, hph]
    rw [e]
    refine ⟨hd, ⟨hp.off_le, hp.off_due, hp.le_num, ?_, ?_, ?_, ?_, ?_, ?_⟩⟩
    · simp [hp.drawn]
    · simp only [List.length_append, List.length_cons, List.length_nil, Nat.zero_add]
      rw [List.range'_concat, ← hp.executed]
      simp only [Nat.one_mul]
      congr 2
      have := hp.off_le
      omega
    · intro h; cases h
    · intro _
      refine ⟨h1, by simp [h2], ?_, h4⟩
      have := hp.off_le
      simp
      omega
    · intro h; cases h
    · intro h; cases h
  | eval =>
    obtain ⟨h1, h2, h3, h4⟩ := hp.mid (Or.inl hph)
    have e : tick cfg update stream disk p = (disk, { p with phase := .save }) := by
      simp only [tick, hph]; rw [if_neg (by omega), if_neg (by omega)]
    rw [e]
    refine ⟨hd, ⟨hp.off_le, hp.off_due, hp.le_num, hp.drawn, hp.executed, ?_, ?_, ?_, ?_⟩⟩
    · intro h; cases h
    · exact fun _ => ⟨h1, h2, h3, h4⟩
    · intro h; cases h
    · intro h; cases h
  | save =>
    obtain ⟨h1, h2, h3, h4⟩ := hp.mid (Or.inr hph)
    have hoff := hp.off_le
    have hle : latest disk ≤ p.step := by rw [h4]; exact Nat.div_mul_le_self _ _
    have hnext := nextPhase_cases cfg (p.step + 1) (by omega)
    by_cases hdue : (p.step + 1) % cfg.stepsPerCheckpoint = 0 ∨ p.step + 1 = cfg.numSteps
    · obtain ⟨disk', s1, s2, s3, s4⟩ := save_inv cfg disk hd p.state (by omega)
        ⟨by omega, by omega, by rw [h2]; exact hdue⟩
      have e : tick cfg update stream disk p =
          (disk', { p with phase := nextPhase cfg (p.step + 1), step := p.step + 1 }) := by
        simp only [tick, hph]; rw [if_neg (by omega), if_pos hdue, s1]
      have hlat : latest disk' = p.step + 1 := by simp [latest, s3, h2]
      rw [e]
      refine ⟨s2, ⟨by simp; omega, hp.off_due, by simp; omega, hp.drawn, hp.executed, ?_, ?_, ?_, ?_⟩⟩
      · intro h
        simp only at h ⊢
        rcases hnext with ⟨g1, _⟩ | ⟨_, g2⟩
        · refine ⟨g1, h2, h3, ?_⟩
          rw [hlat]
          rcases hdue with h5 | h5
          · exact (Nat.div_mul_cancel (Nat.dvd_of_mod_eq_zero h5)).symm
          · omega
        · rw [h] at g2; cases g2
      · intro h
        simp only at h
        rcases hnext with ⟨_, g⟩ | ⟨_, g⟩ <;> rw [g] at h <;> simp at h
      · intro h
        simp only at h ⊢
        rcases hnext with ⟨_, g⟩ | ⟨g1, _⟩
        · rw [h] at g; cases g
        · exact ⟨g1, by omega, h3, fun _ => s3⟩
      · simp only
        rcases hnext with ⟨_, g⟩ | ⟨_, g⟩ <;> rw [g] <;> simp
    · have e : tick cfg update stream disk p =
          (disk, { p with phase := nextPhase cfg (p.step + 1), step := p.step + 1 }) := by
        simp only [tick, hph]; rw [if_neg (by omega), if_neg hdue]
      push Not at hdue
      rw [e]
      refine ⟨hd, ⟨by simp; omega, hp.off_due, by simp; omega, hp.drawn, hp.executed, ?_, ?_, ?_, ?_⟩⟩
      · intro h
        simp only at h ⊢
        rcases hnext with ⟨g1, _⟩ | ⟨_, g2⟩
        · refine ⟨g1, h2, h3, ?_⟩
          rw [h4, div_step _ _ hc hdue.1]
        · rw [h] at g2; cases g2
      · intro h
        simp only at h
        rcases hnext with ⟨_, g⟩ | ⟨_, g⟩ <;> rw [g] at h <;> simp at h
      · intro h
        simp only at h
        rcases hnext with ⟨_, g⟩ | ⟨g1, _⟩
        · rw [h] at g; cases g
        · exact absurd g1 hdue.2
      · simp only
        rcases hnext with ⟨_, g⟩ | ⟨_, g⟩ <;> rw [g] <;> simp
  | done =>
    have e : tick cfg update stream disk p = (disk, p) := by simp only [tick, hph]
    rw [e]
    exact ⟨hd, hp⟩
  | failed => exact absurd hph hp.not_failed

/-- The invariant of the whole system. -/
def SysInv (cfg : LoopConfig) (sys : Sys S) : Prop :=
  DiskInv cfg sys.disk ∧ ∀ p, sys.proc = some p → ∃ off, ProcInv cfg sys.disk off p

theorem sysInv_reachable (cfg : LoopConfig) (hc : 0 < cfg.stepsPerCheckpoint) (he : 0 < cfg.evalEverySteps)
    (hs : 0 < cfg.stepsPerEval)
    (update : ℕ → S → B → S) (stream : ℕ → B) (init : TState S) (h0 : init.step = 0) (sys : Sys S)
    (h : Relation.ReflTransGen (SysStep cfg update stream init) ⟨[], none⟩ sys) : SysInv cfg sys := by
  induction h with
  | refl => exact ⟨⟨by simp, by simp, by simp⟩, by simp⟩
  | tail _ hstep ih =>
    cases hstep with
    | start disk =>
      refine ⟨ih.1, fun p hp => ?_⟩
      cases hp
      exact ⟨_, startProc_inv cfg init h0 disk ih.1⟩
    | tick disk p =>
      obtain ⟨off, hp⟩ := ih.2 p rfl
      have := tick_inv cfg hc he hs update stream disk off p ih.1 hp
      refine ⟨this.1, fun q hq => ?_⟩
      cases hq
      exact ⟨off, this.2⟩
    | crash disk p => exact ⟨ih.1, by simp⟩

/-! ### Runs without a crash -/

theorem ticks_inv (cfg : LoopConfig) (hc : 0 < cfg.stepsPerCheckpoint) (he : 0 < cfg.evalEverySteps)
    (hs : 0 < cfg.stepsPerEval) (update : ℕ → S → B → S) (stream : ℕ → B) (off : ℕ) :
    ∀ (n : ℕ) (disk : List (TState S)) (p : Proc S), DiskInv cfg disk → ProcInv cfg disk off p →
      DiskInv cfg (ticks cfg update stream n (disk, p)).1 ∧
        ProcInv cfg (ticks cfg update stream n (disk, p)).1 off (ticks cfg update stream n (disk, p)).2
  | 0, _, _, hd, hp => ⟨hd, hp⟩
  | n + 1, disk, p, hd, hp => by
    have := tick_inv cfg hc he hs update stream disk off p hd hp
    exact ticks_inv cfg hc he hs update stream off n _ _ this.1 this.2

/-- Number of phases still to do. -/
def remaining (cfg : LoopConfig) (p : Proc S) : ℕ :=
  match p.phase with
  | .train => 3 * (cfg.numSteps - p.step)
  | .eval => 3 * (cfg.numSteps - p.step) - 1
  | .save => 3 * (cfg.numSteps - p.step) - 2
  | .done => 0
  | .failed => 0

theorem remaining_nextPhase (cfg : LoopConfig) (p : Proc S) (n : ℕ) (h : n ≤ cfg.numSteps) :
    remaining cfg { p with phase := nextPhase cfg n, step := n } = 3 * (cfg.numSteps - n) := by
  rcases nextPhase_cases cfg n h with ⟨_, h2⟩ | ⟨h1, h2⟩
  · simp [remaining, h2]
  · simp only [remaining, h2]; omega

theorem remaining_tick (cfg : LoopConfig) (hc : 0 < cfg.stepsPerCheckpoint) (he : 0 < cfg.evalEverySteps)
    (hs : 0 < cfg.stepsPerEval) (update : ℕ → S → B → S) (stream : ℕ → B) (disk : List (TState S)) (off : ℕ)
    (p : Proc S) (hd : DiskInv cfg disk) (hp : ProcInv cfg disk off p) :
    remaining cfg (tick cfg update stream disk p).2 = remaining cfg p - 1 := by
  cases hph : p.phase with
  | train => simp [tick, hph, remaining]
  | eval =>
    have h1 := (hp.mid (Or.inl hph)).1
    simp only [tick, hph]
    rw [if_neg (by omega), if_neg (by omega)]
    simp only [remaining, hph]
    omega
  | save =>
    obtain ⟨h1, h2, h3, h4⟩ := hp.mid (Or.inr hph)
    have hle : latest disk ≤ p.step := by rw [h4]; exact Nat.div_mul_le_self _ _
    have hr : remaining cfg p = 3 * (cfg.numSteps - p.step) - 2 := by simp [remaining, hph]
    by_cases hdue : (p.step + 1) % cfg.stepsPerCheckpoint = 0 ∨ p.step + 1 = cfg.numSteps
    · obtain ⟨disk', s1, s2, s3, s4⟩ := save_inv cfg disk hd p.state (by omega)
        ⟨by omega, by omega, by rw [h2]; exact hdue⟩
      simp only [tick, hph]
      rw [if_neg (by omega), if_pos hdue, s1, remaining_nextPhase _ _ _ (by omega), hr]
      omega
    · simp only [tick, hph]
      rw [if_neg (by omega), if_neg hdue, remaining_nextPhase _ _ _ (by omega), hr]
      omega
  | done => simp [tick, hph, remaining]
  | failed => exact absurd hph hp.not_failed

theorem done_of_remaining (cfg : LoopConfig) (disk : List (TState S)) (off : ℕ) (p : Proc S)
    (hp : ProcInv cfg disk off p) (h : remaining cfg p = 0) : p.phase = .done := by
  cases hph : p.phase with
  | train => have := (hp.train hph).1; simp [remaining, hph] at h; omega
  | eval => have := (hp.mid (Or.inl hph)).1; simp [remaining, hph] at h; omega
  | save => have := (hp.mid (Or.inr hph)).1; simp [remaining, hph] at h; omega
  | done => rfl
  | failed => exact absurd hph hp.not_failed

theorem ticks_done (cfg : LoopConfig) (hc : 0 < cfg.stepsPerCheckpoint) (he : 0 < cfg.evalEverySteps)
    (hs : 0 < cfg.stepsPerEval) (update : ℕ → S → B → S) (stream : ℕ → B) (off : ℕ) :
    ∀ (n : ℕ) (disk : List (TState S)) (p : Proc S), DiskInv cfg disk → ProcInv cfg disk off p →
      remaining cfg p ≤ n → (ticks cfg update stream n (disk, p)).2.phase = .done
  | 0, disk, p, _, hp, h => done_of_remaining cfg disk off p hp (by omega)
  | n + 1, disk, p, hd, hp, h => by
    have hi := tick_inv cfg hc he hs update stream disk off p hd hp
    have hr := remaining_tick cfg hc he hs update stream disk off p hd hp
    have hle : remaining cfg (tick cfg update stream disk p).2 ≤ n := by omega
    exact ticks_done cfg hc he hs update stream off n _ _ hi.1 hi.2 hle

theorem ticks_reachable (cfg : LoopConfig) (update : ℕ → S → B → S) (stream : ℕ → B) (init : TState S) :
    ∀ (n : ℕ) (disk : List (TState S)) (p : Proc S),
      Relation.ReflTransGen (SysStep cfg update stream init) ⟨disk, some p⟩
        ⟨(ticks cfg update stream n (disk, p)).1, some (ticks cfg update stream n (disk, p)).2⟩
  | 0, _, _ => Relation.ReflTransGen.refl
  | n + 1, disk, p =>
    Relation.ReflTransGen.head (SysStep.tick disk p) (ticks_reachable cfg update stream init n _ _)

/-- The parameters are those of a given function of the step. -/
structure ParamInv (ideal : ℕ → S) (disk : List (TState S)) (p : Option (Proc S)) : Prop where
  disk : ∀ c ∈ disk, c.params = ideal c.step
  proc : ∀ q, p = some q → q.state.params = ideal q.state.step

theorem param_tick (cfg : LoopConfig) (update : ℕ → S → B → S) (stream : ℕ → B) (ideal : ℕ → S)
    (disk : List (TState S)) (p : Proc S) (h : ParamInv ideal disk (some p))
    (hstep : p.phase = .train → update p.state.step (ideal p.state.step) (stream p.drawn) = ideal (p.state.step + 1)) :
    ParamInv ideal (tick cfg update stream disk p).1 (some (tick cfg update stream disk p).2) := by
  have hp := h.proc p rfl
  cases hph : p.phase with
  | train =>
    simp only [tick, hph]
    refine ⟨h.disk, fun q hq => ?_⟩
    cases hq
    simp only [hp]
    exact hstep hph
  | eval =>
    simp only [tick, hph]
    split_ifs <;> refine ⟨h.disk, fun q hq => ?_⟩ <;> cases hq <;> exact hp
  | save =>
    simp only [tick, hph]
    split_ifs with h1 h2
    · refine ⟨h.disk, fun q hq => ?_⟩
      cases hq; exact hp
    · cases hs : saveCheckpoint disk p.state with
      | none =>
        refine ⟨h.disk, fun q hq => ?_⟩
        cases hq; exact hp
      | some disk' =>
        refine ⟨fun c hc => ?_, fun q hq => ?_⟩
        · unfold saveCheckpoint at hs
          cases disk with
          | nil =>
            cases hs
            rw [List.mem_singleton] at hc
            rw [hc]; exact hp
          | cons d ds =>
            simp only at hs
            split_ifs at hs
            cases hs
            rcases List.mem_cons.mp (List.mem_of_mem_take hc) with h | h'
            · rw [h]; exact hp
            · exact h.disk c h'
        · cases hq; exact hp
    · refine ⟨h.disk, fun q hq => ?_⟩
      cases hq; exact hp
  | done => simpa only [tick, hph] using h
  | failed => simpa only [tick, hph] using h

end Verif.Niles
