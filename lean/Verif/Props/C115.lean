import Verif.Model.TrainLog
import Verif.Model.Train
import Mathlib.Tactic.FieldSimp
import Mathlib.Tactic.Linarith
import Mathlib.Algebra.Order.Field.Basic
import Mathlib.Algebra.BigOperators.Intervals
import Mathlib.Algebra.CharZero.Defs

/-!
# C115: training summaries describe the steps since the last summary
-/

namespace Verif.Niles

variable {K : Type*} [Field K]

/-- What a summary of the steps `lo`, ..., `hi - 1` should contain, when they took the time `elapsed`. -/
def Summarises (metric : ℕ → K) (lo hi : ℕ) (elapsed : K) (e : LogEntry K) : Prop :=
  e.step = hi ∧ e.mean = (∑ i ∈ Finset.Ico lo hi, metric i) / (hi - lo : ℕ) ∧ e.stepsPerSecond = (hi - lo : ℕ) / elapsed

/-- The first step of the `k`-th summary of a process: the start of the process or a multiple of `every`. -/
def firstStep (every offset k : ℕ) : ℕ := max offset ((offset / every + k) * every)

/-- The time from which the `k`-th summary counts. -/
def countsFrom (every : ℕ) (after : ℕ → K) (start : K) (offset k : ℕ) : K :=
  if k = 0 then start else after ((offset / every + k) * every - 1)

/-- Mean and time of the `k`-th summary. -/
def nthEntry (every : ℕ) (metric now after : ℕ → K) (start : K) (offset k : ℕ) : LogEntry K :=
  ⟨(offset / every + k + 1) * every,
    (∑ i ∈ Finset.Ico (firstStep every offset k) ((offset / every + k + 1) * every), metric i) /
      ((offset / every + k + 1) * every - firstStep every offset k : ℕ),
    every / (now ((offset / every + k + 1) * every - 1) - countsFrom every after start offset k)⟩

theorem sum_map_Ico (f : ℕ → K) (lo n : ℕ) : ((List.range' lo n).map f).sum = ∑ i ∈ Finset.Ico lo (lo + n), f i := by
  induction n with
  | zero => simp
  | succ n ih =>
    rw [List.range'_concat, List.map_append, List.sum_append, ih, ← Nat.add_assoc, Finset.sum_Ico_succ_top (by omega)]
    simp

/-- The state of the logging after `n` steps. -/
theorem logRun_eq {every : ℕ} (h : 0 < every) (metric now after : ℕ → K) (start : K) (offset n : ℕ) :
    let k := (offset + n) / every - offset / every
    logRun every metric now after start offset n =
      ⟨(List.range' (firstStep every offset k) (offset + n - firstStep every offset k)).map metric, countsFrom every after start offset k,
        (List.range k).map (nthEntry every metric now after start offset)⟩ := by
  induction n with
  | zero =>
    have h1 : offset / every * every ≤ offset := Nat.div_mul_le_self _ _
    simp [logRun, firstStep, countsFrom, h1]
  | succ n ih =>
    obtain ⟨k, hk⟩ : ∃ k, k = (offset + n) / every - offset / every := ⟨_, rfl⟩
    dsimp only at ih ⊢
    rw [← hk] at ih
    have hmono : offset / every ≤ (offset + n) / every := Nat.div_le_div_right (by omega)
    have hq : offset / every + k = (offset + n) / every := by omega
    have hle : (offset / every + k) * every ≤ offset + n := by rw [hq]; exact Nat.div_mul_le_self _ _
    have hlt : offset + n < (offset / every + k + 1) * every := by
      rw [hq]
      have := Nat.lt_div_mul_add (a := offset + n) h
      linarith
    have hfirst : firstStep every offset k ≤ offset + n := max_le (by omega) hle
    rw [logRun, ih, logStep, if_neg h.ne']
    have happ : (List.range' (firstStep every offset k) (offset + n - firstStep every offset k)).map metric ++ [metric (offset + n)] =
        (List.range' (firstStep every offset k) (offset + n + 1 - firstStep every offset k)).map metric := by
      rw [show offset + n + 1 - firstStep every offset k = (offset + n - firstStep every offset k) + 1 by omega, List.range'_concat,
        List.map_append, Nat.one_mul, Nat.add_sub_cancel' hfirst]
      rfl
    dsimp only
    rw [happ]
    by_cases hdvd : (offset + n + 1) % every = 0
    · obtain ⟨q, hqq⟩ := Nat.dvd_of_mod_eq_zero hdvd
      have hend : offset + n + 1 = (offset / every + k + 1) * every := by
        have h1 : (offset / every + k) * every < every * q := by omega
        have h2 : every * q ≤ (offset / every + k + 1) * every := by omega
        have h3 : offset / every + k < q := by
          by_contra hc
          have := Nat.mul_le_mul_right every (not_lt.mp hc)
          linarith [Nat.mul_comm every q]
        have h4 := Nat.mul_le_mul_right every (Nat.succ_le_of_lt h3)
        have : every * q = q * every := Nat.mul_comm _ _
        simp only [Nat.succ_eq_add_one] at h4
        omega
      have hk' : (offset + (n + 1)) / every - offset / every = k + 1 := by
        rw [show offset + (n + 1) = (offset / every + k + 1) * every by omega, Nat.mul_div_cancel _ h]
        omega
      rw [if_pos hdvd, hk']
      have hf : firstStep every offset (k + 1) = offset + n + 1 := by
        unfold firstStep
        rw [← Nat.add_assoc, ← hend]
        omega
      rw [hf, List.range_succ, List.map_append]
      have hpred : (offset / every + k + 1) * every - 1 = offset + n := by omega
      congr 1
      · rw [show offset + (n + 1) - (offset + n + 1) = 0 by omega]
        rfl
      · simp [countsFrom, ← Nat.add_assoc, hpred]
      · simp only [List.map_cons, List.map_nil, nthEntry, ← hend, Nat.add_sub_cancel]
        rw [sum_map_Ico, List.length_map, List.length_range', Nat.add_sub_cancel' (by omega)]
    · have hk' : (offset + (n + 1)) / every - offset / every = k := by
        have hne : offset + n + 1 ≠ (offset / every + k + 1) * every := fun he => hdvd (by rw [he, Nat.mul_mod_left])
        have : (offset + (n + 1)) / every = offset / every + k := by
          rw [Nat.div_eq_iff h]
          constructor
          · omega
          · have : (offset / every + k + 1) * every = (offset / every + k) * every + every := by ring
            omega
        omega
      rw [if_neg hdvd, hk']
      rfl

/-- The summaries of a process, in the order in which they are written. -/
theorem logRun_written {every : ℕ} (h : 0 < every) (metric now after : ℕ → K) (start : K) (offset n : ℕ) :
    (logRun every metric now after start offset n).written =
      (List.range ((offset + n) / every - offset / every)).map (nthEntry every metric now after start offset) := by
  rw [logRun_eq h]

/-- **C115 (partial).** A process that starts at a multiple of `log_every_steps`, for example at 0: after `n` steps it has written
`n / log_every_steps` summaries, and the `k`-th one describes the `log_every_steps` steps since the one before, mean and rate. The
other `n % log_every_steps` steps are in no summary. Missing: processes that resume elsewhere (`C115_violated`). -/
theorem C115_partial {every : ℕ} (h : 0 < every) (metric now after : ℕ → K) (start : K) {offset : ℕ} (ho : every ∣ offset) (n : ℕ) :
    (logRun every metric now after start offset n).written.length = n / every ∧
    ∀ k (hk : k < (logRun every metric now after start offset n).written.length),
      Summarises metric (offset + k * every) (offset + (k + 1) * every)
        (now (offset + (k + 1) * every - 1) - if k = 0 then start else after (offset + k * every - 1))
        ((logRun every metric now after start offset n).written[k]) := by
  obtain ⟨q, rfl⟩ := ho
  have hq : every * q / every = q := Nat.mul_div_cancel_left _ h
  constructor
  · rw [logRun_written h, List.length_map, List.length_range, hq, Nat.add_comm, Nat.add_mul_div_left _ _ h, Nat.add_sub_cancel]
  · intro k hk
    simp only [logRun_written h, List.getElem_map, List.getElem_range]
    have e1 : ∀ j, (q + j) * every = every * q + j * every := fun j => by ring
    have e2 : firstStep every (every * q) k = every * q + k * every := by
      unfold firstStep
      rw [hq, e1]
      omega
    have e3 : every * q + (k + 1) * every - (every * q + k * every) = every := by
      have : (k + 1) * every = k * every + every := by ring
      omega
    refine ⟨?_, ?_, ?_⟩
    · simp only [nthEntry, hq, Nat.add_assoc, e1]
    · simp only [nthEntry, e2, hq, Nat.add_assoc q k 1, e1]
    · simp only [nthEntry, countsFrom, hq, Nat.add_assoc q k 1, e1, e3]

/-- The means are right wherever the process starts: each summary averages the steps since the one before, or since the start. -/
theorem C115_mean {every : ℕ} (h : 0 < every) (metric now after : ℕ → K) (start : K) (offset n k : ℕ)
    (hk : k < (logRun every metric now after start offset n).written.length) :
    ∃ lo, lo = (if k = 0 then offset else (offset / every + k) * every) ∧
      ((logRun every metric now after start offset n).written[k]).step = (offset / every + k + 1) * every ∧
      ((logRun every metric now after start offset n).written[k]).mean =
        (∑ i ∈ Finset.Ico lo ((offset / every + k + 1) * every), metric i) / ((offset / every + k + 1) * every - lo : ℕ) := by
  refine ⟨_, rfl, ?_⟩
  simp only [logRun_written h, List.getElem_map, List.getElem_range, nthEntry]
  have e : firstStep every offset k = if k = 0 then offset else (offset / every + k) * every := by
    unfold firstStep
    split_ifs with hk0
    · subst hk0
      exact max_eq_left (by simpa using Nat.div_mul_le_self offset every)
    · refine max_eq_right ?_
      have h1 := Nat.lt_div_mul_add (a := offset) h
      have h2 : (offset / every + 1) * every ≤ (offset / every + k) * every := Nat.mul_le_mul_right _ (by omega)
      have h3 : (offset / every + 1) * every = offset / every * every + every := by ring
      omega
  rw [e]
  exact ⟨trivial, rfl⟩

/-- **C115 (violated).** A process that resumes between two multiples of `log_every_steps` and reaches the next one: its first
summary gives the rate of `log_every_steps` steps although fewer were executed. -/
theorem C115_violated [CharZero K] {every : ℕ} (h : 0 < every) (metric now after : ℕ → K) (start : K) {offset n : ℕ} (ho : ¬ every ∣ offset)
    (hn : (offset / every + 1) * every ≤ offset + n) (ht : now ((offset / every + 1) * every - 1) ≠ start) :
    ∃ e es, (logRun every metric now after start offset n).written = e :: es ∧ e.step = (offset / every + 1) * every ∧
      e.step - offset < every ∧ e.stepsPerSecond = every / (now (e.step - 1) - start) ∧
      e.stepsPerSecond ≠ (e.step - offset : ℕ) / (now (e.step - 1) - start) := by
  obtain ⟨m, hm⟩ : ∃ m, (offset + n) / every - offset / every = m + 1 := by
    have h1 : offset / every + 1 ≤ (offset + n) / every := (Nat.le_div_iff_mul_le h).mpr hn
    exact ⟨(offset + n) / every - offset / every - 1, by omega⟩
  have hw := logRun_written h metric now after start offset n
  rw [hm, List.range_succ_eq_map, List.map_cons] at hw
  have hmod : 0 < offset % every := Nat.pos_of_ne_zero fun hz => ho (Nat.dvd_of_mod_eq_zero hz)
  have hdiv := Nat.div_add_mod' offset every
  have hlt : (offset / every + 1) * every - offset < every := by
    have : (offset / every + 1) * every = offset / every * every + every := by ring
    omega
  refine ⟨_, _, hw, rfl, hlt, rfl, ?_⟩
  have hd : now ((offset / every + 1) * every - 1) - start ≠ 0 := sub_ne_zero.mpr ht
  change (every : K) / (now ((offset / every + 1) * every - 1) - start) ≠
    (((offset / every + 1) * every - offset : ℕ) : K) / (now ((offset / every + 1) * every - 1) - start)
  rw [Ne, div_left_inj' hd, Nat.cast_inj]
  omega

/-- **C115 (violated), with the default configuration:** the first checkpoint is written after 1199 steps; a process that resumes
from it writes its first summary, at 1200, after a single step, with 100 times the rate of this step. -/
theorem C115_default [CharZero K] (metric now after : ℕ → K) (start : K) {n : ℕ} (hn : 0 < n) (ht : now 1199 ≠ start) :
    (⟨128, 11, 1, false, -1, 15, 1, 1 / 10, -1⟩ : TrainConfig).loop.stepsPerCheckpoint = 1199 ∧
    ∃ e es, (logRun 100 metric now after start 1199 n).written = e :: es ∧ e.step = 1199 + 1 ∧
      e.mean = metric 1199 ∧ e.stepsPerSecond = 100 * (1 / (now 1199 - start)) ∧ e.stepsPerSecond ≠ 1 / (now 1199 - start) := by
  refine ⟨by decide +kernel, ?_⟩
  obtain ⟨e, es, h1, h2, _, h4, h5⟩ := C115_violated (every := 100) (by norm_num) metric now after start (offset := 1199) (n := n)
    (by norm_num) (by norm_num; omega) ht
  have h6 := C115_mean (every := 100) (by norm_num) metric now after start 1199 n 0 (by rw [h1]; simp)
  obtain ⟨lo, hlo, _, hmean⟩ := h6
  have h7 : e.step = 1200 := by rw [h2]
  simp only [h1, List.getElem_cons_zero] at hmean
  rw [h7] at h4 h5
  refine ⟨e, es, h1, h7, ?_, ?_, ?_⟩
  · rw [hmean, hlo]
    norm_num
  · rw [h4]
    push_cast
    ring
  · simpa using h5

/-- The hypotheses of `C115_partial` and `C115_default` hold for a clock that runs. -/
example : (0 : ℕ) < 100 ∧ 100 ∣ 0 ∧ (fun s : ℕ => (s : ℚ)) 1199 ≠ 0 := by norm_num

end Verif.Niles
