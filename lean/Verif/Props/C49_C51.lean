import Verif.Lemmas.InputPipeline

/-!
# C49, C50, C51, C65: windows, counts, process slices, epochs

`C49_windows`, `C49_short`: the windows of a shard. `C50_partial`: in debug mode the advertised number of examples is the
number of windows built. `C50_violated`: without debug mode it is too large whenever the window size is at least two
strides; windows that cross shard boundaries are counted but never built. `C50_loses`: with a stride larger than the size it can be too small, and examples are dropped.
`C51_slices`, `C51_files`: process slices and shard files. `C65_epoch`, `C65_devices`: one pass over the data.
-/

namespace Verif.Niles

variable {α : Type*}

/-- Every window is full and strided; the number of windows. -/
theorem C49_windows (arr : List α) (size stride step : ℕ) (hz : 1 ≤ size) (hd : 1 ≤ stride) (hs : 1 ≤ step)
    (h : size ≤ arr.length) :
    ∃ ws, windowed size stride step arr = .ok ws ∧ ws.length = (arr.length - size) / stride + 1 ∧
      ∀ (k : ℕ) (hk : k < ws.length), ws[k].length = (size + step - 1) / step ∧
        ∀ (j : ℕ), j < (size + step - 1) / step →
          k * stride + j * step < k * stride + size ∧ ws[k][j]? = arr[k * stride + j * step]? ∧
            k * stride + j * step < arr.length := by
  refine ⟨_, windowed_eq arr size stride step hz hd hs h, by simp, ?_⟩
  intro k hk
  simp only [List.length_map, List.length_range] at hk
  have hb : k * stride + size ≤ arr.length := by
    have h1 : k ≤ (arr.length - size) / stride := by omega
    have h2 := Nat.mul_le_mul_right stride h1
    have h3 := Nat.div_mul_le_self (arr.length - size) stride
    omega
  simp only [List.getElem_map, List.getElem_range]
  refine ⟨pySlice_length arr _ size step hs hb, ?_⟩
  intro j hj
  have hlt : k * stride + j * step < k * stride + size := by
    have h1 : (j + 1) * step ≤ (size + step - 1) / step * step := Nat.mul_le_mul_right _ hj
    have h2 := Nat.div_mul_le_self (size + step - 1) step
    rw [Nat.add_mul, Nat.one_mul] at h1
    omega
  refine ⟨hlt, ?_, by omega⟩
  rw [pySlice_getElem? _ _ _ _ hs, if_pos hlt]

/-- A shard shorter than a window is rejected. -/
theorem C49_short (arr : List α) (size stride step : ℕ) (hd : 1 ≤ stride) (h : arr.length < size) :
    windowed size stride step arr = .error .emptyStack :=
  windowed_short arr size stride step hd h

example : windowed 3 2 2 [10, 11, 12, 13, 14, 15] = .ok [[10, 12], [12, 14]] := by decide
example : windowed 3 2 2 [10, 11] = .error .emptyStack := by decide

/-! ### C50 -/

/-- The number of windows built from shards of 6400 snapshots. -/
theorem C50_built (read : String → List α) (split : Split) (size stride step : ℕ) (debug : Bool)
    (hz : 1 ≤ size) (hd : 1 ≤ stride) (hs : 1 ≤ step) (h6400 : ∀ f, (read f).length = 6400) (hsize : size ≤ 6400) :
    ∃ ws, readAll read size stride step (shardFiles split debug) = .ok ws ∧
      ws.length = (if debug then 1 else if split = .train then 24 else 4) * ((6400 - size) / stride + 1) := by
  have hne : shardFiles split debug ≠ [] := by cases split <;> cases debug <;> simp [shardFiles, shardIds]
  refine ⟨_, readAll_eq read size stride step hz hd hs _ hne (fun f _ => by rw [h6400]; exact hsize), ?_⟩
  rw [List.length_flatMap]
  simp only [List.length_map, List.length_range, h6400]
  rw [List.map_const', List.sum_replicate]
  have : (shardFiles split debug).length = if debug then 1 else if split = .train then 24 else 4 := by
    cases split <;> cases debug <;> simp [shardFiles, shardIds]
  rw [this, smul_eq_mul]

/-- In debug mode the advertised number is the number built. -/
theorem C50_partial (read : String → List α) (split : Split) (size stride step : ℕ)
    (hz : 1 ≤ size) (hd : 1 ≤ stride) (hs : 1 ≤ step) (h6400 : ∀ f, (read f).length = 6400) (hsize : size ≤ 6400) :
    ∃ ws, readAll read size stride step (shardFiles split true) = .ok ws ∧
      (ws.length : ℤ) = getNumExamples split size stride true := by
  obtain ⟨ws, h1, h2⟩ := C50_built read split size stride step true hz hd hs h6400 hsize
  refine ⟨ws, h1, ?_⟩
  rw [h2]
  have : ((6400 - size : ℕ) : ℤ) = 6400 - size := by omega
  cases split <;> simp [getNumExamples, numSplitExamples, this]

/-- Without debug mode, for every window size of at least two strides, the advertised number exceeds the number of
windows built. -/
theorem C50_violated (read : String → List α) (split : Split) (size stride step : ℕ)
    (hd : 1 ≤ stride) (hs : 1 ≤ step) (h6400 : ∀ f, (read f).length = 6400) (hsize : size ≤ 6400)
    (hbig : 2 * stride ≤ size) :
    ∃ ws, readAll read size stride step (shardFiles split false) = .ok ws ∧
      (ws.length : ℤ) < getNumExamples split size stride false := by
  obtain ⟨ws, h1, h2⟩ := C50_built read split size stride step false (by omega) hd hs h6400 hsize
  refine ⟨ws, h1, ?_⟩
  have key : ∀ n : ℕ, 2 ≤ n → n * ((6400 - size) / stride + 1) < (6400 * n - size) / stride + 1 := by
    intro n hn
    rw [Nat.lt_succ_iff, Nat.le_div_iff_mul_le (by omega)]
    have h3 := Nat.div_mul_le_self (6400 - size) stride
    obtain ⟨m, rfl⟩ : ∃ m, n = m + 2 := ⟨n - 2, by omega⟩
    have h4 : ((6400 - size) / stride + 1) * stride ≤ 6400 - size + stride := by
      rw [Nat.add_mul, Nat.one_mul]; omega
    have h5 : (m + 2) * ((6400 - size) / stride + 1) * stride ≤ (m + 2) * (6400 - size + stride) := by
      rw [Nat.mul_assoc]
      exact Nat.mul_le_mul_left _ h4
    refine h5.trans ?_
    obtain ⟨r, hr⟩ : ∃ r, 6400 = size + r := ⟨6400 - size, by omega⟩
    obtain ⟨e, he⟩ : ∃ e, size = 2 * stride + e := ⟨size - 2 * stride, by omega⟩
    have e1 : 6400 - size = r := by omega
    rw [e1]
    have e2 : 6400 * (m + 2) - size = (m + 1) * size + (m + 2) * r := by
      rw [hr]
      have : (size + r) * (m + 2) = (m + 1) * size + (m + 2) * r + size := by ring
      omega
    rw [e2, Nat.mul_add]
    have : (m + 2) * stride ≤ (m + 1) * size := by
      rw [he]
      nlinarith
    omega
  rw [h2]
  cases split with
  | train =>
    have k := key 24 (by omega)
    have : getNumExamples .train size stride false = (((6400 * 24 - size) / stride + 1 : ℕ) : ℤ) := by
      have e : ((6400 * 24 - size : ℕ) : ℤ) = 6400 * 24 - size := by omega
      simp [getNumExamples, numSplitExamples, e]
    rw [this]
    exact_mod_cast k
  | validation =>
    have k := key 4 (by omega)
    have : getNumExamples .validation size stride false = (((6400 * 4 - size) / stride + 1 : ℕ) : ℤ) := by
      have e : ((6400 * 4 - size : ℕ) : ℤ) = 6400 * 4 - size := by omega
      simp [getNumExamples, numSplitExamples, e]
    rw [this]
    exact_mod_cast k

/-- With the settings of the configuration file (config/niles.py 81-84) the advertised and built numbers are 153590 and
153360 for training, 6369 and 6276 for validation; with size 1 and stride 3 they are 51200 and 51216. -/
theorem C50_loses (read : String → List α) (h6400 : ∀ f, (read f).length = 6400) :
    (∃ ws, readAll read 11 1 1 (shardFiles .train false) = .ok ws ∧ ws.length = 153360 ∧
      getNumExamples .train 11 1 false = 153590) ∧
    (∃ ws, readAll read 128 4 1 (shardFiles .validation false) = .ok ws ∧ ws.length = 6276 ∧
      getNumExamples .validation 128 4 false = 6369) ∧
    (∃ ws, readAll read 1 3 1 (shardFiles .train false) = .ok ws ∧ ws.length = 51216 ∧
      getNumExamples .train 1 3 false = 51200) := by
  refine ⟨?_, ?_, ?_⟩
  · obtain ⟨ws, h1, h2⟩ := C50_built read .train 11 1 1 false (by omega) (by omega) (by omega) h6400 (by omega)
    exact ⟨ws, h1, by simpa using h2, by decide⟩
  · obtain ⟨ws, h1, h2⟩ := C50_built read .validation 128 4 1 false (by omega) (by omega) (by omega) h6400 (by omega)
    exact ⟨ws, h1, by simpa using h2, by decide⟩
  · obtain ⟨ws, h1, h2⟩ := C50_built read .train 1 3 1 false (by omega) (by omega) (by omega) h6400 (by omega)
    exact ⟨ws, h1, by simpa using h2, by decide⟩

example : ∃ read : String → List ℕ, ∀ f, (read f).length = 6400 := ⟨fun _ => List.range 6400, fun _ => by simp⟩

/-! ### C51 -/

/-- When the call succeeds on every process, the slices in order of the process index are the first `num_examples`
windows, each once; so different processes hold disjoint sets of positions. -/
theorem C51_slices (read : String → List α) (split : Split) (size stride step : ℕ) (debug : Bool) (P : ℕ) (hP : 1 ≤ P)
    (s : ℕ → List (List α)) (hs : ∀ i < P, createSplit read split size stride step debug P i = .ok (s i)) :
    ∃ ws, readAll read size stride step (shardFiles split debug) = .ok ws ∧
      ((List.range P).map s).flatten = ws.take (getNumExamples split size stride debug).toNat := by
  have h0 := hs 0 hP
  unfold createSplit at h0
  cases hr : readAll read size stride step (shardFiles split debug) with
  | error e => rw [hr] at h0; cases h0
  | ok ws =>
    refine ⟨ws, rfl, ?_⟩
    set num := getNumExamples split size stride debug with hnum
    have hdiv : num % (P : ℤ) = 0 := by
      rw [hr] at h0
      simp only [← hnum] at h0
      by_contra hne
      rw [if_pos hne] at h0
      cases h0
    have hsi : ∀ i < P, s i = (ws.drop (i * (num / P).toNat)).take (num / P).toNat := by
      intro i hi
      have := hs i hi
      unfold createSplit at this
      rw [hr] at this
      simp only [← hnum] at this
      rw [if_neg (by simpa using hdiv)] at this
      injection this with h
      exact h.symm
    have hmap : (List.range P).map s = (List.range P).map
        (fun i => (ws.drop (i * (num / P).toNat)).take (num / P).toNat) :=
      List.map_congr_left (fun i hi => hsi i (List.mem_range.mp hi))
    have hmul : num.toNat = P * (num / P).toNat := by
      have h1 : num = P * (num / P) := by
        have := Int.mul_ediv_add_emod num P
        omega
      rcases le_or_gt 0 num with h | h
      · have h2 : 0 ≤ num / P := Int.ediv_nonneg h (by omega)
        have h3 : ((num / P).toNat : ℤ) = num / P := Int.toNat_of_nonneg h2
        have h4 : (num.toNat : ℤ) = num := Int.toNat_of_nonneg h
        have : (num.toNat : ℤ) = (P * (num / P).toNat : ℕ) := by
          push_cast
          rw [h3, h4]
          exact h1
        exact_mod_cast this
      · have h2 : num / P < 0 := Int.ediv_neg_of_neg_of_pos h (by omega)
        rw [Int.toNat_of_nonpos h.le, Int.toNat_of_nonpos h2.le]
        simp
    rw [hmap, hmul]
    have gen : ∀ (n m : ℕ) (ds : List (List α)), ((List.range m).map (fun i => (ds.drop (i * n)).take n)).flatten =
        ds.take (m * n) := by
      intro n m
      induction m with
      | zero => intro ds; simp
      | succ m ih =>
        intro ds
        rw [List.range_succ_eq_map, List.map_cons, List.map_map, List.flatten_cons]
        have e : (fun i => (ds.drop (i * n)).take n) ∘ Nat.succ = fun i => ((ds.drop n).drop (i * n)).take n := by
          funext i
          simp only [Function.comp, Nat.succ_eq_add_one, List.drop_drop]
          congr 2
          ring
        rw [e, ih]
        simp only [Nat.zero_mul, List.drop_zero]
        rw [Nat.add_mul, Nat.one_mul, Nat.add_comm (m * n) n, List.take_add]
    exact gen _ _ _

/-- The call succeeds on one process exactly when it succeeds on all. -/
theorem C51_agree (read : String → List α) (split : Split) (size stride step : ℕ) (debug : Bool) (P i j : ℕ) :
    (∃ s, createSplit read split size stride step debug P i = .ok s) ↔
      ∃ s, createSplit read split size stride step debug P j = .ok s := by
  unfold createSplit
  cases readAll read size stride step (shardFiles split debug) with
  | error e => simp
  | ok ws =>
    simp only
    split <;> simp

/-- No shard file is in both splits, and no split lists a file twice. -/
theorem C51_files (debug debug' : Bool) :
    List.Disjoint (shardFiles .train debug) (shardFiles .validation debug') ∧
      (shardFiles .train debug).Nodup ∧ (shardFiles .validation debug').Nodup := by
  have h : ∀ d d' : Bool, (∀ f ∈ shardFiles .train d, f ∉ shardFiles .validation d') ∧
      (shardFiles .train d).Nodup ∧ (shardFiles .validation d').Nodup := by decide +kernel
  exact ⟨fun f h1 h2 => (h debug debug').1 f h1 h2, (h debug debug').2⟩

example : ∃ s : ℕ → List (List ℕ), ∀ i < 3,
    createSplit (fun _ => List.range 6400) .train 11 1 1 true 3 i = .ok (s i) := by
  obtain ⟨ws, h1, _⟩ := C50_partial (fun _ => List.range 6400) .train 11 1 1 (by omega) (by omega) (by omega)
    (by simp) (by omega)
  refine ⟨fun i => (ws.drop (i * 2130)).take 2130, fun i _ => ?_⟩
  unfold createSplit
  rw [h1]
  have : getNumExamples .train (11 : ℕ) (1 : ℕ) true = 6390 := by decide
  simp only [this]
  rw [if_neg (by decide)]
  rfl

/-! ### C65 -/

/-- One epoch, for every sequence of random numbers: all batches are full; their concatenation is the beginning of a
rearrangement of the data, so no example appears twice and fewer than `batchSize` are left out. -/
theorem C65_epoch (rand : ℕ → ℕ → ℕ) (batchSize : ℕ) (hb : 1 ≤ batchSize) (ds : List α) (e : ℕ) :
    (∀ b ∈ epoch rand batchSize ds e, b.length = batchSize) ∧
      (epoch rand batchSize ds e).length = ds.length / batchSize ∧
      ∃ rest : List α, ((epoch rand batchSize ds e).flatten ++ rest).Perm ds ∧ rest.length < batchSize := by
  have hp := shuffle_perm (rand e) (8 * batchSize) (by omega) ds
  have hl := hp.length_eq
  have hle : (shuffle (rand e) (8 * batchSize) ds).length / batchSize * batchSize ≤
      (shuffle (rand e) (8 * batchSize) ds).length := Nat.div_mul_le_self _ _
  refine ⟨chunks_length batchSize _ _ hle, by simp [epoch, batches, hl], ?_⟩
  refine ⟨(shuffle (rand e) (8 * batchSize) ds).drop (ds.length / batchSize * batchSize), ?_, ?_⟩
  · unfold epoch batches
    rw [chunks_flatten batchSize _ _ hle, hl, List.take_append_drop]
    exact hp
  · rw [List.length_drop, hl]
    have := Nat.div_add_mod ds.length batchSize
    have := Nat.mod_lt ds.length (show 0 < batchSize by omega)
    have : batchSize * (ds.length / batchSize) = ds.length / batchSize * batchSize := Nat.mul_comm _ _
    omega

/-- The examples of a host batch are divided over the devices in order, equally, each exactly once; this succeeds exactly
for a positive number of devices that divides the batch. -/
theorem C65_devices (devices : ℕ) (batch : List α) :
    (∀ parts, toDevices devices batch = some parts → parts.length = devices ∧ parts.flatten = batch ∧
      ∀ p ∈ parts, p.length = batch.length / devices) ∧
    ((∃ parts, toDevices devices batch = some parts) ↔ 0 < devices ∧ devices ∣ batch.length) := by
  constructor
  · intro parts h
    unfold toDevices at h
    split at h
    · cases h
    · rename_i hc
      push Not at hc
      have hm : devices * (batch.length / devices) = batch.length :=
        Nat.mul_div_cancel' (Nat.dvd_of_mod_eq_zero hc.2)
      cases h
      refine ⟨by simp, ?_, chunks_length _ _ _ hm.le⟩
      rw [chunks_flatten _ _ _ hm.le, hm, List.take_length]
  · unfold toDevices
    constructor
    · rintro ⟨parts, h⟩
      split at h
      · cases h
      · rename_i hc
        push Not at hc
        exact ⟨by omega, Nat.dvd_of_mod_eq_zero hc.2⟩
    · rintro ⟨h1, h2⟩
      rw [if_neg]
      · exact ⟨_, rfl⟩
      · push Not
        exact ⟨by omega, Nat.mod_eq_zero_of_dvd h2⟩

example : epoch (fun e k => e + 3 * k) 2 [1, 2, 3, 4, 5] 1 = [[2, 1], [4, 3]] := by decide +kernel

end Verif.Niles
