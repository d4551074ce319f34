import Verif.Prelude
import Verif.Model.InputPipeline

/-! Lemmas on windows, shuffling and batching. -/

namespace Verif.Niles

variable {α : Type*}

theorem everyNth_getElem? (step : ℕ) (hs : 1 ≤ step) : ∀ (l : List α) (k j : ℕ),
    (everyNth step k l)[j]? = l[k + j * step]?
  | [], k, j => by simp [everyNth]
  | x :: l, 0, 0 => by simp [everyNth]
  | x :: l, 0, j + 1 => by
      have := everyNth_getElem? step hs l (step - 1) j
      simp only [everyNth, List.getElem?_cons_succ]
      rw [this]
      have e : 0 + (j + 1) * step = (step - 1 + j * step) + 1 := by
        rw [Nat.add_mul, Nat.one_mul]; omega
      rw [e, List.getElem?_cons_succ]
  | x :: l, k + 1, j => by
      have := everyNth_getElem? step hs l k j
      simp only [everyNth]
      rw [this]
      have e : k + 1 + j * step = (k + j * step) + 1 := by omega
      rw [e, List.getElem?_cons_succ]

theorem pySlice_getElem? (arr : List α) (a b step : ℕ) (hs : 1 ≤ step) (j : ℕ) :
    (pySlice arr a b step)[j]? = if a + j * step < b then arr[a + j * step]? else none := by
  unfold pySlice
  rw [everyNth_getElem? step hs, List.getElem?_drop, List.getElem?_take, Nat.zero_add]

theorem pySlice_length (arr : List α) (a size step : ℕ) (hs : 1 ≤ step) (h : a + size ≤ arr.length) :
    (pySlice arr a (a + size) step).length = (size + step - 1) / step := by
  apply le_antisymm
  · by_contra hlt
    push Not at hlt
    have h1 : ((pySlice arr a (a + size) step)[(size + step - 1) / step]?).isSome := by
      rw [List.getElem?_eq_getElem hlt]; rfl
    rw [pySlice_getElem? _ _ _ _ hs] at h1
    have h2 : ¬ a + (size + step - 1) / step * step < a + size := by
      have := Nat.div_add_mod (size + step - 1) step
      have := Nat.mod_lt (size + step - 1) (show 0 < step by omega)
      have e : step * ((size + step - 1) / step) = (size + step - 1) / step * step := Nat.mul_comm _ _
      omega
    rw [if_neg h2] at h1
    simp at h1
  · by_contra hlt
    push Not at hlt
    set n := (pySlice arr a (a + size) step).length with hn
    have h1 : (pySlice arr a (a + size) step)[n]? = none := List.getElem?_eq_none (by omega)
    rw [pySlice_getElem? _ _ _ _ hs] at h1
    have h2 : n * step < size := by
      have := Nat.div_mul_le_self (size + step - 1) step
      have : (n + 1) * step ≤ (size + step - 1) / step * step := Nat.mul_le_mul_right _ hlt
      rw [Nat.add_mul, Nat.one_mul] at this
      omega
    rw [if_pos (by omega), List.getElem?_eq_getElem (by omega)] at h1
    cases h1

theorem windowLoop_eq (arr : List α) (size stride step : ℕ) (hz : 1 ≤ size) (hd : 1 ≤ stride) : ∀ (fuel i : ℕ),
    arr.length ≤ fuel + i →
    windowLoop arr size stride step fuel i =
      if i + size ≤ arr.length then
        (List.range ((arr.length - size - i) / stride + 1)).map
          (fun k => pySlice arr (i + k * stride) (i + k * stride + size) step)
      else []
  | 0, i, h => by
      rw [if_neg (by omega)]; rfl
  | fuel + 1, i, h => by
      unfold windowLoop
      by_cases h1 : i + size ≤ arr.length
      · rw [if_pos h1, if_pos (by omega), if_neg (by omega), windowLoop_eq arr size stride step hz hd fuel (i + stride)
          (by omega)]
        conv_rhs => rw [List.range_succ_eq_map, List.map_cons]
        congr 1
        · simp
        · by_cases h2 : i + stride + size ≤ arr.length
          · rw [if_pos h2, List.map_map]
            have e : (arr.length - size - i) / stride = (arr.length - size - (i + stride)) / stride + 1 := by
              have : arr.length - size - i = arr.length - size - (i + stride) + stride := by omega
              rw [this, Nat.add_div_right _ (by omega)]
            rw [e]
            apply List.map_congr_left
            intro k _
            have e2 : i + stride + k * stride = i + (k + 1) * stride := by ring
            simp [e2]
          · rw [if_neg h2]
            have e : (arr.length - size - i) / stride = 0 := Nat.div_eq_of_lt (by omega)
            rw [e]
            rfl
      · rw [if_neg h1]
        split
        · rw [if_pos (by omega)]
        · rfl

theorem windowed_eq (arr : List α) (size stride step : ℕ) (hz : 1 ≤ size) (hd : 1 ≤ stride) (hs : 1 ≤ step)
    (h : size ≤ arr.length) :
    windowed size stride step arr = .ok ((List.range ((arr.length - size) / stride + 1)).map
      (fun k => pySlice arr (k * stride) (k * stride + size) step)) := by
  unfold windowed
  have hw := windowLoop_eq arr size stride step hz hd arr.length 0 (by omega)
  rw [if_pos (by omega)] at hw
  simp only [Nat.sub_zero, Nat.zero_add] at hw
  rw [if_neg (by omega)]
  simp only [hw]
  rw [if_neg (by omega), if_neg]
  intro h
  have := congrArg List.length h
  simp at this

theorem windowed_short (arr : List α) (size stride step : ℕ) (hd : 1 ≤ stride) (h : arr.length < size) :
    windowed size stride step arr = .error .emptyStack := by
  unfold windowed
  have hw := windowLoop_eq arr size stride step (by omega) hd arr.length 0 (by omega)
  rw [if_neg (by omega)] at hw
  rw [if_neg (by omega)]
  simp [hw]

/-! ### Reading all shards -/

theorem readAll_eq (read : String → List α) (size stride step : ℕ) (hz : 1 ≤ size) (hd : 1 ≤ stride) (hs : 1 ≤ step) :
    ∀ (fs : List String), fs ≠ [] → (∀ f ∈ fs, size ≤ (read f).length) →
    readAll read size stride step fs = .ok (fs.flatMap (fun f =>
      (List.range (((read f).length - size) / stride + 1)).map
        (fun k => pySlice (read f) (k * stride) (k * stride + size) step)))
  | [], h, _ => absurd rfl h
  | [f], _, h => by
      simp only [readAll, List.flatMap_cons, List.flatMap_nil, List.append_nil]
      exact windowed_eq _ _ _ _ hz hd hs (h f (by simp))
  | f :: g :: fs, _, h => by
      have h1 := windowed_eq (read f) size stride step hz hd hs (h f (by simp))
      have h2 := readAll_eq read size stride step hz hd hs (g :: fs) (by simp)
        (fun x hx => h x (List.mem_cons_of_mem _ hx))
      rw [readAll, h1]
      · simp only
        rw [h2]
        simp only [List.flatMap_cons]
      · simp

/-! ### Shuffling and batching -/

theorem shuffleLoop_perm (rand : ℕ → ℕ) : ∀ (fuel k : ℕ) (buf input : List α), fuel = (buf ++ input).length →
    (input ≠ [] → buf ≠ []) → (shuffleLoop rand fuel k buf input).Perm (buf ++ input)
  | 0, k, buf, input, h, _ => by
      have h' : buf ++ input = [] := List.length_eq_zero_iff.mp h.symm
      rw [h']
      rfl
  | fuel + 1, k, buf, input, h, hb => by
      have hne : buf ≠ [] := by
        intro e
        cases input with
        | nil => rw [e] at h; simp at h
        | cons x l => exact hb (by simp) e
      have hr : rand k % buf.length < buf.length := Nat.mod_lt _ (List.length_pos_iff.mpr hne)
      have hp : (buf[rand k % buf.length] :: buf.eraseIdx (rand k % buf.length)).Perm buf :=
        List.getElem_cons_eraseIdx_perm hr
      unfold shuffleLoop
      rw [dif_neg hne]
      cases input with
      | nil =>
        have ih := shuffleLoop_perm rand fuel (k + 1) (buf.eraseIdx (rand k % buf.length)) []
          (by rw [List.append_nil, List.length_eraseIdx_of_lt hr]; simp at h; omega) (by simp)
        simp only [List.append_nil] at ih ⊢
        exact (ih.cons _).trans hp
      | cons x rest =>
        have ih := shuffleLoop_perm rand fuel (k + 1) (buf.eraseIdx (rand k % buf.length) ++ [x]) rest
          (by
            simp only [List.length_append, List.length_eraseIdx_of_lt hr, List.length_cons, List.length_nil] at h ⊢
            have := List.length_pos_iff.mpr hne
            omega) (by simp)
        simp only
        refine (ih.cons _).trans ?_
        rw [List.append_assoc, ← List.cons_append]
        exact hp.append_right _

theorem shuffle_perm (rand : ℕ → ℕ) (b : ℕ) (hb : 1 ≤ b) (ds : List α) : (shuffle rand b ds).Perm ds := by
  unfold shuffle
  have h := shuffleLoop_perm rand ds.length 0 (ds.take b) (ds.drop b) (by rw [List.take_append_drop]) (by
    intro h1 h2
    have : ds = [] := by
      cases ds with
      | nil => rfl
      | cons x l =>
        cases b with
        | zero => omega
        | succ b => simp at h2
    rw [this] at h1
    simp at h1)
  rwa [List.take_append_drop] at h

theorem chunks_flatten (n : ℕ) : ∀ (m : ℕ) (ds : List α), m * n ≤ ds.length →
    ((List.range m).map (fun i => (ds.drop (i * n)).take n)).flatten = ds.take (m * n)
  | 0, ds, _ => by simp
  | m + 1, ds, h => by
      have h' : m * n ≤ (ds.drop n).length := by rw [List.length_drop]; rw [Nat.add_mul] at h; omega
      have ih := chunks_flatten n m (ds.drop n) h'
      rw [List.range_succ_eq_map, List.map_cons, List.map_map, List.flatten_cons]
      have e : (fun i => (ds.drop (i * n)).take n) ∘ Nat.succ = fun i => ((ds.drop n).drop (i * n)).take n := by
        funext i
        simp only [Function.comp, Nat.succ_eq_add_one, List.drop_drop]
        congr 2
        ring
      rw [e, ih]
      simp only [Nat.zero_mul, List.drop_zero]
      rw [Nat.add_mul, Nat.one_mul, Nat.add_comm (m * n) n, List.take_add]

theorem chunks_length (n m : ℕ) (ds : List α) (h : m * n ≤ ds.length) :
    ∀ b ∈ (List.range m).map (fun i => (ds.drop (i * n)).take n), b.length = n := by
  intro b hb
  obtain ⟨i, hi, rfl⟩ := List.mem_map.mp hb
  rw [List.mem_range] at hi
  have : (i + 1) * n ≤ m * n := Nat.mul_le_mul_right _ hi
  rw [Nat.add_mul, Nat.one_mul] at this
  rw [List.length_take, List.length_drop]
  omega

end Verif.Niles
