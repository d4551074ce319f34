import Verif.Model.Network
import Mathlib.Algebra.Order.BigOperators.Group.Finset
import Mathlib.Algebra.BigOperators.Field
import Mathlib.Tactic.Linarith
import Mathlib.Tactic.Positivity
import Mathlib.Tactic.FieldSimp
import Mathlib.Tactic.NormNum

/-!
# C150: pooling and attention average

Claim: every value that the attention of niles/transformer.py returns for a head is an average of the values of the keys, so it
lies between their minimum and maximum; a token pooled with `'avg'` is the mean, and one pooled with `'max'` the maximum, of the
tokens in its window; in particular tokens that are all equal stay as they are.

This is false for `'avg'`: tokens beyond the ends of the sequence count as zeros, so the values near the ends are too small.
Whenever the window is longer than the stride, as in the configuration, the last token is affected (`C150_violated`). Tokens
whose windows lie inside the sequence are the means (`C150_mean_partial`).
-/

namespace Verif.Niles

open Finset

private theorem sum_filter_range (n : ℕ) (p : ℕ → Prop) [DecidablePred p] (f : ℕ → ℝ) :
    (((List.range n).filter fun j => p j).map f).sum = ∑ j ∈ (range n).filter p, f j := by
  induction n with
  | zero => simp
  | succ n ih =>
    rw [List.range_succ, List.filter_append, List.map_append, List.sum_append, ih, range_add_one, filter_insert]
    by_cases h : p n
    · rw [if_pos h, sum_insert (by simp), List.filter_cons_of_pos (by simpa using h)]
      simp [add_comm]
    · rw [if_neg h, List.filter_cons_of_neg (by simpa using h)]
      simp

private theorem padLow_lt {n window stride : ℕ} (hn : 1 ≤ n) (hw : 1 ≤ window) (hs : 1 ≤ stride) :
    padLow n window stride < window := by
  have h : (sameLen n stride - 1) * stride < n := by
    unfold sameLen
    have h1 : (n + stride - 1) / stride * stride ≤ n + stride - 1 := Nat.div_mul_le_self _ _
    rw [Nat.sub_mul, one_mul]
    omega
  unfold padLow
  omega

/-- The positions of a window, as an interval. -/
private theorem window_eq {n window stride : ℕ} (hn : 1 ≤ n) (hw : 1 ≤ window) (hs : 1 ≤ stride) (t : ℕ) :
    (range n).filter (fun j => t * stride ≤ j + padLow n window stride ∧
      j + padLow n window stride < t * stride + window) =
      Ico (t * stride - padLow n window stride) (min n (t * stride + window - padLow n window stride)) := by
  have := padLow_lt hn hw hs
  ext j
  simp only [mem_filter, mem_range, mem_Ico, lt_min_iff]
  omega

private theorem batch_window {n : ℕ} {b : ℕ} (hb : b < n) : poolWindow n 1 1 b = [b] := by
  have hp : padLow n 1 1 = 0 := by
    unfold padLow sameLen
    simp
    omega
  unfold poolWindow
  rw [hp]
  have h : ∀ j, decide (b * 1 ≤ j + 0 ∧ j + 0 < b * 1 + 1) = decide (j = b) := fun j => by
    congr 1
    apply propext
    omega
  simp only [h]
  have : ∀ m, (List.range m).filter (fun j => decide (j = b)) = if b < m then [b] else [] := by
    intro m
    induction m with
    | zero => simp
    | succ m ih =>
      rw [List.range_succ, List.filter_append, ih]
      by_cases h1 : b < m
      · rw [if_pos h1, if_pos (by omega), List.filter_cons_of_neg (by simp; omega)]
        simp
      · rw [if_neg h1]
        by_cases h2 : m = b
        · rw [if_pos (by omega), List.filter_cons_of_pos (by simpa using h2), h2]
          simp
        · rw [if_neg (by omega), List.filter_cons_of_neg (by simpa using h2)]
          simp
  rw [this, if_pos hb]

/-- The value of an average pooling along the sequence: the sum over the window, inside of the sequence, divided by the length
of the window. -/
private theorem avg_eq {x : Tensor} {window stride : ℕ} (hn : 1 ≤ x.shape.seq) (hw : 1 ≤ window) (hs : 1 ≤ stride)
    {b : ℕ} (hb : b < x.shape.batch) (t c : ℕ) :
    (poolT .avg (1, window) (1, stride) x).val b t c =
      (∑ j ∈ Ico (t * stride - padLow x.shape.seq window stride)
        (min x.shape.seq (t * stride + window - padLow x.shape.seq window stride)), x.val b j c) / window := by
  unfold poolT
  simp only [batch_window hb, List.flatMap_cons, List.flatMap_nil, List.append_nil, one_mul]
  unfold poolWindow
  rw [sum_filter_range, window_eq hn hw hs]

/-- C150, partial: a token whose window lies inside the sequence is the mean of the tokens in its window. Missing for the full
claim: windows that reach beyond the ends. -/
theorem C150_mean_partial {x : Tensor} {window stride : ℕ} (hn : 1 ≤ x.shape.seq) (hw : 1 ≤ window) (hs : 1 ≤ stride)
    {b : ℕ} (hb : b < x.shape.batch) (t c : ℕ) (hlow : padLow x.shape.seq window stride ≤ t * stride)
    (hhigh : t * stride + window ≤ x.shape.seq + padLow x.shape.seq window stride) :
    (poolT .avg (1, window) (1, stride) x).val b t c =
      (∑ i ∈ range window, x.val b (t * stride - padLow x.shape.seq window stride + i) c) / window := by
  rw [avg_eq hn hw hs hb, min_eq_right (by omega), sum_Ico_eq_sum_range]
  congr 2
  congr 1
  omega

/-- C150: tokens that are all equal are multiplied by the share of the window that lies inside the sequence. -/
theorem C150_constant {x : Tensor} {window stride : ℕ} (hn : 1 ≤ x.shape.seq) (hw : 1 ≤ window) (hs : 1 ≤ stride)
    {b : ℕ} (hb : b < x.shape.batch) (t c : ℕ) (a : ℝ) (hx : ∀ j < x.shape.seq, x.val b j c = a) :
    (poolT .avg (1, window) (1, stride) x).val b t c =
      a * ((min x.shape.seq (t * stride + window - padLow x.shape.seq window stride) -
        (t * stride - padLow x.shape.seq window stride) : ℕ) : ℝ) / window := by
  rw [avg_eq hn hw hs hb]
  congr 1
  rw [sum_congr rfl fun j hj => hx j (lt_of_lt_of_le (mem_Ico.1 hj).2 (min_le_left _ _)), sum_const, Nat.card_Ico, nsmul_eq_mul,
    mul_comm]

/-- C150 violated: if the window is longer than the stride, the last token of a sequence of equal positive tokens is smaller
than they are, for every length of the sequence. -/
theorem C150_violated {x : Tensor} {window stride : ℕ} (hn : 1 ≤ x.shape.seq) (hs : 1 ≤ stride) (hw : stride < window)
    {b : ℕ} (hb : b < x.shape.batch) (c : ℕ) {a : ℝ} (ha : 0 < a) (hx : ∀ j < x.shape.seq, x.val b j c = a) :
    (poolT .avg (1, window) (1, stride) x).val b (sameLen x.shape.seq stride - 1) c < a := by
  rw [C150_constant hn (by omega) hs hb _ _ a hx]
  obtain ⟨n, hnn⟩ : ∃ n, n = x.shape.seq := ⟨_, rfl⟩
  rw [← hnn] at hn ⊢
  have hlt : (sameLen n stride - 1) * stride < n := by
    unfold sameLen
    have h1 : (n + stride - 1) / stride * stride ≤ n + stride - 1 := Nat.div_mul_le_self _ _
    rw [Nat.sub_mul, one_mul]
    omega
  have hge : n ≤ (sameLen n stride - 1) * stride + stride := by
    unfold sameLen
    have h1 := Nat.lt_div_mul_add (a := n + stride - 1) (show 0 < stride by omega)
    have h2 : stride ≤ (n + stride - 1) / stride * stride := Nat.le_mul_of_pos_left _ (Nat.div_pos (by omega) (by omega))
    rw [Nat.sub_mul, one_mul]
    omega
  have hpad : padLow n window stride < (sameLen n stride - 1) * stride + window - n := by
    unfold padLow
    omega
  have hcount : min n ((sameLen n stride - 1) * stride + window - padLow n window stride) -
      ((sameLen n stride - 1) * stride - padLow n window stride) < window := by
    omega
  have hwpos : (0 : ℝ) < window := by exact_mod_cast (by omega : 0 < window)
  rw [div_lt_iff₀ hwpos]
  exact mul_lt_mul_of_pos_left (by exact_mod_cast hcount) ha

private theorem maxList_spec : ∀ l : List ℝ, l ≠ [] → maxList l ∈ l ∧ ∀ v ∈ l, v ≤ maxList l
  | [], h => absurd rfl h
  | [a], _ => by simp [maxList]
  | a :: b :: l, _ => by
    obtain ⟨h1, h2⟩ := maxList_spec (b :: l) (by simp)
    unfold maxList
    refine ⟨?_, fun v hv => ?_⟩
    · rcases max_choice a (maxList (b :: l)) with h | h <;> rw [h]
      · exact List.mem_cons_self
      · exact List.mem_cons_of_mem _ h1
    · rcases List.mem_cons.1 hv with rfl | hv
      · exact le_max_left _ _
      · exact (h2 v hv).trans (le_max_right _ _)

/-- C150: a token pooled with the maximum is the value of a token of its window, and no token of the window is larger. -/
theorem C150_max {x : Tensor} {window stride : ℕ} (hn : 1 ≤ x.shape.seq) (hw : 1 ≤ window) (hs : 1 ≤ stride)
    {b : ℕ} (hb : b < x.shape.batch) {t : ℕ} (ht : t < sameLen x.shape.seq stride) (c : ℕ) :
    (∃ j < x.shape.seq, (t * stride ≤ j + padLow x.shape.seq window stride ∧
        j + padLow x.shape.seq window stride < t * stride + window) ∧
      (poolT .max (1, window) (1, stride) x).val b t c = x.val b j c) ∧
    ∀ j < x.shape.seq, t * stride ≤ j + padLow x.shape.seq window stride →
      j + padLow x.shape.seq window stride < t * stride + window →
      x.val b j c ≤ (poolT .max (1, window) (1, stride) x).val b t c := by
  have hv : (poolT .max (1, window) (1, stride) x).val b t c =
      maxList ((poolWindow x.shape.seq window stride t).map fun j => x.val b j c) := by
    unfold poolT
    simp only [batch_window hb, List.flatMap_cons, List.flatMap_nil, List.append_nil]
  have hmem : ∀ j, j ∈ poolWindow x.shape.seq window stride t ↔ j < x.shape.seq ∧
      (t * stride ≤ j + padLow x.shape.seq window stride ∧
        j + padLow x.shape.seq window stride < t * stride + window) := by
    intro j
    unfold poolWindow
    simp [List.mem_filter]
  have hlt : t * stride < x.shape.seq := by
    have h0 : t * stride ≤ (sameLen x.shape.seq stride - 1) * stride := Nat.mul_le_mul_right _ (by omega)
    have h : (sameLen x.shape.seq stride - 1) * stride < x.shape.seq := by
      unfold sameLen
      have h1 : (x.shape.seq + stride - 1) / stride * stride ≤ x.shape.seq + stride - 1 := Nat.div_mul_le_self _ _
      rw [Nat.sub_mul, one_mul]
      omega
    omega
  have hp := padLow_lt hn hw hs
  have hne : poolWindow x.shape.seq window stride t ≠ [] :=
    List.ne_nil_of_mem ((hmem (t * stride - padLow x.shape.seq window stride)).2 (by omega))
  obtain ⟨h1, h2⟩ := maxList_spec ((poolWindow x.shape.seq window stride t).map fun j => x.val b j c) (by simpa using hne)
  rw [hv]
  refine ⟨?_, fun j hj hl hh => h2 _ (List.mem_map.2 ⟨j, (hmem j).2 ⟨hj, hl, hh⟩, rfl⟩)⟩
  obtain ⟨j, hj, he⟩ := List.mem_map.1 h1
  exact ⟨j, ((hmem j).1 hj).1, ((hmem j).1 hj).2, he.symm⟩

/-- C150: the attention of a head returns weighted means of the values: between any bounds of the values over the keys. -/
theorem C150_attention {q k v y : HTensor} (h : attentionT q k v = .ok y) (hk : 0 < k.shape.seq) (b t hd i : ℕ) {lo hi : ℝ}
    (hlo : ∀ j < k.shape.seq, lo ≤ v.val b j hd i) (hhi : ∀ j < k.shape.seq, v.val b j hd i ≤ hi) :
    lo ≤ y.val b t hd i ∧ y.val b t hd i ≤ hi := by
  unfold attentionT at h
  split at h
  · simp at h
  · simp only [Except.ok.injEq] at h
    subst h
    simp only
    have hpos : 0 < ∑ j ∈ range k.shape.seq, Real.exp (score q.shape.dim (q.val b t hd) (k.val b j hd)) :=
      sum_pos (fun j _ => Real.exp_pos _) ⟨0, mem_range.2 hk⟩
    constructor
    · rw [le_div_iff₀ hpos, mul_sum]
      exact sum_le_sum fun j hj => by
        rw [mul_comm]
        exact mul_le_mul_of_nonneg_left (hlo j (mem_range.1 hj)) (Real.exp_pos _).le
    · rw [div_le_iff₀ hpos, mul_sum]
      exact sum_le_sum fun j hj => by
        rw [mul_comm hi]
        exact mul_le_mul_of_nonneg_left (hhi j (mem_range.1 hj)) (Real.exp_pos _).le

/-- C150: adding the same vector to all keys does not change the attention of a head: only differences of keys count. -/
theorem C150_attention_shift {q k v y y' : HTensor} (s : ℕ → ℕ → ℕ → ℝ) (h : attentionT q k v = .ok y)
    (h' : attentionT q ⟨k.shape, fun b j hd i => k.val b j hd i + s b hd i⟩ v = .ok y') (b t hd i : ℕ) :
    y'.val b t hd i = y.val b t hd i := by
  unfold attentionT at h h'
  simp only at h h'
  split at h
  · simp at h
  · rename_i sh hsh
    rw [hsh] at h'
    simp only [Except.ok.injEq] at h h'
    subst h
    subst h'
    simp only
    have hs : ∀ j, score q.shape.dim (q.val b t hd) (fun i => k.val b j hd i + s b hd i) =
        score q.shape.dim (q.val b t hd) (k.val b j hd) + score q.shape.dim (q.val b t hd) (s b hd) := by
      intro j
      unfold score
      rw [← sum_add_distrib]
      exact sum_congr rfl fun i _ => by ring
    have he : Real.exp (score q.shape.dim (q.val b t hd) (s b hd)) ≠ 0 := (Real.exp_pos _).ne'
    simp only [hs, Real.exp_add, mul_right_comm _ (Real.exp (score q.shape.dim (q.val b t hd) (s b hd))), ← sum_mul]
    rw [mul_div_mul_right _ _ he]

/-- The sizes of the configuration: 144 elements, window 5. Tokens that are all one. -/
def onesTensor : Tensor := ⟨⟨2, 144, 8⟩, fun _ _ _ => 1⟩

/-- With stride one the first token becomes 3/5, with stride four the last one 4/5. -/
example : (poolT .avg (1, 5) (1, 1) onesTensor).val 0 0 0 = 3 / 5 ∧ (poolT .avg (1, 5) (1, 4) onesTensor).val 0 35 0 = 4 / 5 := by
  constructor
  · rw [C150_constant (by decide) (by decide) (by decide) (by decide) 0 0 1 (fun _ _ => rfl)]
    norm_num [onesTensor, padLow, sameLen]
  · rw [C150_constant (by decide) (by decide) (by decide) (by decide) 35 0 1 (fun _ _ => rfl)]
    norm_num [onesTensor, padLow, sameLen]

example : (poolT .avg (1, 5) (1, 4) onesTensor).val 1 (sameLen 144 4 - 1) 3 < 1 :=
  C150_violated (by decide) (by decide) (by decide) (by decide) 3 one_pos (fun _ _ => rfl)

/-- In the middle of the sequence the hypotheses of `C150_mean_partial` are met. -/
example : padLow onesTensor.shape.seq 5 4 ≤ 17 * 4 ∧ 17 * 4 + 5 ≤ onesTensor.shape.seq + padLow onesTensor.shape.seq 5 4 := by
  decide

/-- An attention that runs. -/
example : ∃ y, attentionT ⟨⟨1, 2, 1, 2⟩, fun _ t _ i => t + i⟩ ⟨⟨1, 3, 1, 2⟩, fun _ t _ i => t * i⟩
    ⟨⟨1, 3, 1, 2⟩, fun _ t _ _ => t⟩ = .ok y := ⟨_, rfl⟩

end Verif.Niles
