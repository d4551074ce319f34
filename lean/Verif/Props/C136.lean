import Verif.Lemmas.ExchangeFloat
import Verif.Props.C11_C16

/-! C136: `exchange` in floating point.

In exact arithmetic `exchange` gives all copies of a node the same value (C13, C14, C16). In rounded arithmetic
the code adds the sum minus the old value to the old value, once for every copy, so that copies of one node can
end up with different values (`C136_violated`, `C136_devices_violated`). What remains is that every copy is close
to the exact sum, for every order of summation (`C136_partial`, `C136_devices_partial`), and exact when all values
are small multiples of one unit (`C136_exact`, `C136_devices_exact`). -/

namespace Verif.Core

open Verif.Spec

/-- Rounding with relative error at most `ε`, which does not change rounded numbers. -/
structure Rounding (fl : ℚ → ℚ) (ε : ℚ) : Prop where
  nonneg : 0 ≤ ε
  rel : ∀ x, |fl x - x| ≤ ε * |x|
  idem : ∀ x, fl (fl x) = fl x

/-- IEEE rounding to `p` binary digits has relative error at most `2^(-p)`. -/
theorem C136_ieee {p : ℕ} (hp : 1 ≤ p) : Rounding (flBin p) ((1 / 2) ^ p) :=
  ⟨by positivity, flBin_rel p, flBin_idem hp⟩

/-- The rounding of `float32`. -/
example : Rounding (flBin 24) (1 / 16777216) := by
  have := C136_ieee (p := 24) (by norm_num)
  norm_num at this
  exact this

theorem exchangeFl_cases {fl : ℚ → ℚ} {ε : ℚ} (hr : Rounding fl ε) {N : ℕ} {node : ℕ → ℤ} {u out : ℕ → ℚ}
    (h : MeshExchangeFl fl N node u out) (hrep : ∀ j < N, fl (u j) = u j) {j : ℕ} (hj : j < N) (hs : node j ≠ -1) :
    (∀ i < N, node i = node j → out i = u i ∧ copiesSum N node u i = u i ∧ i = j) ∨
    ∃ s, RoundedSum fl (((0 :: copyValues N node u (node j) : List ℚ)) : Multiset ℚ) s ∧
      ∀ i < N, node i = node j → out i = fl (u i + fl (s - u i)) := by
  obtain ⟨updates, hupd, rfl⟩ := h
  by_cases hjx : node j ∈ indicesToExchange ((List.range N).map node)
  · right
    refine ⟨updates ((indicesToExchange ((List.range N).map node)).idxOf (node j)), ?_, ?_⟩
    · have := hupd ((indicesToExchange ((List.range N).map node)).idxOf (node j))
      rwa [scatterTerms_eq N node u hjx] at this
    · intro i hi hij
      rw [exchangeFl_apply hr.idem N node u updates hi (hrep i hi), hij, if_pos hjx]
  · left
    intro i hi hij
    have hix : node i ∉ indicesToExchange ((List.range N).map node) := by rw [hij]; exact hjx
    refine ⟨?_, copiesSum_of_not_mem u hi (hij ▸ hs) hix, ?_⟩
    · rw [exchangeFl_apply hr.idem N node u updates hi (hrep i hi), if_neg hix]
    · rw [mem_indicesToExchange, count_map_range] at hjx
      have hcard : ((Finset.range N).filter (fun k => node k = node j)).card ≤ 1 := by
        by_contra hc
        exact hjx ⟨hs, by omega⟩
      exact Finset.card_le_one.mp hcard i (by simp [hi, hij]) j (by simp [hj])

theorem copyValues_le {N : ℕ} {node : ℕ → ℤ} {u : ℕ → ℚ} {x : ℤ} {i : ℕ} (hi : i < N) (hix : node i = x) :
    u i ∈ copyValues N node u x := by
  unfold copyValues
  exact List.mem_map.mpr ⟨i, by simp [hi, hix], rfl⟩

theorem copyValues_abs (N : ℕ) (node : ℕ → ℤ) (u : ℕ → ℚ) (j : ℕ) :
    (((0 :: copyValues N node u (node j) : List ℚ) : Multiset ℚ).map abs).sum =
      copiesSum N node (fun k => |u k|) j := by
  rw [← copyValues_sum N node (fun k => |u k|) j]
  rw [Multiset.map_coe, Multiset.sum_coe, List.map_cons, abs_zero, List.sum_cons, zero_add]
  unfold copyValues
  rw [List.map_map]; rfl

theorem copyValues_zero_sum (N : ℕ) (node : ℕ → ℤ) (u : ℕ → ℚ) (j : ℕ) :
    ((0 :: copyValues N node u (node j) : List ℚ) : Multiset ℚ).sum = copiesSum N node u j := by
  rw [Multiset.sum_coe, List.sum_cons, zero_add, copyValues_sum]

theorem copyValues_card (N : ℕ) (node : ℕ → ℤ) (u : ℕ → ℚ) (x : ℤ) :
    ((0 :: copyValues N node u x : List ℚ) : Multiset ℚ).card =
      ((Finset.range N).filter (fun k => node k = x)).card + 1 := by
  rw [Multiset.coe_card, List.length_cons, copyValues_length]

theorem abs_le_sum_of_mem {M : Multiset ℚ} {a : ℚ} (ha : a ∈ M) : |a| ≤ (M.map abs).sum := by
  obtain ⟨M', rfl⟩ := Multiset.exists_cons_of_mem ha
  rw [Multiset.map_cons, Multiset.sum_cons]
  linarith [multiset_abs_nonneg M']

/-- For every rounding and every order of summation, `exchange` on one device leaves every copy of a node within
a small multiple of the sum of the absolute values of the exact sum, and any two copies this close to each other.
Missing from the full claim: the copies are equal; `C136_violated` shows that they need not be. -/
theorem C136_partial {fl : ℚ → ℚ} {ε : ℚ} (hr : Rounding fl ε) {N : ℕ} {node : ℕ → ℤ} {u out : ℕ → ℚ}
    (h : MeshExchangeFl fl N node u out) (hrep : ∀ j < N, fl (u j) = u j) {j : ℕ} (hj : j < N) (hs : node j ≠ -1) :
    |out j - copiesSum N node u j| ≤
      ((1 + ε) ^ (((Finset.range N).filter (fun k => node k = node j)).card + 1) * (1 + 2 * ε) - 1) *
        copiesSum N node (fun k => |u k|) j ∧
    ∀ i < N, node i = node j → |out i - out j| ≤
      2 * (((1 + ε) * (1 + 2 * ε) - 1) * (1 + ε) ^ ((Finset.range N).filter (fun k => node k = node j)).card *
        copiesSum N node (fun k => |u k|) j) := by
  have hε := hr.nonneg
  have hA : 0 ≤ copiesSum N node (fun k => |u k|) j := Finset.sum_nonneg (fun k _ => abs_nonneg _)
  have hp1 : 1 ≤ (1 + ε) ^ (((Finset.range N).filter (fun k => node k = node j)).card + 1) :=
    one_le_pow₀ (by linarith)
  have hp2 : 0 ≤ (1 + ε) ^ ((Finset.range N).filter (fun k => node k = node j)).card := by positivity
  rcases exchangeFl_cases hr h hrep hj hs with h1 | ⟨s, hsum, h1⟩
  · obtain ⟨e1, e2, _⟩ := h1 j hj rfl
    refine ⟨?_, ?_⟩
    · rw [e1, e2, sub_self, abs_zero]
      exact mul_nonneg (by nlinarith) hA
    · intro i hi hij
      obtain ⟨_, _, rfl⟩ := h1 i hi hij
      rw [sub_self, abs_zero]
      exact mul_nonneg (by norm_num) (mul_nonneg (mul_nonneg (by nlinarith) hp2) hA)
  · have key : ∀ i < N, node i = node j → _ := fun i hi hij =>
      copy_error hε hr.rel hsum (a := u i) (abs_le_sum_of_mem (by
        rw [Multiset.mem_coe]; exact List.mem_cons_of_mem _ (copyValues_le hi hij)))
    simp only [copyValues_abs, copyValues_zero_sum, copyValues_card, Nat.add_sub_cancel] at key
    have hjj := key j hj rfl
    refine ⟨by rw [h1 j hj rfl]; exact hjj.2, ?_⟩
    intro i hi hij
    have hii := (key i hi hij).1
    rw [h1 i hi hij, h1 j hj rfl]
    have h3 := abs_sub_le (fl (u i + fl (s - u i))) s (fl (u j + fl (s - u j)))
    have h4 := hjj.1
    rw [abs_sub_comm] at h4
    linarith

/-- Positions whose node has no other copy keep their value exactly, and so do padding positions. -/
theorem C136_unshared {fl : ℚ → ℚ} {ε : ℚ} (hr : Rounding fl ε) {N : ℕ} {node : ℕ → ℤ} {u out : ℕ → ℚ}
    (h : MeshExchangeFl fl N node u out) (hrep : ∀ j < N, fl (u j) = u j) {j : ℕ} (hj : j < N)
    (hu : node j = -1 ∨ ∀ i < N, node i = node j → i = j) : out j = u j := by
  obtain ⟨updates, _, rfl⟩ := h
  rw [exchangeFl_apply hr.idem N node u updates hj (hrep j hj), if_neg]
  rw [mem_indicesToExchange, count_map_range]
  rintro ⟨h1, h2⟩
  rcases hu with hu | hu
  · exact h1 hu
  · have : ((Finset.range N).filter (fun k => node k = node j)).card ≤ 1 := by
      apply Finset.card_le_one.mpr
      intro a ha b hb
      rw [Finset.mem_filter, Finset.mem_range] at ha hb
      rw [hu a ha.1 ha.2, hu b hb.1 hb.2]
    omega

/-- If the values at the copies of a node are multiples of a unit `2^e` and their absolute values add up to at
most `2^p` units, then the exchange in `p` digit arithmetic is exact on all copies, in every order. -/
theorem C136_exact {p : ℕ} (hp : 1 ≤ p) {N : ℕ} {node : ℕ → ℤ} {u out : ℕ → ℚ}
    (h : MeshExchangeFl (flBin p) N node u out) (hrep : ∀ j < N, flBin p (u j) = u j) {j : ℕ} (hj : j < N)
    (hs : node j ≠ -1) (e : ℤ) (hunit : ∀ k < N, node k = node j → ∃ n : ℤ, u k = n * 2 ^ e)
    (hsmall : copiesSum N node (fun k => |u k|) j ≤ 2 ^ p * 2 ^ e) : out j = copiesSum N node u j := by
  have hr := C136_ieee hp
  rcases exchangeFl_cases hr h hrep hj hs with h1 | ⟨s, hsum, h1⟩
  · obtain ⟨e1, e2, _⟩ := h1 j hj rfl
    rw [e1, e2]
  · have hq : (0 : ℚ) < 2 ^ e := zpow_pos (by norm_num) _
    rw [h1 j hj rfl, ← copyValues_zero_sum]
    refine copy_exact hq (K := 2 ^ p) (fun k hk => flBin_fix hp k e hk) hsum ?_ ?_ ?_
    · intro x hx
      rw [Multiset.mem_coe, List.mem_cons] at hx
      rcases hx with rfl | hx
      · exact ⟨0, by simp⟩
      · unfold copyValues at hx
        obtain ⟨k, hk, rfl⟩ := List.mem_map.mp hx
        rw [List.mem_filter, List.mem_range, decide_eq_true_eq] at hk
        exact hunit k hk.1 hk.2
    · rw [copyValues_abs]; push_cast; exact hsmall
    · rw [Multiset.mem_coe]; exact List.mem_cons_of_mem _ (copyValues_le hj rfl)

/-- The sequential scatter-add is one of the orders of summation. -/
theorem meshExchangeSeq_mem (fl : ℚ → ℚ) (N : ℕ) (node : ℕ → ℤ) (u : ℕ → ℚ) :
    MeshExchangeFl fl N node u (meshExchangeSeq fl N node u) :=
  ⟨_, fun _ => roundedSum_left (by simp [scatterTerms]), rfl⟩

theorem foldl_zeros {fl : ℚ → ℚ} (l : List ℚ) (h : ∀ x ∈ l, x = 0) (a : ℚ) (ha : fl a = a) :
    l.foldl (fun s x => fl (s + x)) a = a := by
  induction l with
  | nil => rfl
  | cons x l ih =>
    rw [List.foldl_cons, h x (by simp), add_zero, ha]
    exact ih (fun y hy => h y (by simp [hy]))

theorem flBin_witness {p : ℕ} (hp : 2 ≤ p) :
    flBin p 0 = 0 ∧ flBin p 1 = 1 ∧ flBin p (2 ^ p) = 2 ^ p ∧ flBin p (-2 ^ p) = -2 ^ p ∧
      flBin p (-2 ^ p + 1) = -2 ^ p + 1 ∧ flBin p (1 + 2 ^ p) = 2 ^ p := by
  have hp1 : 1 ≤ p := by omega
  have h1 : (1 : ℤ) ≤ 2 ^ p := by exact_mod_cast Nat.one_le_two_pow
  have a0 := flBin_int hp1 (k := 0) (by rw [abs_zero]; omega)
  have a1 := flBin_int hp1 (k := 1) (by rw [abs_one]; exact h1)
  have a2 := flBin_int hp1 (k := 2 ^ p) (by rw [abs_of_nonneg (by omega)])
  have a3 := flBin_int hp1 (k := -2 ^ p) (by rw [abs_neg, abs_of_nonneg (by omega)])
  have a4 := flBin_int hp1 (k := -2 ^ p + 1) (by rw [abs_of_nonpos (by omega)]; omega)
  push_cast at a0 a1 a2 a3 a4
  exact ⟨a0, a1, a2, a3, a4, by rw [add_comm]; exact flBin_tie hp⟩

/-- The full claim fails on every mesh with a node that has three copies (every corner of a mesh that is periodic
in two directions has four), in every precision: there are representable values after which the copies of the node
differ, with the updates of the scatter-add taken one after the other. The two copies get `0` and `1`. -/
theorem C136_violated {p : ℕ} (hp : 2 ≤ p) {N : ℕ} {node : ℕ → ℤ} {x : ℤ} (hx : x ≠ -1)
    (h3 : 3 ≤ ((Finset.range N).filter (fun k => node k = x)).card) :
    ∃ (u out : ℕ → ℚ) (i j : ℕ), (∀ k, flBin p (u k) = u k) ∧ MeshExchangeFl (flBin p) N node u out ∧
      out = meshExchangeSeq (flBin p) N node u ∧ i < N ∧ j < N ∧ node i = x ∧ node j = x ∧ out i = 0 ∧ out j = 1 := by
  obtain ⟨f0, f1, f2, f3, f4, f5⟩ := flBin_witness hp
  have hlen : ((List.range N).filter (fun k => node k = x)).length =
      ((Finset.range N).filter (fun k => node k = x)).card := by
    have := copyValues_length N node (fun _ => 0) x
    unfold copyValues at this
    rwa [List.length_map] at this
  have hnd : ((List.range N).filter (fun k => node k = x)).Nodup := List.nodup_range.filter _
  have hmem : ∀ k ∈ (List.range N).filter (fun k => node k = x), k < N ∧ node k = x := by
    intro k hk
    rw [List.mem_filter, List.mem_range, decide_eq_true_eq] at hk
    exact hk
  obtain ⟨a, b, c, rest, hF⟩ : ∃ a b c rest, (List.range N).filter (fun k => node k = x) = a :: b :: c :: rest := by
    match hh : (List.range N).filter (fun k => node k = x) with
    | [] => rw [hh] at hlen; simp at hlen; omega
    | [_] => rw [hh] at hlen; simp at hlen; omega
    | [_, _] => rw [hh] at hlen; simp at hlen; omega
    | a :: b :: c :: rest => exact ⟨a, b, c, rest, rfl⟩
  rw [hF] at hnd hmem
  simp only [List.nodup_cons, List.mem_cons, not_or] at hnd
  obtain ⟨⟨hab, hac, har⟩, ⟨hbc, hbr⟩, hcr, _⟩ := hnd
  obtain ⟨haN, hax⟩ := hmem a (by simp)
  obtain ⟨hbN, hbx⟩ := hmem b (by simp)
  let u : ℕ → ℚ := fun k => if k = a then -2 ^ p else if k = b then 1 else if k = c then 2 ^ p else 0
  have hu_def : ∀ k, u k = if k = a then -2 ^ p else if k = b then 1 else if k = c then 2 ^ p else 0 := fun _ => rfl
  have hua : u a = -2 ^ p := by rw [hu_def, if_pos rfl]
  have hub : u b = 1 := by rw [hu_def, if_neg (Ne.symm hab), if_pos rfl]
  have huc : u c = 2 ^ p := by
    rw [hu_def, if_neg (Ne.symm hac), if_neg (Ne.symm hbc), if_pos rfl]
  have hur : ∀ k ∈ rest, u k = 0 := by
    intro k hk
    rw [hu_def, if_neg (by rintro rfl; exact har hk), if_neg (by rintro rfl; exact hbr hk),
      if_neg (by rintro rfl; exact hcr hk)]
  have hrep : ∀ k, flBin p (u k) = u k := by
    intro k
    simp only [u]
    split_ifs <;> assumption
  have hex : x ∈ indicesToExchange ((List.range N).map node) := by
    rw [mem_indicesToExchange, count_map_range]
    exact ⟨hx, by omega⟩
  have hcv : copyValues N node u x = u a :: u b :: u c :: rest.map u := by
    unfold copyValues; rw [hF]; rfl
  have hS : sumLeft (flBin p) (0 :: copyValues N node u x) = 1 := by
    rw [hcv, hua, hub, huc]
    simp only [sumLeft, List.foldl_cons]
    rw [zero_add, f3, f4, neg_add_eq_sub, sub_add_cancel, f1]
    exact foldl_zeros _ (by intro y hy; obtain ⟨k, hk, rfl⟩ := List.mem_map.mp hy; exact hur k hk) 1 f1
  have hout : ∀ i < N, node i = x →
      meshExchangeSeq (flBin p) N node u i = flBin p (u i + flBin p (1 - u i)) := by
    intro i hi hix
    unfold meshExchangeSeq
    rw [exchangeFl_apply (flBin_idem (by omega)) N node u _ hi (hrep i), if_pos (by rw [hix]; exact hex)]
    rw [scatterTerms_eq N node u (by rw [hix]; exact hex), hix, hS]
  refine ⟨u, _, a, b, hrep, meshExchangeSeq_mem _ _ _ _, rfl, haN, hbN, hax, hbx, ?_, ?_⟩
  · rw [hout a haN hax, hua, sub_neg_eq_add, f5, neg_add_cancel, f0]
  · rw [hout b hbN hbx, hub, sub_self, f0, add_zero, f1]

/-- The nodes of one square cell with both directions periodic: four copies of one node. -/
example : 3 ≤ ((Finset.range 4).filter (fun k => (fun _ : ℕ => (0 : ℤ)) k = 0)).card := by simp

/-- The four corners in `float32`: `-2^24, 1, 2^24, 0` becomes `0, 1, 1, 1`. -/
example : (List.range 4).map (meshExchangeSeq (flBin 24) 4 (fun _ => 0)
    (fun k => [-16777216, 1, 16777216, 0].getD k 0)) = [0, 1, 1, 1] := by decide +kernel

/-- The hypotheses of `C136_partial` and `C136_exact` on the same mesh with small values. -/
example : MeshExchangeFl (flBin 24) 4 (fun _ => 0) (fun k => (k : ℚ))
      (meshExchangeSeq (flBin 24) 4 (fun _ => 0) (fun k => (k : ℚ))) ∧
    (∀ j < 4, flBin 24 ((j : ℕ) : ℚ) = j) ∧
    copiesSum 4 (fun _ => 0) (fun k => |((k : ℕ) : ℚ)|) 0 ≤ 2 ^ 24 * 2 ^ (0 : ℤ) := by
  refine ⟨meshExchangeSeq_mem _ _ _ _, ?_, ?_⟩
  · intro j hj
    have := flBin_int (p := 24) (by norm_num) (k := (j : ℤ)) (by rw [abs_of_nonneg (by omega)]; omega)
    exact_mod_cast this
  · simp [copiesSum, Finset.sum_range_succ]; norm_num

/-- Without rounding the model agrees with the exact one of C13, whatever the order of summation. -/
theorem C136_no_rounding {N : ℕ} {node : ℕ → ℤ} {u out : ℕ → ℚ} (h : MeshExchangeFl id N node u out) {j : ℕ}
    (hj : j < N) : out j = meshExchange N node u j := by
  have hr : Rounding id 0 := ⟨le_rfl, by simp, by simp⟩
  rw [C13_exchange_sums_copies N node u j hj]
  by_cases hs : node j = -1
  · rw [if_pos hs]; exact C136_unshared hr h (fun _ _ => rfl) hj (Or.inl hs)
  · rw [if_neg hs]
    have := (C136_partial hr h (fun _ _ => rfl) hj hs).1
    simp only [add_zero, one_pow, mul_zero, mul_one, sub_self, zero_mul] at this
    exact sub_eq_zero.mp (abs_nonpos_iff.mp this)

/-! ### Partitioned meshes -/

theorem exchangePartFl_cases {fl : ℚ → ℚ} {ε : ℚ} (hr : Rounding fl ε) {P N : ℕ} {node : ℕ → ℕ → ℤ}
    {u out : ℕ → ℕ → ℚ} (h : MeshExchangePartFl fl P N node u out) (hn : NoRepeats P N node)
    (hrep : ∀ p < P, ∀ j < N, fl (u p j) = u p j) {p j : ℕ} (hp : p < P) (hj : j < N) (hs : node p j ≠ -1) :
    (∀ q < P, ∀ i < N, node q i = node p j → out q i = u q i ∧ holdersSum P N node u (node p j) = u q i ∧
      q = p ∧ i = j) ∨
    ∃ (M : Multiset ℚ) (s : ℚ), RoundedSum fl M s ∧ M.card = P ∧ M.sum = holdersSum P N node u (node p j) ∧
      (M.map abs).sum = holdersSum P N node (fun q i => |u q i|) (node p j) ∧
      (∀ y ∈ M, y = 0 ∨ ∃ q < P, ∃ i < N, node q i = node p j ∧ y = u q i) ∧
      ∀ q < P, ∀ i < N, node q i = node p j → u q i ∈ M ∧ out q i = fl (u q i + fl (s - u q i)) := by
  obtain ⟨rows, hrows, updates, hupd, rfl⟩ := h
  obtain ⟨g, hok, hg⟩ := exchangeIndicesPart_ok hn
  rw [hok] at hrows
  obtain rfl : (List.range P).map g = rows := by injection hrows
  have hgetD : ∀ q < P, ((List.range P).map g).getD q (fun _ => sentinel) = g q := by
    intro q hq
    simp [List.getD, hq]
  obtain ⟨G, hG⟩ : ∃ G : ℕ → ℕ → ℤ, G = fun p => ((List.range P).map g).getD p (fun _ => sentinel) := ⟨_, rfl⟩
  rw [← hG] at hupd ⊢
  have hg' : ∀ p < P, (∀ i < N, node p i ∈ indicesToExchange (flattenNodes P N node) →
        G p ((indicesToExchange (flattenNodes P N node)).idxOf (node p i)) = (i : ℤ)) ∧
      (∀ k, G p k = -1 ∨ ∃ i < N, node p i ∈ indicesToExchange (flattenNodes P N node) ∧
        k = (indicesToExchange (flattenNodes P N node)).idxOf (node p i)) := by
    intro q hq
    have : G q = g q := by rw [hG]; exact hgetD q hq
    rw [this]; exact hg q hq
  obtain ⟨ex, hex⟩ : ∃ ex, ex = indicesToExchange (flattenNodes P N node) := ⟨_, rfl⟩
  rw [← hex] at hupd hg' ⊢
  by_cases hjx : node p j ∈ ex
  · right
    refine ⟨_, _, hupd _ (List.idxOf_lt_length_iff.mpr hjx), ?_, ?_, ?_, ?_, ?_⟩
    · simp [psumTerms]
    · rw [Multiset.sum_coe]; exact psumTerms_sum hn u hex hg' hjx
    · rw [Multiset.map_coe, Multiset.sum_coe, psumTerms_abs]
      exact psumTerms_sum hn (fun q i => |u q i|) hex hg' hjx
    · intro y hy
      exact psumTerms_mem u hg' (Multiset.mem_coe.mp hy)
    · intro q hq i hi hqi
      have hqx : node q i ∈ ex := by rw [hqi]; exact hjx
      refine ⟨?_, ?_⟩
      · rw [Multiset.mem_coe]
        unfold psumTerms
        refine List.mem_map.mpr ⟨q, List.mem_range.mpr hq, ?_⟩
        rw [← hqi, (hg' q hq).1 i hi hqx, maskOf_natCast, readPos_natCast hi, one_mul]
      · rw [exchangePartFl_apply hr.idem u updates hg' hq hi (hrep q hq i hi), if_pos hqx, hqi]
  · left
    intro q hq i hi hqi
    have hqx : node q i ∉ ex := by rw [hqi]; exact hjx
    have hqs : node q i ≠ -1 := by rw [hqi]; exact hs
    have hone := holdersSum_of_not_mem u hq hi hqs (by rw [← hex]; exact hqx)
    have hcard : ((Finset.range P ×ˢ Finset.range N).filter (fun r => node r.1 r.2 = node p j)).card ≤ 1 := by
      rw [hex, mem_indicesToExchange, count_flattenNodes] at hjx
      by_contra hc
      exact hjx ⟨hs, by omega⟩
    have heq := Finset.card_le_one.mp hcard (q, i) (by simp [hq, hi, hqi]) (p, j) (by simp [hp, hj])
    rw [Prod.mk.injEq] at heq
    refine ⟨?_, by rw [← hqi]; exact hone, heq⟩
    rw [exchangePartFl_apply hr.idem u updates hg' hq hi (hrep q hq i hi), if_neg hqx]

/-- The same bounds between devices: for every rounding and every order in which `psum` adds the contributions,
every copy on every device is close to the exact sum, and any two copies are close to each other. Missing from the
full claim: the copies are equal; `C136_devices_violated` shows that they need not be. -/
theorem C136_devices_partial {fl : ℚ → ℚ} {ε : ℚ} (hr : Rounding fl ε) {P N : ℕ} {node : ℕ → ℕ → ℤ}
    {u out : ℕ → ℕ → ℚ} (h : MeshExchangePartFl fl P N node u out) (hn : NoRepeats P N node)
    (hrep : ∀ p < P, ∀ j < N, fl (u p j) = u p j) {p j : ℕ} (hp : p < P) (hj : j < N) (hs : node p j ≠ -1) :
    |out p j - holdersSum P N node u (node p j)| ≤
      ((1 + ε) ^ P * (1 + 2 * ε) - 1) * holdersSum P N node (fun q i => |u q i|) (node p j) ∧
    ∀ q < P, ∀ i < N, node q i = node p j → |out q i - out p j| ≤
      2 * (((1 + ε) * (1 + 2 * ε) - 1) * (1 + ε) ^ (P - 1) *
        holdersSum P N node (fun q i => |u q i|) (node p j)) := by
  have hε := hr.nonneg
  have hA : 0 ≤ holdersSum P N node (fun q i => |u q i|) (node p j) := Finset.sum_nonneg (fun k _ => abs_nonneg _)
  have hp1 : 1 ≤ (1 + ε) ^ P := one_le_pow₀ (by linarith)
  have hp2 : 0 ≤ (1 + ε) ^ (P - 1) := by positivity
  rcases exchangePartFl_cases hr h hn hrep hp hj hs with h1 | ⟨M, s, hsum, hcard, hMs, hMa, _, h1⟩
  · obtain ⟨e1, e2, _⟩ := h1 p hp j hj rfl
    refine ⟨?_, ?_⟩
    · rw [e1, e2, sub_self, abs_zero]
      exact mul_nonneg (by nlinarith) hA
    · intro q hq i hi hqi
      obtain ⟨_, _, rfl, rfl⟩ := h1 q hq i hi hqi
      rw [sub_self, abs_zero]
      exact mul_nonneg (by norm_num) (mul_nonneg (mul_nonneg (by nlinarith) hp2) hA)
  · have key : ∀ q < P, ∀ i < N, node q i = node p j → _ := fun q hq i hi hqi =>
      copy_error hε hr.rel hsum (a := u q i) (abs_le_sum_of_mem (h1 q hq i hi hqi).1)
    simp only [hMs, hMa, hcard] at key
    have hjj := key p hp j hj rfl
    refine ⟨by rw [(h1 p hp j hj rfl).2]; exact hjj.2, ?_⟩
    intro q hq i hi hqi
    have hii := (key q hq i hi hqi).1
    rw [(h1 q hq i hi hqi).2, (h1 p hp j hj rfl).2]
    have h3 := abs_sub_le (fl (u q i + fl (s - u q i))) s (fl (u p j + fl (s - u p j)))
    have h4 := hjj.1
    rw [abs_sub_comm] at h4
    linarith

/-- Between devices the exchange is exact when the values are small multiples of one unit. -/
theorem C136_devices_exact {d : ℕ} (hd : 1 ≤ d) {P N : ℕ} {node : ℕ → ℕ → ℤ}
    {u out : ℕ → ℕ → ℚ} (h : MeshExchangePartFl (flBin d) P N node u out) (hn : NoRepeats P N node)
    (hrep : ∀ p < P, ∀ j < N, flBin d (u p j) = u p j) {p j : ℕ} (hp : p < P) (hj : j < N) (hs : node p j ≠ -1)
    (e : ℤ) (hunit : ∀ q < P, ∀ i < N, node q i = node p j → ∃ n : ℤ, u q i = n * 2 ^ e)
    (hsmall : holdersSum P N node (fun q i => |u q i|) (node p j) ≤ 2 ^ d * 2 ^ e) :
    out p j = holdersSum P N node u (node p j) := by
  rcases exchangePartFl_cases (C136_ieee hd) h hn hrep hp hj hs with h1 | ⟨M, s, hsum, _, hMs, hMa, hM, h1⟩
  · obtain ⟨e1, e2, _⟩ := h1 p hp j hj rfl
    rw [e1, e2]
  · have hq : (0 : ℚ) < 2 ^ e := zpow_pos (by norm_num) _
    rw [(h1 p hp j hj rfl).2, ← hMs]
    refine copy_exact hq (K := 2 ^ d) (fun k hk => flBin_fix hd k e hk) hsum ?_ ?_ (h1 p hp j hj rfl).1
    · intro x hx
      rcases hM x hx with rfl | ⟨q, hqP, i, hi, hqi, rfl⟩
      · exact ⟨0, by simp⟩
      · exact hunit q hqP i hi hqi
    · rw [hMa]; push_cast; exact hsmall

/-- The full claim fails between devices in every precision: three devices that share one node, with `psum` adding
the contributions in the order of the devices. The copies on the first two devices get `0` and `1`. -/
theorem C136_devices_violated {d : ℕ} (hd : 2 ≤ d) :
    ∃ u out : ℕ → ℕ → ℚ, (∀ p i, flBin d (u p i) = u p i) ∧
      MeshExchangePartFl (flBin d) 3 1 (fun _ _ => 0) u out ∧ out 0 0 = 0 ∧ out 1 0 = 1 := by
  obtain ⟨f0, f1, f2, f3, f4, f5⟩ := flBin_witness hd
  let u : ℕ → ℕ → ℚ := fun p _ => if p = 0 then -2 ^ d else if p = 1 then 1 else if p = 2 then 2 ^ d else 0
  have hrep : ∀ p i, flBin d (u p i) = u p i := by
    intro p i
    simp only [u]
    split_ifs <;> assumption
  have hn : NoRepeats 3 1 (fun _ _ => 0) := by
    intro p _ i hi j hj _ _; omega
  obtain ⟨g, hok, hg⟩ := exchangeIndicesPart_ok hn
  obtain ⟨G, hG⟩ : ∃ G : ℕ → ℕ → ℤ, G = fun p => ((List.range 3).map g).getD p (fun _ => sentinel) := ⟨_, rfl⟩
  have hGg : ∀ q < 3, G q = g q := by
    intro q hq
    rw [hG]; simp [List.getD, hq]
  have hg' : ∀ p < 3, (∀ i < (1 : ℕ), (0 : ℤ) ∈ indicesToExchange (flattenNodes 3 1 (fun _ _ => 0)) →
        G p ((indicesToExchange (flattenNodes 3 1 (fun _ _ => 0))).idxOf 0) = (i : ℤ)) ∧
      (∀ k, G p k = -1 ∨ ∃ i < (1 : ℕ), (0 : ℤ) ∈ indicesToExchange (flattenNodes 3 1 (fun _ _ => 0)) ∧
        k = (indicesToExchange (flattenNodes 3 1 (fun _ _ => 0))).idxOf 0) := by
    intro q hq
    rw [hGg q hq]; exact hg q hq
  have hx : (0 : ℤ) ∈ indicesToExchange (flattenNodes 3 1 (fun _ _ => 0)) := by
    rw [mem_indicesToExchange]; decide
  have hterms : psumTerms 3 1 G u ((indicesToExchange (flattenNodes 3 1 (fun _ _ => 0))).idxOf 0) =
      [-2 ^ d, 1, 2 ^ d] := by
    have he : ∀ q < 3, (maskOf (G q ((indicesToExchange (flattenNodes 3 1 (fun _ _ => 0))).idxOf 0)) *
        u q (readPos 1 (G q ((indicesToExchange (flattenNodes 3 1 (fun _ _ => 0))).idxOf 0))) : ℚ) = u q 0 := by
      intro q hq
      rw [(hg' q hq).1 0 (by norm_num) hx, maskOf_natCast, one_mul, readPos_natCast (by norm_num)]
    unfold psumTerms
    have : List.range 3 = [0, 1, 2] := rfl
    rw [this]
    simp only [List.map_cons, List.map_nil]
    rw [he 0 (by norm_num), he 1 (by norm_num), he 2 (by norm_num)]
    simp [u]
  have hS : sumLeft (flBin d) [-2 ^ d, 1, 2 ^ d] = 1 := by
    simp only [sumLeft, List.foldl_cons, List.foldl_nil]
    rw [f4, neg_add_eq_sub, sub_add_cancel, f1]
  have hout : ∀ q < 3, exchangePartFl (flBin d) 1 (indicesToExchange (flattenNodes 3 1 (fun _ _ => 0))).length G u
      (fun k => sumLeft (flBin d) (psumTerms 3 1 G u k)) q 0 = flBin d (u q 0 + flBin d (1 - u q 0)) := by
    intro q hq
    have := exchangePartFl_apply (flBin_idem (by omega : 1 ≤ d)) (node := fun _ _ => 0) u
      (fun k => sumLeft (flBin d) (psumTerms 3 1 G u k)) hg' hq (by norm_num : 0 < 1) (hrep q 0)
    rw [this, if_pos hx, hterms, hS]
  refine ⟨u, exchangePartFl (flBin d) 1 (indicesToExchange (flattenNodes 3 1 (fun _ _ => 0))).length G u
      (fun k => sumLeft (flBin d) (psumTerms 3 1 G u k)), hrep, ⟨_, hok, _, ?_, by rw [hG]⟩, ?_, ?_⟩
  · intro k _
    rw [← hG]
    exact roundedSum_left (by simp [psumTerms])
  · rw [hout 0 (by norm_num)]
    have : u 0 0 = -2 ^ d := by simp [u]
    rw [this, sub_neg_eq_add, f5, neg_add_cancel, f0]
  · rw [hout 1 (by norm_num)]
    have : u 1 0 = 1 := by simp [u]
    rw [this, sub_self, f0, add_zero, f1]

end Verif.Core
