import Verif.Lemmas.Exchange

/-!
# C11 - C16: gather, scatter, periodic identification and exchange
-/

namespace Verif.Core

open Verif.Spec

variable {R : Type*} [CommRing R]

/-! ### C11 -/

/-- Entry `j` of `scatter(v, idx, N)` is the sum of all `v[k]` with `idx[k] = j`; sentinel slots add
nothing. -/
theorem C11_scatter_accumulates (N : ℕ) (idx : List ℤ) (v : List R)
    (hidx : ∀ i ∈ idx, i = -1 ∨ (0 ≤ i ∧ i < N)) (j : ℕ) :
    scatter v idx N j = (((idx.zip v).filter (fun e => e.1 = (j : ℤ))).map Prod.snd).sum := by
  have key : ∀ l : List (ℤ × R), (∀ e ∈ l, e.1 = -1 ∨ (0 ≤ e.1 ∧ e.1 < N)) →
      ((l.map (fun e => (e.1, maskOf e.1 * e.2))).map
        (fun e : ℤ × R => if writePos N e.1 = some j then e.2 else 0)).sum =
      ((l.filter (fun e => e.1 = (j : ℤ))).map Prod.snd).sum := by
    intro l hl
    induction l with
    | nil => simp
    | cons e l ih =>
      rw [List.map_cons, List.map_cons, List.sum_cons, ih (fun e he => hl e (List.mem_cons_of_mem _ he))]
      rcases hl e List.mem_cons_self with h | ⟨h0, h1⟩
      · have hne : ¬ (-1 = (j : ℤ)) := by omega
        simp [h, maskOf_sentinel, hne]
      · rw [writePos_of_range h0 h1, maskOf_ne (by omega), one_mul]
        by_cases he : e.1 = (j : ℤ)
        · have : e.1.toNat = j := by omega
          simp [he]
        · have : ¬ e.1.toNat = j := by omega
          simp [he, this]
  unfold scatter atAdd
  rw [zero_add]
  exact key _ (fun e he => hidx e.1 (List.of_mem_zip he).1)

/-- `sum(gather(u, idx, 0) * v) = sum(u * scatter(v, idx, N))`. -/
theorem C11_scatter_is_transpose (N : ℕ) (u : ℕ → R) (idx : List ℤ) (v : List R)
    (hidx : ∀ i ∈ idx, i = -1 ∨ (0 ≤ i ∧ i < N)) (hlen : v.length = idx.length) :
    (List.zipWith (· * ·) (gather N u idx 0) v).sum =
      ∑ j ∈ Finset.range N, u j * scatter v idx N j := by
  have hsc : ∀ j ∈ Finset.range N, u j * scatter v idx N j =
      u j * (((idx.zip v).filter (fun e => e.1 = (j : ℤ))).map Prod.snd).sum := by
    intro j _
    rw [C11_scatter_accumulates N idx v hidx j]
  rw [Finset.sum_congr rfl hsc]
  clear hsc
  induction idx generalizing v with
  | nil => simp [gather]
  | cons i idx ih =>
    cases v with
    | nil => simp at hlen
    | cons a v =>
      have ih' := ih v (fun i hi => hidx i (List.mem_cons_of_mem _ hi)) (by simpa using hlen)
      have hstep : ∀ j ∈ Finset.range N,
          u j * (((((i :: idx).zip (a :: v)).filter (fun e => e.1 = (j : ℤ))).map Prod.snd).sum) =
          (if (j : ℤ) = i then u j * a else 0) +
            u j * (((idx.zip v).filter (fun e => e.1 = (j : ℤ))).map Prod.snd).sum := by
        intro j _
        by_cases h : i = (j : ℤ)
        · subst h; simp [mul_add]
        · have h' : ¬ (j : ℤ) = i := fun e => h e.symm
          simp [h, h']
      rw [Finset.sum_congr rfl hstep, Finset.sum_add_distrib, ← ih']
      have hg : gather N u (i :: idx) 0 = (if i ≠ sentinel then u (readPos N i) else 0) :: gather N u idx 0 :=
        rfl
      rw [hg, List.zipWith_cons_cons, List.sum_cons]
      congr 1
      rcases hidx i List.mem_cons_self with h | ⟨h0, h1⟩
      · subst h
        rw [if_neg (by simp [sentinel]), zero_mul]
        symm
        apply Finset.sum_eq_zero
        intro j _
        rw [if_neg (by omega)]
      · rw [if_pos (by simp only [sentinel]; omega), readPos_of_range h0 h1,
          Finset.sum_eq_single i.toNat]
        · rw [if_pos (by omega)]
        · intro b _ hb
          rw [if_neg (by omega)]
        · intro hn
          exact absurd (Finset.mem_range.mpr (by omega)) hn

/-- Two triangles' worth of indices with a duplicate and a sentinel slot. -/
example : ∀ i ∈ ([0, 2, -1, 2] : List ℤ), i = -1 ∨ (0 ≤ i ∧ i < (3 : ℕ)) := by decide
example : scatter ([10, 20, 30, 40] : List ℤ) [0, 2, -1, 2] 3 2 = 60 := by decide

/-! ### C12 -/

/-- The index given to node `i` is the least node that a chain of periodic links connects with `i`. -/
theorem C12_least_linked (links : List (List ℤ × List ℤ)) (i : ℤ) :
    Linked links i (uniqueNodeIndex (some links) i) ∧
      ∀ x, Linked links i x → uniqueNodeIndex (some links) i ≤ x := by
  rw [uniqueNodeIndex_some]
  have inv := compInv_componentMin (periodicEdges links)
  unfold Linked
  rw [← edgeRel_periodic]
  refine ⟨inv.conn i, fun x hx => ?_⟩
  rw [inv.resp i x hx]
  exact inv.le x

/-- Two nodes are identified iff a chain of links connects them. -/
theorem C12_same_iff_linked (links : List (List ℤ × List ℤ)) (i j : ℤ) :
    uniqueNodeIndex (some links) i = uniqueNodeIndex (some links) j ↔ Linked links i j := by
  constructor
  · intro h
    have hi := (C12_least_linked links i).1
    have hj := (C12_least_linked links j).1
    rw [h] at hi
    exact hi.trans _ _ _ (hj.symm _ _)
  · intro h
    have hi := C12_least_linked links i
    have hj := C12_least_linked links j
    exact le_antisymm (hi.2 _ (h.trans _ _ _ hj.1)) (hj.2 _ ((h.symm _ _).trans _ _ _ hi.1))

/-- Applying the identification twice changes nothing; without links nothing changes. -/
theorem C12_idempotent (links : Option (List (List ℤ × List ℤ))) (i : ℤ) :
    uniqueNodeIndex links (uniqueNodeIndex links i) = uniqueNodeIndex links i := by
  cases links with
  | none => rfl
  | some links =>
    exact (C12_same_iff_linked links _ _).mpr (((C12_least_linked links i).1).symm _ _)

/-- Nodes that occur in no link, and the padding marker `-1` when links hold real nodes only, are kept. -/
theorem C12_unlinked_unchanged (links : Option (List (List ℤ × List ℤ))) (i : ℤ)
    (h : ∀ ls, links = some ls → ∀ l ∈ ls, i ∉ l.1 ∧ i ∉ l.2) : uniqueNodeIndex links i = i := by
  cases links with
  | none => rfl
  | some links =>
    rw [uniqueNodeIndex_some]
    apply componentMin_unlinked
    rintro (hm | hm)
    · obtain ⟨e, he, rfl⟩ := List.mem_map.mp hm
      obtain ⟨l, hl, k, h1, _⟩ := (mem_periodicEdges (a := e.1) (b := e.2)).mp he
      exact (h links rfl l hl).1 (List.mem_of_getElem? h1)
    · obtain ⟨e, he, rfl⟩ := List.mem_map.mp hm
      obtain ⟨l, hl, k, _, h2⟩ := (mem_periodicEdges (a := e.1) (b := e.2)).mp he
      exact (h links rfl l hl).2 (List.mem_of_getElem? h2)

/-- A doubly periodic corner: 0-2, 3-5 on one axis and 0-3, 2-5 on the other all become node 0. -/
example : [0, 2, 3, 5, 1, -1].map (uniqueNodeIndex (some [([0, 3], [2, 5]), ([0, 2], [3, 5])])) =
    [0, 0, 0, 0, 1, -1] := by decide

/-! ### C13 -/

/-- On one device `exchange(u)[i]` is the sum of `u[j]` over the positions `j` with the node of `i`;
padding is unchanged. -/
theorem C13_exchange_sums_copies (N : ℕ) (node : ℕ → ℤ) (u : ℕ → R) (i : ℕ) (hi : i < N) :
    meshExchange N node u i = if node i = -1 then u i else copiesSum N node u i := by
  unfold meshExchange
  rw [exchange_apply N node u hi]
  by_cases hs : node i = -1
  · rw [if_pos hs, if_neg]
    rw [mem_indicesToExchange]
    exact fun h => h.1 hs
  · rw [if_neg hs]
    split
    · rfl
    · rename_i h
      exact (copiesSum_of_not_mem u hi hs h).symm

/-- Positions whose node occurs nowhere else are unchanged. -/
theorem C13_unshared_unchanged (N : ℕ) (node : ℕ → ℤ) (u : ℕ → R) (i : ℕ) (hi : i < N)
    (h : ∀ j < N, node j = node i → j = i) : meshExchange N node u i = u i := by
  rw [C13_exchange_sums_copies N node u i hi]
  split
  · rfl
  · unfold copiesSum
    rw [Finset.sum_eq_single i]
    · intro j hj hji
      rw [Finset.mem_filter, Finset.mem_range] at hj
      exact absurd (h j hj.1 hj.2) hji
    · intro hn
      exact absurd (by simp [hi]) hn

example : (List.range 5).map (meshExchange 5 (fun k => [0, 1, 0, 3, 0].getD k 0)
    (fun k => ((k : ℤ) + 1) ^ 2)) = [35, 4, 35, 16, 35] := by decide

/-! ### C14, C15 -/

/-- Across devices, `exchange(u)` at a slot with a real node is the sum of `u` over all slots of all devices
that hold the node; padding slots are unchanged. -/
theorem C14_exchange_sums_all_devices (P N : ℕ) (node : ℕ → ℕ → ℤ) (u : ℕ → ℕ → R)
    (h : NoRepeats P N node) :
    ∃ w, meshExchangePart P N node u = .ok w ∧ ∀ p < P, ∀ i < N,
      w p i = if node p i = -1 then u p i else holdersSum P N node u (node p i) := by
  obtain ⟨g, hok, hg⟩ := exchangeIndicesPart_ok h
  refine ⟨_, by unfold meshExchangePart; rw [hok], ?_⟩
  intro p hp i hi
  have hgetD : ∀ q < P, ((List.range P).map g).getD q (fun _ => sentinel) = g q := by
    intro q hq
    simp [List.getD, hq]
  rw [exchangePart_apply h u rfl (g := fun q => ((List.range P).map g).getD q (fun _ => sentinel))
    (fun q hq => by simp only [hgetD q hq]; exact hg q hq) hp hi]
  by_cases hs : node p i = -1
  · rw [if_pos hs, if_neg]
    rw [mem_indicesToExchange]
    exact fun h => h.1 hs
  · rw [if_neg hs]
    split
    · rfl
    · rename_i hn
      exact (holdersSum_of_not_mem u hp hi hs hn).symm

/-- Two devices, one shared node, unequal sizes with padding. -/
def exampleNodes : ℕ → ℕ → ℤ := fun p i => ([[4, 7, 9], [7, 8, -1]].getD p []).getD i 0

example : NoRepeats 2 3 exampleNodes := by
  intro p hp i hi j hj
  interval_cases p <;> interval_cases i <;> interval_cases j <;> simp [exampleNodes]
example : (match meshExchangePart 2 3 exampleNodes (fun p i => ((3 * p + i : ℕ) : ℤ)) with
    | .ok w => [[w 0 0, w 0 1, w 0 2], [w 1 0, w 1 1, w 1 2]]
    | .error _ => []) = [[0, 4, 2], [4, 4, 5]] := by decide

/-- `get_exchange_indices` raises NotImplementedError iff a device holds a real node twice. -/
theorem C15_intra_partition_detected (P N : ℕ) (node : ℕ → ℕ → ℤ) :
    (exchangeIndicesPart P N node = .error "NotImplementedError" ↔
      ∃ p < P, ∃ i < N, ∃ j < N, i ≠ j ∧ node p i = node p j ∧ node p i ≠ -1) ∧
    ((∃ rows, exchangeIndicesPart P N node = .ok rows) ↔ NoRepeats P N node) := by
  have hiff : (∃ p < P, ∃ i < N, ∃ j < N, i ≠ j ∧ node p i = node p j ∧ node p i ≠ -1) ↔
      ¬ NoRepeats P N node := by
    unfold NoRepeats
    push Not
    constructor
    · rintro ⟨p, hp, i, hi, j, hj, h1, h2, h3⟩; exact ⟨p, hp, i, hi, j, hj, h2, h3, h1⟩
    · rintro ⟨p, hp, i, hi, j, hj, h2, h3, h1⟩; exact ⟨p, hp, i, hi, j, hj, h1, h2, h3⟩
  have hok : NoRepeats P N node → ∃ rows, exchangeIndicesPart P N node = .ok rows := by
    intro h
    obtain ⟨g, hok, _⟩ := exchangeIndicesPart_ok h
    exact ⟨_, hok⟩
  have herr : (∃ p < P, ∃ i < N, ∃ j < N, i ≠ j ∧ node p i = node p j ∧ node p i ≠ -1) →
      exchangeIndicesPart P N node = .error "NotImplementedError" := by
    rintro ⟨p, hp, i, hi, j, hj, hij, he, hs⟩
    wlog hlt : i < j generalizing i j
    · exact this j hj i hi (Ne.symm hij) he.symm (he ▸ hs) (by omega)
    have hmem : node p i ∈ indicesToExchange (flattenNodes P N node) := by
      rw [mem_indicesToExchange, count_flattenNodes]
      refine ⟨hs, Finset.one_lt_card.mpr ⟨(p, i), ?_, (p, j), ?_, ?_⟩⟩
      · simp [hp, hi]
      · simp [hp, hj, he]
      · simp [hij]
    unfold exchangeIndicesPart
    refine mapM_range_error P _ _ ?_ hp ?_
    · intro q _
      rcases partRow_cases (indicesToExchange (flattenNodes P N node)) (node q) N with h | ⟨st, h⟩
      · left; rw [h]; rfl
      · right; exact ⟨st.gather, by rw [h]; rfl⟩
    · rw [partRow_error _ _ N hlt hj he hs hmem]; rfl
  refine ⟨⟨fun h => ?_, herr⟩, ⟨fun ⟨rows, h⟩ => ?_, hok⟩⟩
  · rw [hiff]
    intro hn
    obtain ⟨rows, hr⟩ := hok hn
    rw [hr] at h
    exact absurd h (by simp)
  · by_contra hn
    rw [herr (hiff.mpr hn)] at h
    exact absurd h (by simp)

example : exchangeIndicesPart 1 3 (fun _ i => [5, 6, 5].getD i 0) = .error "NotImplementedError" :=
  (C15_intra_partition_detected 1 3 _).1.mpr ⟨0, by decide, 0, by decide, 2, by decide, by decide⟩

/-! ### C16 -/

theorem copiesSum_add (N : ℕ) (node : ℕ → ℤ) (a b : R) (u v : ℕ → R) (i : ℕ) :
    copiesSum N node (fun k => a * u k + b * v k) i = a * copiesSum N node u i + b * copiesSum N node v i := by
  unfold copiesSum
  rw [Finset.sum_add_distrib, Finset.mul_sum, Finset.mul_sum]

/-- `exchange` on one device: linear, symmetric, equal on copies, and multiplication by the number of
copies on a field that already agrees on copies. -/
theorem C16_exchange_unpartitioned (N : ℕ) (node : ℕ → ℤ) (u v : ℕ → R) :
    (∀ a b : R, ∀ i < N, meshExchange N node (fun k => a * u k + b * v k) i =
      a * meshExchange N node u i + b * meshExchange N node v i) ∧
    (∑ i ∈ Finset.range N, meshExchange N node u i * v i =
      ∑ i ∈ Finset.range N, u i * meshExchange N node v i) ∧
    (∀ i < N, ∀ j < N, node i = node j → node i ≠ -1 → meshExchange N node u i = meshExchange N node u j) ∧
    ((∀ i < N, ∀ j < N, node i = node j → u i = u j) → ∀ i < N, node i ≠ -1 →
      meshExchange N node u i = ((Finset.range N).filter (fun j => node j = node i)).card * u i) := by
  refine ⟨fun a b i hi => ?_, ?_, fun i hi j hj he hs => ?_, fun hu i hi hs => ?_⟩
  · rw [C13_exchange_sums_copies N node _ i hi, C13_exchange_sums_copies N node _ i hi,
      C13_exchange_sums_copies N node _ i hi]
    split
    · rfl
    · exact copiesSum_add N node a b u v i
  · have expand : ∀ w : ℕ → R, ∀ i ∈ Finset.range N, meshExchange N node w i =
        ∑ j ∈ Finset.range N, (if node i = -1 then (if j = i then w j else 0)
          else if node j = node i then w j else 0) := by
      intro w i hi
      rw [C13_exchange_sums_copies N node w i (Finset.mem_range.mp hi)]
      split
      · rw [Finset.sum_ite_eq' (Finset.range N) i, if_pos hi]
      · unfold copiesSum; rw [Finset.sum_filter]
    rw [Finset.sum_congr rfl (fun i hi => by rw [expand u i hi, Finset.sum_mul])]
    rw [Finset.sum_congr rfl (g := fun i => ∑ j ∈ Finset.range N, u i *
      (if node i = -1 then (if j = i then v j else 0) else if node j = node i then v j else 0))
      (f := fun i => u i * meshExchange N node v i)
      (fun i hi => by rw [expand v i hi, Finset.mul_sum])]
    rw [Finset.sum_comm]
    refine Finset.sum_congr rfl (fun i _ => Finset.sum_congr rfl (fun j _ => ?_))
    by_cases h1 : node j = -1
    · by_cases h2 : i = j
      · subst h2; simp [h1]
      · by_cases h3 : node i = -1
        · have : ¬ j = i := fun e => h2 e.symm
          simp [h1, h2, h3, this]
        · have : ¬ (-1 : ℤ) = node i := fun e => h3 e.symm
          simp [h1, h2, h3, this]
    · by_cases h3 : node i = node j
      · simp [h1, h3]
      · have h4 : ¬ node j = node i := fun e => h3 e.symm
        by_cases h5 : node i = -1
        · have : ¬ j = i := by rintro rfl; exact h3 rfl
          have h6 : ¬ (-1 : ℤ) = node j := fun e => h1 e.symm
          simp [h1, h5, this, h6]
        · simp [h1, h3, h4, h5]
  · rw [C13_exchange_sums_copies N node _ i hi, C13_exchange_sums_copies N node _ j hj, if_neg hs,
      if_neg (he ▸ hs)]
    unfold copiesSum
    rw [he]
  · rw [C13_exchange_sums_copies N node _ i hi, if_neg hs]
    unfold copiesSum
    rw [Finset.sum_congr rfl (g := fun _ => u i), Finset.sum_const, nsmul_eq_mul]
    intro j hj
    rw [Finset.mem_filter, Finset.mem_range] at hj
    exact hu j hj.1 i hi hj.2

/-- Partitioning does not change the result: on every slot of every device it equals the one device result
for the concatenated arrays. -/
theorem C16_partitioned_eq_unpartitioned (P N : ℕ) (node : ℕ → ℕ → ℤ) (u : ℕ → ℕ → R)
    (h : NoRepeats P N node) :
    ∃ w, meshExchangePart P N node u = .ok w ∧ ∀ p < P, ∀ i < N,
      w p i = meshExchange (P * N) (fun k => node (k / N) (k % N)) (fun k => u (k / N) (k % N))
        (p * N + i) := by
  obtain ⟨w, hw, hval⟩ := C14_exchange_sums_all_devices P N node u h
  refine ⟨w, hw, fun p hp i hi => ?_⟩
  have hN : 0 < N := by omega
  have hdiv : (p * N + i) / N = p := by
    rw [mul_comm, Nat.mul_add_div hN, Nat.div_eq_of_lt hi, add_zero]
  have hmod : (p * N + i) % N = i := by
    rw [mul_comm, Nat.mul_add_mod, Nat.mod_eq_of_lt hi]
  have hlt : p * N + i < P * N := by
    have : (p + 1) * N ≤ P * N := Nat.mul_le_mul_right N hp
    rw [Nat.add_mul, one_mul] at this
    omega
  rw [hval p hp i hi, C13_exchange_sums_copies _ _ _ _ hlt]
  simp only [hdiv, hmod]
  split
  · rfl
  · unfold holdersSum copiesSum
    simp only [hdiv, hmod]
    refine Finset.sum_bij' (fun q _ => q.1 * N + q.2) (fun k _ => (k / N, k % N)) ?_ ?_ ?_ ?_ ?_
    · rintro ⟨q, j⟩ hq
      simp only [Finset.mem_filter, Finset.mem_product, Finset.mem_range] at hq ⊢
      obtain ⟨⟨hq1, hq2⟩, hq3⟩ := hq
      have hd : (q * N + j) / N = q := by
        rw [mul_comm, Nat.mul_add_div hN, Nat.div_eq_of_lt hq2, add_zero]
      have hm : (q * N + j) % N = j := by rw [mul_comm, Nat.mul_add_mod, Nat.mod_eq_of_lt hq2]
      have : (q + 1) * N ≤ P * N := Nat.mul_le_mul_right N hq1
      rw [Nat.add_mul, one_mul] at this
      exact ⟨by omega, by rw [hd, hm]; exact hq3⟩
    · intro k hk
      simp only [Finset.mem_filter, Finset.mem_product, Finset.mem_range] at hk ⊢
      exact ⟨⟨Nat.div_lt_of_lt_mul (by rw [mul_comm]; exact hk.1), Nat.mod_lt _ hN⟩, hk.2⟩
    · rintro ⟨q, j⟩ hq
      simp only [Finset.mem_filter, Finset.mem_product, Finset.mem_range] at hq
      simp only [Prod.mk.injEq]
      constructor
      · rw [mul_comm, Nat.mul_add_div hN, Nat.div_eq_of_lt hq.1.2, add_zero]
      · rw [mul_comm, Nat.mul_add_mod, Nat.mod_eq_of_lt hq.1.2]
    · intro k _
      simp only
      rw [mul_comm, Nat.div_add_mod]
    · rintro ⟨q, j⟩ hq
      simp only [Finset.mem_filter, Finset.mem_product, Finset.mem_range] at hq
      have hd : (q * N + j) / N = q := by
        rw [mul_comm, Nat.mul_add_div hN, Nat.div_eq_of_lt hq.1.2, add_zero]
      have hm : (q * N + j) % N = j := by rw [mul_comm, Nat.mul_add_mod, Nat.mod_eq_of_lt hq.1.2]
      simp only [hd, hm]

-- The hypothesis is met by `exampleNodes` above.

end Verif.Core
