import Verif.Lemmas.GatherScatter

/-!
# C17, C18: grouping elements by partition and local renumbering
-/

namespace Verif.Core

/-! ### Helper lemmas -/

theorem le_foldl_max (l : List ℕ) (a : ℕ) : a ≤ l.foldl max a ∧ ∀ x ∈ l, x ≤ l.foldl max a := by
  induction l generalizing a with
  | nil => simp
  | cons b l ih =>
    obtain ⟨h1, h2⟩ := ih (max a b)
    simp only [List.foldl_cons, List.mem_cons, forall_eq_or_imp]
    exact ⟨le_trans (le_max_left _ _) h1, le_trans (le_max_right _ _) h1, h2⟩

theorem foldl_max_mem (l : List ℕ) (a : ℕ) : l.foldl max a = a ∨ l.foldl max a ∈ l := by
  induction l generalizing a with
  | nil => simp
  | cons b l ih =>
    rw [List.foldl_cons]
    rcases ih (max a b) with h | h
    · rw [h]
      rcases le_total a b with hab | hab
      · right; rw [max_eq_right hab]; exact List.mem_cons_self
      · left; exact max_eq_left hab
    · right; exact List.mem_cons_of_mem _ h

theorem padEvenly_length (l : List (List ℤ)) : (padEvenly l).length = l.length := by
  simp [padEvenly]

theorem padEvenly_getElem? (l : List (List ℤ)) (p : ℕ) :
    (padEvenly l)[p]? = l[p]?.map (fun i => i ++ List.replicate
      ((l.map List.length).foldl max 0 - i.length) (-1)) := by
  simp [padEvenly, sentinel]

theorem padEvenly_row_length (l : List (List ℤ)) {r : List ℤ} (hr : r ∈ padEvenly l) :
    r.length = (l.map List.length).foldl max 0 := by
  simp only [padEvenly, List.mem_map] at hr
  obtain ⟨i, hi, rfl⟩ := hr
  have := (le_foldl_max (l.map List.length) 0).2 i.length (List.mem_map.mpr ⟨i, hi, rfl⟩)
  simp only [List.length_append, List.length_replicate]
  omega

/-- Rows of the grouping loop before padding. -/
theorem groupLoop (parts : List ℕ) (n : ℕ) (hn : ∀ x ∈ parts, x < n) :
    let rows := parts.zipIdx.foldl
      (fun acc (pi : ℕ × ℕ) => acc.modify pi.1 (fun l => l ++ [(pi.2 : ℤ)]))
      (List.replicate n ([] : List ℤ))
    rows.length = n ∧ ∀ p < n, rows[p]? = some
      (((List.range parts.length).filter (fun i => parts[i]? = some p)).map (fun i : ℕ => (i : ℤ))) := by
  induction parts using List.reverseRecOn with
  | nil =>
    refine ⟨by simp, fun p hp => ?_⟩
    simp [hp]
  | append_singleton l a ih =>
    obtain ⟨ih1, ih2⟩ := ih (fun x hx => hn x (List.mem_append_left _ hx))
    have ha : a < n := hn a (by simp)
    simp only [List.zipIdx_append, List.foldl_append, List.zipIdx_cons, List.zipIdx_nil,
      List.foldl_cons, List.foldl_nil, zero_add]
    refine ⟨by rw [List.length_modify]; exact ih1, fun p hp => ?_⟩
    have hfilt : (List.range (l ++ [a]).length).filter (fun i => (l ++ [a])[i]? = some p) =
        (List.range l.length).filter (fun i => l[i]? = some p) ++
          (if a = p then [l.length] else []) := by
      rw [List.length_append, List.length_singleton, List.range_succ, List.filter_append]
      congr 1
      · apply List.filter_congr
        intro i hi
        rw [List.mem_range] at hi
        rw [List.getElem?_append_left hi]
      · by_cases h : a = p
        · simp [h]
        · simp [h]
    rw [hfilt, List.getElem?_modify, ih2 p hp]
    by_cases h : a = p
    · subst h; simp
    · simp [h]

/-! ### C17 -/

/-- Row `p` lists in increasing order the elements of partition `p`, followed by sentinels; there is one row
for each partition id up to the largest and all rows are as long as the largest partition. -/
theorem C17_group_by_partitions (parts : List ℕ) (hne : parts ≠ []) :
    ∃ n, (groupByPartitions parts).length = n ∧ (n - 1 ∈ parts ∧ 0 < n ∧ ∀ x ∈ parts, x < n) ∧
    ∃ width, (∀ p < n, parts.count p ≤ width) ∧ (∃ p < n, parts.count p = width) ∧
      ∀ p < n, (groupByPartitions parts)[p]? = some
        (((List.range parts.length).filter (fun i => parts[i]? = some p)).map (fun i : ℕ => (i : ℤ))
          ++ List.replicate (width - parts.count p) (-1)) := by
  have hmax := le_foldl_max parts 0
  have hlt : ∀ x ∈ parts, x < 1 + parts.foldl max 0 := fun x hx => by
    have := hmax.2 x hx; omega
  obtain ⟨h1, h2⟩ := groupLoop parts (1 + parts.foldl max 0) hlt
  have hcount : ∀ p, ((List.range parts.length).filter (fun i => parts[i]? = some p)).length =
      parts.count p := by
    intro p
    clear hmax hlt h1 h2 hne
    induction parts using List.reverseRecOn with
    | nil => simp
    | append_singleton l a ih =>
      rw [List.length_append, List.length_singleton, List.range_succ, List.filter_append,
        List.length_append, List.count_append, ← ih]
      congr 1
      · congr 1
        apply List.filter_congr
        intro i hi
        rw [List.mem_range] at hi
        rw [List.getElem?_append_left hi]
      · by_cases h : a = p
        · simp [h]
        · simp [h]
  have hmem : parts.foldl max 0 ∈ parts := by
    rcases foldl_max_mem parts 0 with h | h
    · cases parts with
      | nil => exact absurd rfl hne
      | cons b l =>
        have := hmax.2 b List.mem_cons_self
        rw [h] at this ⊢
        have : b = 0 := by omega
        subst this; exact List.mem_cons_self
    · exact h
  refine ⟨1 + parts.foldl max 0, ?_, ⟨by simpa using hmem, by omega, hlt⟩, ?_⟩
  · unfold groupByPartitions
    rw [padEvenly_length]
    exact h1
  · have hrows : groupByPartitions parts = padEvenly (parts.zipIdx.foldl
      (fun acc (pi : ℕ × ℕ) => acc.modify pi.1 (fun l => l ++ [(pi.2 : ℤ)]))
      (List.replicate (1 + parts.foldl max 0) ([] : List ℤ))) := rfl
    rw [hrows]
    generalize (parts.zipIdx.foldl
      (fun acc (pi : ℕ × ℕ) => acc.modify pi.1 (fun l => l ++ [(pi.2 : ℤ)]))
      (List.replicate (1 + parts.foldl max 0) ([] : List ℤ))) = rows at h1 h2
    have hlens : ∀ p < 1 + parts.foldl max 0, (rows.map List.length)[p]? = some (parts.count p) := by
      intro p hp
      rw [List.getElem?_map, h2 p hp, Option.map_some, List.length_map, hcount]
    refine ⟨(rows.map List.length).foldl max 0, ?_, ?_, ?_⟩
    · intro p hp
      exact (le_foldl_max (rows.map List.length) 0).2 _ (List.mem_of_getElem? (hlens p hp))
    · rcases foldl_max_mem (rows.map List.length) 0 with h | h
      · refine ⟨0, by omega, ?_⟩
        have := (le_foldl_max (rows.map List.length) 0).2 _
          (List.mem_of_getElem? (hlens 0 (by omega)))
        omega
      · obtain ⟨p, hp⟩ := List.mem_iff_getElem?.mp h
        have hpl : p < 1 + parts.foldl max 0 := by
          have := (List.getElem?_eq_some_iff.mp hp).1
          rw [List.length_map, h1] at this
          exact this
        refine ⟨p, hpl, ?_⟩
        rw [hlens p hpl] at hp
        exact Option.some.inj hp
    · intro p hp
      rw [padEvenly_getElem?, h2 p hp, Option.map_some, List.length_map, hcount]

example : groupByPartitions [2, 0, 2, 2] = [[1, -1, -1], [-1, -1, -1], [0, 2, 3]] := by decide

/-! ### C18 -/

theorem mem_dedupNodes {l : List ℤ} {x : ℤ} : x ∈ dedupNodes l ↔ x ∈ l ∧ x ≠ -1 := by
  unfold dedupNodes sentinel
  rw [List.mem_insertionSort, List.mem_dedup, List.mem_filter]
  simp

theorem dedupNodes_sorted (l : List ℤ) : (dedupNodes l).Pairwise (· < ·) := by
  unfold dedupNodes
  have h1 := List.pairwise_insertionSort (· ≤ ·) ((l.filter (fun i => i ≠ sentinel)).dedup)
  have h2 : (((l.filter (fun i => i ≠ sentinel)).dedup).insertionSort (· ≤ ·)).Nodup :=
    (List.perm_insertionSort _ _).nodup_iff.mpr (List.nodup_dedup _)
  exact (h1.and h2).imp (fun h => lt_of_le_of_ne h.1 h.2)

/-- Per partition: the node list is the strictly increasing list of the nodes used there, padded with
sentinels to a common width, and the local elements point back to the global ones. -/
theorem C18_local_elements (elements : List (List ℤ)) :
    (getLocalElements elements).1.length = elements.length ∧
    (getLocalElements elements).2.length = elements.length ∧
    (∃ width, ∀ r ∈ (getLocalElements elements).1, r.length = width) ∧
    ∀ p (hp : p < elements.length), ∃ real pad locals,
      (getLocalElements elements).1[p]? = some (real ++ List.replicate pad (-1)) ∧
      (getLocalElements elements).2[p]? = some locals ∧
      real.Pairwise (· < ·) ∧ (∀ x, x ∈ real ↔ x ∈ elements[p] ∧ x ≠ -1) ∧
      locals.length = elements[p].length ∧
      ∀ k (hk : k < elements[p].length),
        (elements[p][k] = -1 → locals[k]? = some (-1)) ∧
        (elements[p][k] ≠ -1 → ∃ s : ℕ, locals[k]? = some (s : ℤ) ∧ s < real.length ∧
          (real ++ List.replicate pad (-1))[s]? = some elements[p][k]) := by
  refine ⟨?_, ?_, ?_, ?_⟩
  · simp [getLocalElements, padEvenly_length]
  · simp [getLocalElements, padEvenly_length]
  · exact ⟨_, fun r hr => padEvenly_row_length _ hr⟩
  · intro p hp
    set W := ((elements.map dedupNodes).map List.length).foldl max 0 with hW
    have hrow : (getLocalElements elements).1[p]? = some (dedupNodes elements[p] ++
        List.replicate (W - (dedupNodes elements[p]).length) (-1)) := by
      simp only [getLocalElements]
      rw [padEvenly_getElem?, List.getElem?_map, List.getElem?_eq_getElem hp]
      rfl
    set row := dedupNodes elements[p] ++ List.replicate (W - (dedupNodes elements[p]).length) (-1)
      with hrowdef
    refine ⟨dedupNodes elements[p], W - (dedupNodes elements[p]).length,
      elements[p].map (fun i => if i ≠ -1 ∧ i ∈ row then ((row.idxOf i : ℕ) : ℤ) else -1),
      hrow, ?_, dedupNodes_sorted _, fun x => mem_dedupNodes, by simp, ?_⟩
    · have h1 : (getLocalElements elements).1 = padEvenly (elements.map dedupNodes) := rfl
      rw [h1] at hrow
      simp only [getLocalElements]
      rw [List.getElem?_map]
      have hz : (elements.zip (padEvenly (elements.map dedupNodes)))[p]? = some (elements[p], row) := by
        rw [List.getElem?_zip_eq_some]
        exact ⟨List.getElem?_eq_getElem hp, hrow⟩
      rw [hz, Option.map_some]
      congr 1
      apply List.map_congr_left
      intro i _
      by_cases h : i ≠ sentinel ∧ i ∈ row
      · simp only [if_pos h]; exact (if_pos h).symm
      · simp only [if_neg h]; exact (if_neg h).symm
    · intro k hk
      have hloc : (elements[p].map (fun i => if i ≠ -1 ∧ i ∈ row then ((row.idxOf i : ℕ) : ℤ) else -1))[k]?
          = some (if elements[p][k] ≠ -1 ∧ elements[p][k] ∈ row then
            ((row.idxOf elements[p][k] : ℕ) : ℤ) else -1) := by
        rw [List.getElem?_map, List.getElem?_eq_getElem hk]
        rfl
      refine ⟨fun h => ?_, fun h => ?_⟩
      · rw [hloc, if_neg (fun hc => hc.1 h)]
      · have hreal : elements[p][k] ∈ dedupNodes elements[p] :=
          mem_dedupNodes.mpr ⟨List.getElem_mem hk, h⟩
        have hmem : elements[p][k] ∈ row := List.mem_append_left _ hreal
        have hidx : row.idxOf elements[p][k] = (dedupNodes elements[p]).idxOf elements[p][k] := by
          rw [hrowdef]
          exact List.idxOf_append_of_mem hreal
        refine ⟨row.idxOf elements[p][k], ?_, ?_, ?_⟩
        · rw [hloc, if_pos ⟨h, hmem⟩]
        · rw [hidx]; exact List.idxOf_lt_length_iff.mpr hreal
        · rw [List.getElem?_eq_some_iff]
          exact ⟨List.idxOf_lt_length_iff.mpr hmem, List.getElem_idxOf _⟩

/-- The example of the docstring, with an uneven third partition. -/
example : getLocalElements [[2, 3, 3, 4], [4, 5, 5, 2], [9, 9, -1, -1]] =
    ([[2, 3, 4], [2, 4, 5], [9, -1, -1]], [[0, 1, 1, 2], [1, 2, 2, 0], [0, 0, -1, -1]]) := by decide

end Verif.Core
