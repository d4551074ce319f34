import Verif.Prelude
import Verif.Model.Partitioner

/-! # C30: the partitioner's graph is exactly the shares-a-node relation -/

namespace Verif.Common

theorem mem_bipartiteEdges {elements : List (List ℕ)} {a b : ℕ} :
    (a, b) ∈ bipartiteEdges elements ↔ ∃ i, b = elements.length + i ∧ ∃ el, elements[a]? = some el ∧ i ∈ el := by
  unfold bipartiteEdges
  simp only [List.mem_flatMap, List.mem_range, List.mem_map, Prod.mk.injEq]
  constructor
  · rintro ⟨e, he, i, hi, rfl, rfl⟩
    exact ⟨i, rfl, _, List.getElem?_eq_getElem he, by rwa [List.getD_eq_getElem _ _ he] at hi⟩
  · rintro ⟨i, rfl, el, hel, hi⟩
    obtain ⟨h, rfl⟩ := List.getElem?_eq_some_iff.mp hel
    exact ⟨a, h, i, by rwa [List.getD_eq_getElem _ _ h], rfl, rfl⟩

theorem mem_neighbours {edges : List (ℕ × ℕ)} {v w : ℕ} :
    w ∈ neighbours edges v ↔ (v, w) ∈ edges ∨ (w, v) ∈ edges := by
  unfold neighbours
  simp only [List.mem_dedup, List.mem_flatMap, List.mem_append]
  constructor
  · rintro ⟨⟨a, b⟩, hp, h | h⟩
    · split at h
      · rename_i h'; simp at h h'; subst h h'; exact Or.inl hp
      · simp at h
    · split at h
      · rename_i h'; simp at h h'; subst h h'; exact Or.inr hp
      · simp at h
  · rintro (h | h)
    · exact ⟨_, h, Or.inl (by simp)⟩
    · exact ⟨_, h, Or.inr (by simp)⟩

/-- The adjacency list of element `s` holds exactly the other elements which share a node with it, each once. -/
theorem C30_adjacency {elements : List (List ℕ)} {s : ℕ} {els : List ℕ} (hs : elements[s]? = some els) (hne : els ≠ []) :
    ∃ adj, adjacency elements s = some adj ∧ adj.Nodup ∧
      ∀ t, t ∈ adj ↔ t ≠ s ∧ ∃ elt, elements[t]? = some elt ∧ ∃ i, i ∈ els ∧ i ∈ elt := by
  obtain ⟨hsl, hse⟩ := List.getElem?_eq_some_iff.mp hs
  set edges := bipartiteEdges elements with hedges
  have hnb : ∀ w, w ∈ neighbours edges s ↔ ∃ i, w = elements.length + i ∧ i ∈ els := by
    intro w
    rw [mem_neighbours, hedges, mem_bipartiteEdges, mem_bipartiteEdges]
    constructor
    · rintro (⟨i, rfl, el, hel, hi⟩ | ⟨i, h, _⟩)
      · rw [hs] at hel; cases hel; exact ⟨i, rfl, hi⟩
      · omega
    · rintro ⟨i, rfl, hi⟩
      exact Or.inl ⟨i, rfl, els, hs, hi⟩
  have hnb' : ∀ i w, w ∈ neighbours edges (elements.length + i) ↔ ∃ el, elements[w]? = some el ∧ i ∈ el := by
    intro i w
    rw [mem_neighbours, hedges, mem_bipartiteEdges, mem_bipartiteEdges]
    constructor
    · rintro (⟨j, _, el, hel, _⟩ | ⟨j, hj, el, hel, hjel⟩)
      · rw [List.getElem?_eq_none (by omega)] at hel; cases hel
      · have : j = i := by omega
        subst this; exact ⟨el, hel, hjel⟩
    · rintro ⟨el, hel, hi⟩
      exact Or.inr ⟨i, rfl, el, hel, hi⟩
  have hnonempty : neighbours edges s ≠ [] := by
    obtain ⟨i, hi⟩ := List.exists_mem_of_ne_nil els hne
    exact List.ne_nil_of_mem ((hnb _).mpr ⟨i, rfl, hi⟩)
  set n1 := (([s].flatMap (neighbours edges)).dedup).filter (fun v => v ∉ [s]) with hn1
  set n2 := ((n1.flatMap (neighbours edges)).dedup).filter (fun v => v ∉ [s] ++ n1) with hn2
  have h1 : ∀ w, w ∈ n1 ↔ ∃ i, w = elements.length + i ∧ i ∈ els := by
    intro w
    rw [hn1]
    simp only [List.flatMap_cons, List.flatMap_nil, List.append_nil, List.mem_filter, List.mem_dedup, hnb,
      List.mem_singleton, decide_eq_true_eq]
    exact ⟨fun h => h.1, fun h => ⟨h, by obtain ⟨i, rfl, _⟩ := h; omega⟩⟩
  have hadj : adjacency elements s = some n2 := by
    unfold adjacency shortestPaths
    rw [if_neg hnonempty]
    simp only [bfs, Option.map_some, Option.some.injEq]
    simp only [← hedges, ← hn1, ← hn2, zero_add, List.append_nil]
    rw [List.filter_cons_of_neg (by simp), List.filter_append]
    have e1 : (n1.map (fun v => (v, 1))).filter (fun p : ℕ × ℕ => p.2 = 2) = [] := by
      rw [List.filter_eq_nil_iff]; intro p hp; obtain ⟨v, _, rfl⟩ := List.mem_map.mp hp; simp
    have e2 : (n2.map (fun v => (v, 1 + 1))).filter (fun p : ℕ × ℕ => p.2 = 2) = n2.map (fun v => (v, 2)) := by
      rw [List.filter_eq_self]; intro p hp; obtain ⟨v, _, rfl⟩ := List.mem_map.mp hp; simp
    rw [e1, e2, List.nil_append, List.map_map]
    exact List.map_id n2
  refine ⟨n2, hadj, (List.nodup_dedup _).filter _, fun t => ?_⟩
  rw [hn2, List.mem_filter, List.mem_dedup, List.mem_flatMap]
  simp only [List.mem_append, List.mem_singleton, decide_eq_true_eq]
  constructor
  · rintro ⟨⟨w, hw, ht⟩, hnot⟩
    obtain ⟨i, rfl, hi⟩ := (h1 w).mp hw
    obtain ⟨el, hel, hiel⟩ := (hnb' i t).mp ht
    exact ⟨fun h => hnot (Or.inl h), el, hel, i, hi, hiel⟩
  · rintro ⟨hts, el, hel, i, hi, hiel⟩
    refine ⟨⟨elements.length + i, (h1 _).mpr ⟨i, rfl, hi⟩, (hnb' i t).mpr ⟨el, hel, hiel⟩⟩, ?_⟩
    rintro (h | h)
    · exact hts h
    · obtain ⟨j, rfl, _⟩ := (h1 t).mp h
      rw [List.getElem?_eq_none (by omega)] at hel
      cases hel

/-- The relation is symmetric and irreflexive. -/
theorem C30_symmetric {elements : List (List ℕ)} {s t : ℕ} {els elt adjs adjt : List ℕ} (hs : elements[s]? = some els)
    (ht : elements[t]? = some elt) (hne : els ≠ []) (hnet : elt ≠ []) (ha : adjacency elements s = some adjs)
    (hb : adjacency elements t = some adjt) : s ∉ adjs ∧ (t ∈ adjs ↔ s ∈ adjt) := by
  obtain ⟨a, h1, _, h2⟩ := C30_adjacency hs hne
  obtain ⟨b, h3, _, h4⟩ := C30_adjacency ht hnet
  rw [ha] at h1; rw [hb] at h3
  cases h1; cases h3
  refine ⟨fun h => ((h2 s).mp h).1 rfl, ?_⟩
  rw [h2, h4]
  constructor
  · rintro ⟨h, el, hel, i, hi, hi'⟩
    rw [ht] at hel; cases hel
    exact ⟨h.symm, els, hs, i, hi', hi⟩
  · rintro ⟨h, el, hel, i, hi, hi'⟩
    rw [hs] at hel; cases hel
    exact ⟨h.symm, elt, ht, i, hi', hi⟩

/-- Non-vacuity: three segments, the first two joined, the last one apart. -/
example : adjacency [[0, 1], [1, 2], [3, 4]] 0 = some [1] ∧ adjacency [[0, 1], [1, 2], [3, 4]] 1 = some [0] ∧
    adjacency [[0, 1], [1, 2], [3, 4]] 2 = some [] := by decide

end Verif.Common
