import Verif.Lemmas.PScanFloat
import Verif.Model.PScanTree

/-! Flattening and unflattening are inverse, and the fan-in / fan-out scheme on lists of leaves acts leaf by leaf. -/

namespace Verif.Comm

variable {L : Type}

mutual
theorem takeTree_spec (d : PyTree Unit) (l : List L) (h : d.flatten.length ≤ l.length) :
    ∃ t, takeTree d l = .ok (t, l.drop d.flatten.length) ∧ t.treeDef = d ∧ t.flatten = l.take d.flatten.length := by
  match d, l with
  | .leaf (), [] => simp [PyTree.flatten] at h
  | .leaf (), a :: l => exact ⟨.leaf a, by simp [takeTree, PyTree.flatten], by simp [PyTree.treeDef], by simp [PyTree.flatten]⟩
  | .node s ds, l =>
    simp only [PyTree.flatten] at h
    obtain ⟨ts, h1, h2, h3⟩ := takeTrees_spec ds l h
    exact ⟨.node s ts, by simp [takeTree, h1, PyTree.flatten], by simp [PyTree.treeDef, h2], by simp [PyTree.flatten, h3]⟩
theorem takeTrees_spec (ds : List (PyTree Unit)) (l : List L) (h : (PyTree.flattenAll ds).length ≤ l.length) :
    ∃ ts, takeTrees ds l = .ok (ts, l.drop (PyTree.flattenAll ds).length) ∧ PyTree.treeDefs ts = ds ∧
      PyTree.flattenAll ts = l.take (PyTree.flattenAll ds).length := by
  match ds with
  | [] => exact ⟨[], by simp [takeTrees, PyTree.flattenAll], by simp [PyTree.treeDefs], by simp [PyTree.flattenAll]⟩
  | d :: ds =>
    simp only [PyTree.flattenAll, List.length_append] at h
    obtain ⟨t, h1, h2, h3⟩ := takeTree_spec d l (by omega)
    obtain ⟨ts, g1, g2, g3⟩ := takeTrees_spec ds (l.drop d.flatten.length) (by rw [List.length_drop]; omega)
    refine ⟨t :: ts, ?_, by simp [PyTree.treeDefs, h2, g2], ?_⟩
    · simp [takeTrees, h1, g1, PyTree.flattenAll]
    · simp only [PyTree.flattenAll, h3, g3, List.length_append]
      rw [List.take_add]
end

mutual
theorem flatten_treeDef_length (t : PyTree L) : t.treeDef.flatten.length = t.flatten.length := by
  match t with
  | .leaf a => simp [PyTree.treeDef, PyTree.flatten]
  | .node s cs => simp only [PyTree.treeDef, PyTree.flatten]; exact flattenAll_treeDefs_length cs
theorem flattenAll_treeDefs_length (cs : List (PyTree L)) :
    (PyTree.flattenAll (PyTree.treeDefs cs)).length = (PyTree.flattenAll cs).length := by
  match cs with
  | [] => simp [PyTree.treeDefs, PyTree.flattenAll]
  | c :: cs =>
    simp only [PyTree.treeDefs, PyTree.flattenAll, List.length_append]
    rw [flatten_treeDef_length c, flattenAll_treeDefs_length cs]
end

theorem unflatten_spec (d : PyTree Unit) (l : List L) (h : l.length = d.flatten.length) :
    ∃ t, unflatten d l = .ok t ∧ t.treeDef = d ∧ t.flatten = l := by
  obtain ⟨t, h1, h2, h3⟩ := takeTree_spec d l h.ge
  refine ⟨t, ?_, h2, ?_⟩
  · rw [List.drop_of_length_le h.le] at h1
    simp [unflatten, h1]
  · rw [h3, List.take_of_length_le h.le]

mutual
theorem eq_of_flatten (s t : PyTree L) (hd : s.treeDef = t.treeDef) (hl : s.flatten = t.flatten) : s = t := by
  match s, t with
  | .leaf a, .leaf b => simpa [PyTree.flatten] using hl
  | .leaf a, .node _ _ => simp [PyTree.treeDef] at hd
  | .node _ _, .leaf b => simp [PyTree.treeDef] at hd
  | .node a cs, .node b ds =>
    simp only [PyTree.treeDef, PyTree.node.injEq] at hd
    simp only [PyTree.flatten] at hl
    rw [hd.1, eq_of_flattenAll cs ds hd.2 hl]
theorem eq_of_flattenAll (s t : List (PyTree L)) (hd : PyTree.treeDefs s = PyTree.treeDefs t)
    (hl : PyTree.flattenAll s = PyTree.flattenAll t) : s = t := by
  match s, t with
  | [], [] => rfl
  | [], _ :: _ => simp [PyTree.treeDefs] at hd
  | _ :: _, [] => simp [PyTree.treeDefs] at hd
  | a :: s, b :: t =>
    simp only [PyTree.treeDefs, List.cons.injEq] at hd
    simp only [PyTree.flattenAll] at hl
    have hn : a.flatten.length = b.flatten.length := by
      rw [← flatten_treeDef_length a, ← flatten_treeDef_length b, hd.1]
    obtain ⟨h1, h2⟩ := List.append_inj hl hn
    rw [eq_of_flatten a b hd.1 h1, eq_of_flattenAll s t hd.2 h2]
end

/-- `R` is preserved by the tree of the fan-in. -/
theorem treeRed_rel {α β : Type*} (R : α → β → Prop) {op : α → α → α} {op' : β → β → β}
    (hop : ∀ a a' b b', R a a' → R b b' → R (op a b) (op' a' b')) {x : ℕ → α} {x' : ℕ → β} {P : ℕ}
    (hx : ∀ i < P, R (x i) (x' i)) : ∀ n a, 0 < n → a + n ≤ P → R (treeRed op x a n) (treeRed op' x' a n) := by
  intro n
  induction n using Nat.strong_induction_on with
  | _ n ih =>
    intro a h0 h
    by_cases c : 1 < n
    · rw [treeRed_split op x a c, treeRed_split op' x' a c]
      exact hop _ _ _ _ (ih _ (by omega) _ (by omega) (by omega)) (ih _ (by omega) _ (by omega) (by omega))
    · rw [treeRed_one op x a (by omega), treeRed_one op' x' a (by omega)]
      exact hx a (by omega)

theorem treeScan_rel {α β : Type*} (R : α → β → Prop) {op : α → α → α} {op' : β → β → β}
    (hop : ∀ a a' b b', R a a' → R b b' → R (op a b) (op' a' b')) {x : ℕ → α} {x' : ℕ → β} {P : ℕ}
    (hx : ∀ i < P, R (x i) (x' i)) (i : ℕ) : ∀ n a (acc : α) (acc' : β), a + n ≤ P → R acc acc' →
      R (treeScan op x i a n acc) (treeScan op' x' i a n acc') := by
  intro n
  induction n using Nat.strong_induction_on with
  | _ n ih =>
    intro a acc acc' h hacc
    by_cases c : 1 < n
    · by_cases hi : i < a + (n + 1) / 2
      · rw [treeScan_lo op x acc c hi, treeScan_lo op' x' acc' c hi]
        exact ih _ (by omega) _ _ _ (by omega) hacc
      · rw [treeScan_hi op x acc c hi, treeScan_hi op' x' acc' c hi]
        exact ih _ (by omega) _ _ _ (by omega)
          (hop _ _ _ _ hacc (treeRed_rel R hop hx _ _ (by omega) (by omega)))
    · rw [treeScan_one op x i a acc (by omega), treeScan_one op' x' i a acc' (by omega)]
      exact hacc

theorem prefixTree_rel {α β : Type*} (R : α → β → Prop) {op : α → α → α} {op' : β → β → β} {unit : α} {unit' : β}
    (hu : R unit unit') (hop : ∀ a a' b b', R a a' → R b b' → R (op a b) (op' a' b')) {x : ℕ → α} {x' : ℕ → β} {P : ℕ}
    (hx : ∀ i < P, R (x i) (x' i)) (i : ℕ) : R (prefixTree op unit x P i) (prefixTree op' unit' x' P i) := by
  unfold prefixTree
  split_ifs with h1 h2
  · exact hu
  · exact treeScan_rel R hop hx i _ _ _ _ (by omega) hu
  · exact treeScan_rel R hop hx i _ _ _ _ (by omega) (treeRed_rel R hop hx _ _ (by omega) (by omega))

/-- Related inputs give related results. -/
theorem pscan_rel {α β : Type*} (R : α → β → Prop) {op : α → α → α} {op' : β → β → β} {unit : α} {unit' : β}
    (hu : R unit unit') (hop : ∀ a a' b b', R a a' → R b b' → R (op a b) (op' a' b')) {x : ℕ → α} {x' : ℕ → β} {P : ℕ}
    (hx : ∀ i < P, R (x i) (x' i)) {r : ℕ → α} {r' : ℕ → β} {p : ℕ → α × α} {p' : ℕ → β × β} {q : ℕ → α} {q' : ℕ → β} :
    (pscan P op unit x = .ok r → pscan P op' unit' x' = .ok r' → ∀ i < P, R (r i) (r' i)) ∧
    (pscanReduce P op unit x = .ok p → pscanReduce P op' unit' x' = .ok p' →
      ∀ i < P, R (p i).1 (p' i).1 ∧ R (p i).2 (p' i).2) ∧
    (preduce P op unit x = .ok q → preduce P op' unit' x' = .ok q' → ∀ i < P, R (q i) (q' i)) := by
  obtain ⟨⟨r1, a1, a2⟩, ⟨p1, b1, b2⟩, ⟨q1, c1, c2⟩⟩ := pscan_tree P op unit x
  obtain ⟨⟨r2, a3, a4⟩, ⟨p2, b3, b4⟩, ⟨q2, c3, c4⟩⟩ := pscan_tree P op' unit' x'
  rw [a1, a3, b1, b3, c1, c3]
  refine ⟨?_, ?_, ?_⟩
  · rintro ⟨⟩ ⟨⟩ i hi
    rw [a2 i hi, a4 i hi]
    exact prefixTree_rel R hu hop hx i
  · rintro ⟨⟩ ⟨⟩ i hi
    rw [b2 i hi, b4 i hi]
    exact ⟨prefixTree_rel R hu hop hx i, treeRed_rel R hop hx _ _ (by omega) (by omega)⟩
  · rintro ⟨⟩ ⟨⟩ i hi
    rw [c2 i hi, c4 i hi]
    exact treeRed_rel R hop hx _ _ (by omega) (by omega)

end Verif.Comm
