import Verif.Lemmas.PScanTree

/-! C144: `pscan` and `preduce` on pytrees act on every leaf separately and keep the structure. -/

namespace Verif.Comm

variable {L : Type}

mutual
theorem takeTree_sound (d : PyTree Unit) (l : List L) (t : PyTree L) (r : List L) (h : takeTree d l = .ok (t, r)) :
    t.treeDef = d ∧ l = t.flatten ++ r := by
  match d, l with
  | .leaf (), [] => simp [takeTree] at h
  | .leaf (), a :: l =>
    simp only [takeTree, Except.ok.injEq, Prod.mk.injEq] at h
    rw [← h.1, ← h.2]
    exact ⟨by simp [PyTree.treeDef], by simp [PyTree.flatten]⟩
  | .node s ds, l =>
    simp only [takeTree] at h
    split at h
    · cases h
    · next cs r' e =>
      cases h
      obtain ⟨h1, h2⟩ := takeTrees_sound ds l cs _ e
      exact ⟨by simp [PyTree.treeDef, h1], by simpa [PyTree.flatten] using h2⟩
theorem takeTrees_sound (ds : List (PyTree Unit)) (l : List L) (ts : List (PyTree L)) (r : List L)
    (h : takeTrees ds l = .ok (ts, r)) : PyTree.treeDefs ts = ds ∧ l = PyTree.flattenAll ts ++ r := by
  match ds with
  | [] =>
    simp only [takeTrees, Except.ok.injEq, Prod.mk.injEq] at h
    rw [← h.1, ← h.2]
    exact ⟨by simp [PyTree.treeDefs], by simp [PyTree.flattenAll]⟩
  | d :: ds =>
    simp only [takeTrees] at h
    split at h
    · cases h
    · next c r1 e =>
      split at h
      · cases h
      · next cs r2 e2 =>
        cases h
        obtain ⟨h1, h2⟩ := takeTree_sound d l c r1 e
        obtain ⟨g1, g2⟩ := takeTrees_sound ds r1 cs _ e2
        refine ⟨by simp [PyTree.treeDefs, h1, g1], ?_⟩
        rw [h2, g2]
        simp [PyTree.flattenAll]
end

/-- **C144.** Unflattening gives the pytree with the given structure and the given leaves and nothing else; in particular it
recovers a pytree from its parts, and it fails exactly if the number of leaves is wrong. -/
theorem C144_unflatten (d : PyTree Unit) (l : List L) (t : PyTree L) :
    (unflatten d l = .ok t ↔ t.treeDef = d ∧ t.flatten = l) ∧
    ((∃ t, unflatten d l = .ok t) ↔ l.length = d.flatten.length) := by
  have key : ∀ t : PyTree L, unflatten d l = .ok t → t.treeDef = d ∧ t.flatten = l := by
    intro t h
    unfold unflatten at h
    split at h
    · cases h
    · next t' e =>
      cases h
      obtain ⟨h1, h2⟩ := takeTree_sound d l t [] e
      exact ⟨h1, by simpa using h2.symm⟩
    · cases h
  refine ⟨⟨key t, ?_⟩, ?_, ?_⟩
  · rintro ⟨h1, h2⟩
    obtain ⟨s, g1, g2, g3⟩ := unflatten_spec d l (by rw [← h1, ← h2, flatten_treeDef_length])
    rw [g1, eq_of_flatten s t (g2.trans h1.symm) (g3.trans h2.symm)]
  · rintro ⟨s, h⟩
    obtain ⟨h1, h2⟩ := key s h
    rw [← h1, ← h2, flatten_treeDef_length]
  · intro h
    obtain ⟨s, g1, -⟩ := unflatten_spec d l h
    exact ⟨s, g1⟩

/-- The relation "entry `j` of the list". -/
theorem listOp_entry (op : L → L → L) (j : ℕ) (l l' : List L) (a a' : L) (h : l[j]? = some a) (h' : l'[j]? = some a') :
    (listOp op l l')[j]? = some (op a a') := by
  simp [listOp, List.getElem?_zipWith, h, h']

theorem leaves_length {P : ℕ} {x : ℕ → PyTree L} (hd : ∀ i < P, (x i).treeDef = (x 0).treeDef) {i : ℕ} (hi : i < P) :
    (x i).flatten.length = (x 0).flatten.length := by
  rw [← flatten_treeDef_length, hd i hi, flatten_treeDef_length]

theorem listOp_length (op : L → L → L) (n : ℕ) (l l' : List L) (h : l.length = n) (h' : l'.length = n) :
    (listOp op l l').length = n := by
  simp [listOp, h, h']

section
variable (P : ℕ) (op : L → L → L) (unitOf : L → L) (x : ℕ → PyTree L) (hd : ∀ i < P, (x i).treeDef = (x 0).treeDef)
include hd

/-- **C144.** `pscan` of a pytree: no error, the structure of the argument, and every leaf is the `pscan` of that leaf. -/
theorem C144_scan : ∃ r, pscanTree P op unitOf x = .ok r ∧
    ∀ i < P, ∃ y, r i = .ok y ∧ y.treeDef = (x i).treeDef ∧
      ∀ (j : ℕ) (xs : ℕ → L), (∀ k < P, (x k).flatten[j]? = some (xs k)) →
        ∃ s, pscan P op (unitOf (xs 0)) xs = .ok s ∧ y.flatten[j]? = some (s i) := by
  obtain ⟨⟨r, h1, -⟩, -, -⟩ := pscan_tree P (listOp op) (unitsOf unitOf x) (fun i => (x i).flatten)
  obtain ⟨⟨u, h2, -⟩, -, -⟩ := pscan_tree P (fun _ _ => ()) () (fun _ => ())
  refine ⟨fun i => unflatten (x i).treeDef (r i), by simp [pscanTree, h1], fun i hi => ?_⟩
  have hlen : (r i).length = (x i).treeDef.flatten.length := by
    rw [flatten_treeDef_length, leaves_length hd hi]
    exact (pscan_rel (fun (l : List L) (_ : Unit) => l.length = (x 0).flatten.length) (p := fun _ => ([], []))
      (p' := fun _ => ((), ())) (q := fun _ => []) (q' := fun _ => ()) (by simp [unitsOf])
      (fun a _ b _ => listOp_length op _ a b) (fun i hi => leaves_length hd hi)).1 h1 h2 i hi
  obtain ⟨y, g1, g2, g3⟩ := unflatten_spec _ _ hlen
  refine ⟨y, g1, g2, fun j xs hx => ?_⟩
  obtain ⟨⟨s, h3, -⟩, -, -⟩ := pscan_tree P op (unitOf (xs 0)) xs
  refine ⟨s, h3, ?_⟩
  rw [g3]
  exact (pscan_rel (fun (l : List L) (a : L) => l[j]? = some a) (p := fun _ => ([], []))
      (p' := fun _ => (s 0, s 0)) (q := fun _ => []) (q' := fun _ => s 0) (by simp [unitsOf, hx 0 (by omega)])
      (fun a a' b b' => listOp_entry op j a b a' b') hx).1 h1 h3 i hi

/-- **C144.** `pscan` of a pytree with the reduction: both results have the structure of the argument, and their leaves are
the results of that leaf. -/
theorem C144_scan_reduce : ∃ r, pscanReduceTree P op unitOf x = .ok r ∧
    ∀ i < P, ∃ y z, r i = (.ok y, .ok z) ∧ y.treeDef = (x i).treeDef ∧ z.treeDef = (x i).treeDef ∧
      ∀ (j : ℕ) (xs : ℕ → L), (∀ k < P, (x k).flatten[j]? = some (xs k)) →
        ∃ s, pscanReduce P op (unitOf (xs 0)) xs = .ok s ∧ y.flatten[j]? = some (s i).1 ∧ z.flatten[j]? = some (s i).2 := by
  obtain ⟨-, ⟨r, h1, -⟩, -⟩ := pscan_tree P (listOp op) (unitsOf unitOf x) (fun i => (x i).flatten)
  obtain ⟨-, ⟨u, h2, -⟩, -⟩ := pscan_tree P (fun _ _ => ()) () (fun _ => ())
  refine ⟨fun i => (unflatten (x i).treeDef (r i).1, unflatten (x i).treeDef (r i).2), by simp [pscanReduceTree, h1],
    fun i hi => ?_⟩
  have hlen : (r i).1.length = (x i).treeDef.flatten.length ∧ (r i).2.length = (x i).treeDef.flatten.length := by
    rw [flatten_treeDef_length, leaves_length hd hi]
    exact (pscan_rel (fun (l : List L) (_ : Unit) => l.length = (x 0).flatten.length) (r := fun _ => [])
      (r' := fun _ => ()) (q := fun _ => []) (q' := fun _ => ()) (by simp [unitsOf])
      (fun a _ b _ => listOp_length op _ a b) (fun i hi => leaves_length hd hi)).2.1 h1 h2 i hi
  obtain ⟨y, g1, g2, g3⟩ := unflatten_spec _ _ hlen.1
  obtain ⟨z, k1, k2, k3⟩ := unflatten_spec _ _ hlen.2
  refine ⟨y, z, by simp only [g1, k1], g2, k2, fun j xs hx => ?_⟩
  obtain ⟨-, ⟨s, h3, -⟩, -⟩ := pscan_tree P op (unitOf (xs 0)) xs
  refine ⟨s, h3, ?_⟩
  rw [g3, k3]
  exact (pscan_rel (fun (l : List L) (a : L) => l[j]? = some a) (r := fun _ => [])
      (r' := fun _ => (s 0).1) (q := fun _ => []) (q' := fun _ => (s 0).1) (by simp [unitsOf, hx 0 (by omega)])
      (fun a a' b b' => listOp_entry op j a b a' b') hx).2.1 h1 h3 i hi

/-- **C144.** `preduce` of a pytree, for the operators without a built in collective. -/
theorem C144_reduce : ∃ r, preduceTree P op unitOf x = .ok r ∧
    ∀ i < P, ∃ y, r i = .ok y ∧ y.treeDef = (x i).treeDef ∧
      ∀ (j : ℕ) (xs : ℕ → L), (∀ k < P, (x k).flatten[j]? = some (xs k)) →
        ∃ s, preduce P op (unitOf (xs 0)) xs = .ok s ∧ y.flatten[j]? = some (s i) := by
  obtain ⟨-, -, ⟨r, h1, -⟩⟩ := pscan_tree P (listOp op) (unitsOf unitOf x) (fun i => (x i).flatten)
  obtain ⟨-, -, ⟨u, h2, -⟩⟩ := pscan_tree P (fun _ _ => ()) () (fun _ => ())
  refine ⟨fun i => unflatten (x i).treeDef (r i), by simp [preduceTree, h1], fun i hi => ?_⟩
  have hlen : (r i).length = (x i).treeDef.flatten.length := by
    rw [flatten_treeDef_length, leaves_length hd hi]
    exact (pscan_rel (fun (l : List L) (_ : Unit) => l.length = (x 0).flatten.length) (p := fun _ => ([], []))
      (p' := fun _ => ((), ())) (r := fun _ => []) (r' := fun _ => ()) (by simp [unitsOf])
      (fun a _ b _ => listOp_length op _ a b) (fun i hi => leaves_length hd hi)).2.2 h1 h2 i hi
  obtain ⟨y, g1, g2, g3⟩ := unflatten_spec _ _ hlen
  refine ⟨y, g1, g2, fun j xs hx => ?_⟩
  obtain ⟨-, -, ⟨s, h3, -⟩⟩ := pscan_tree P op (unitOf (xs 0)) xs
  refine ⟨s, h3, ?_⟩
  rw [g3]
  exact (pscan_rel (fun (l : List L) (a : L) => l[j]? = some a) (p := fun _ => ([], []))
      (p' := fun _ => (s 0, s 0)) (r := fun _ => []) (r' := fun _ => s 0) (by simp [unitsOf, hx 0 (by omega)])
      (fun a a' b b' => listOp_entry op j a b a' b') hx).2.2 h1 h3 i hi

end

/-- A nested pytree on three devices (and an empty container) meets the hypotheses. -/
def sampleTree (i : ℕ) : PyTree ℤ :=
  .node "tuple" [.leaf (i + 1), .node "dict:a,b" [.leaf (2 * i), .leaf 5], .node "None" []]

example : ∀ i < 3, (sampleTree i).treeDef = (sampleTree 0).treeDef := by
  intro i _; simp [sampleTree, PyTree.treeDef, PyTree.treeDefs]

example : ∀ k < 3, (sampleTree k).flatten[1]? = some (2 * (k : ℤ)) := by
  intro k _; simp [sampleTree, PyTree.flatten, PyTree.flattenAll]

/-- The sums of the three leaves of the sample, on device 2. -/
example : (match pscanTree 3 (· + ·) (fun _ => 0) sampleTree with
    | .ok r => (match r 2 with | .ok y => y.flatten | .error _ => [])
    | .error _ => []) = [3, 2, 10] := by
  decide +kernel

end Verif.Comm
