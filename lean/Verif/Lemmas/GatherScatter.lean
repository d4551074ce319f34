import Verif.Model.GatherScatter
import Verif.Spec.Exchange
import Verif.Prelude

/-! Helper lemmas for gather/scatter and exchange. -/

namespace Verif.Core

open Verif.Spec

theorem readPos_of_range {N : ℕ} {i : ℤ} (h0 : 0 ≤ i) (h1 : i < N) : readPos N i = i.toNat := by
  unfold readPos
  rw [if_neg (by omega), max_eq_left h0, min_eq_left (by omega)]

theorem readPos_natCast {N p : ℕ} (h : p < N) : readPos N (p : ℤ) = p := by
  rw [readPos_of_range (by omega) (by omega)]; simp

theorem writePos_of_range {N : ℕ} {i : ℤ} (h0 : 0 ≤ i) (h1 : i < N) : writePos N i = some i.toNat := by
  unfold writePos
  simp only [if_neg (not_lt.mpr h0)]
  rw [if_pos ⟨h0, h1⟩]

theorem writePos_natCast {N p : ℕ} (h : p < N) : writePos N (p : ℤ) = some p := by
  rw [writePos_of_range (by omega) (by omega)]; simp

theorem maskOf_natCast {R : Type*} [CommRing R] (p : ℕ) : (maskOf (p : ℤ) : R) = 1 := by
  unfold maskOf sentinel; rw [if_pos (by omega)]

theorem maskOf_ne {R : Type*} [CommRing R] {i : ℤ} (h : i ≠ -1) : (maskOf i : R) = 1 := by
  unfold maskOf sentinel; rw [if_pos h]

theorem maskOf_sentinel {R : Type*} [CommRing R] : (maskOf (-1) : R) = 0 := by
  unfold maskOf sentinel; simp

/-! ### Periodic mapping -/

/-- Edge relation of a list of edges. -/
def EdgeRel (edges : List (ℤ × ℤ)) (a b : ℤ) : Prop := (a, b) ∈ edges

theorem eqvGen_mono_edges {es es' : List (ℤ × ℤ)} (h : ∀ e ∈ es, e ∈ es') {x y : ℤ}
    (hxy : Relation.EqvGen (EdgeRel es) x y) : Relation.EqvGen (EdgeRel es') x y :=
  Relation.EqvGen.mono (fun a b hab => h (a, b) hab) _ _ hxy

structure CompInv (es : List (ℤ × ℤ)) (rep : ℤ → ℤ) : Prop where
  conn : ∀ x, Relation.EqvGen (EdgeRel es) x (rep x)
  resp : ∀ x y, Relation.EqvGen (EdgeRel es) x y → rep x = rep y
  le : ∀ x, rep x ≤ x

theorem compInv_nil : CompInv [] id where
  conn x := Relation.EqvGen.refl x
  resp x y h := by
    induction h with
    | rel x y h => simp [EdgeRel] at h
    | refl => rfl
    | symm _ _ _ ih => exact ih.symm
    | trans _ _ _ _ _ ih1 ih2 => exact ih1.trans ih2
  le x := le_refl _

theorem compInv_step {es : List (ℤ × ℤ)} {rep : ℤ → ℤ} (h : CompInv es rep) (e : ℤ × ℤ) :
    CompInv (es ++ [e]) (mergeEdge rep e) := by
  obtain ⟨a, b⟩ := e
  have mono : ∀ {x y}, Relation.EqvGen (EdgeRel es) x y →
      Relation.EqvGen (EdgeRel (es ++ [(a, b)])) x y :=
    fun hxy => eqvGen_mono_edges (fun e he => List.mem_append_left _ he) hxy
  have hab : Relation.EqvGen (EdgeRel (es ++ [(a, b)])) a b :=
    Relation.EqvGen.rel _ _ (by simp [EdgeRel])
  have hra := mono (h.conn a)
  have hrb := mono (h.conn b)
  have hrr : Relation.EqvGen (EdgeRel (es ++ [(a, b)])) (rep a) (rep b) :=
    (hra.symm _ _).trans _ _ _ (hab.trans _ _ _ hrb)
  have hrep_ab : mergeEdge rep (a, b) a = mergeEdge rep (a, b) b := by
    simp only [mergeEdge]
    rcases le_total (rep a) (rep b) with hle | hle
    · rw [max_eq_right hle, min_eq_left hle]; simp
    · rw [max_eq_left hle, min_eq_right hle]; simp
  refine ⟨fun x => ?_, fun x y hxy => ?_, fun x => ?_⟩
  · have hx := mono (h.conn x)
    simp only [mergeEdge]
    split
    · rename_i heq
      rcases le_total (rep a) (rep b) with hle | hle
      · rw [max_eq_right hle] at heq
        rw [min_eq_left hle]
        rw [heq] at hx
        exact hx.trans _ _ _ (hrr.symm _ _)
      · rw [max_eq_left hle] at heq
        rw [min_eq_right hle]
        rw [heq] at hx
        exact hx.trans _ _ _ hrr
    · exact hx
  · induction hxy with
    | rel x y hxy =>
      rcases List.mem_append.mp hxy with hold | hnew
      · have := h.resp x y (Relation.EqvGen.rel _ _ hold)
        simp only [mergeEdge, this]
      · simp only [List.mem_singleton, Prod.mk.injEq] at hnew
        obtain ⟨rfl, rfl⟩ := hnew
        exact hrep_ab
    | refl => rfl
    | symm _ _ _ ih => exact ih.symm
    | trans _ _ _ _ _ ih1 ih2 => exact ih1.trans ih2
  · have hx := h.le x
    simp only [mergeEdge]
    split
    · rename_i heq
      exact le_trans (min_le_max) (heq ▸ hx)
    · exact hx

theorem compInv_componentMin (es : List (ℤ × ℤ)) : CompInv es (componentMin es) := by
  induction es using List.reverseRecOn with
  | nil => exact compInv_nil
  | append_singleton es e ih =>
    have : componentMin (es ++ [e]) = mergeEdge (componentMin es) e := by
      simp [componentMin, List.foldl_append]
    rw [this]
    exact compInv_step ih e

theorem mem_periodicEdges {links : List (List ℤ × List ℤ)} {a b : ℤ} :
    (a, b) ∈ periodicEdges links ↔ LinkPair links a b := by
  unfold periodicEdges LinkPair
  rw [List.mem_flatMap]
  constructor
  · rintro ⟨l, hl, hab⟩
    refine ⟨l, hl, ?_⟩
    obtain ⟨k, hk⟩ := List.mem_iff_getElem?.mp hab
    refine ⟨k, ?_⟩
    rw [List.getElem?_zip_eq_some] at hk
    exact hk
  · rintro ⟨l, hl, k, h1, h2⟩
    refine ⟨l, hl, List.mem_iff_getElem?.mpr ⟨k, ?_⟩⟩
    rw [List.getElem?_zip_eq_some]
    exact ⟨h1, h2⟩

theorem edgeRel_periodic (links : List (List ℤ × List ℤ)) :
    EdgeRel (periodicEdges links) = LinkPair links := by
  funext a b; exact propext mem_periodicEdges

/-- A node outside all edges is its own representative. -/
theorem componentMin_unlinked {es : List (ℤ × ℤ)} {i : ℤ}
    (h : ¬(i ∈ es.map Prod.fst ∨ i ∈ es.map Prod.snd)) : componentMin es i = i := by
  have key : ∀ x y, Relation.EqvGen (EdgeRel es) x y → (x = i ↔ y = i) := by
    intro x y hxy
    induction hxy with
    | rel x y hxy =>
      constructor
      · rintro rfl; exact absurd (Or.inl (List.mem_map.mpr ⟨(x, y), hxy, rfl⟩)) h
      · rintro rfl; exact absurd (Or.inr (List.mem_map.mpr ⟨(x, y), hxy, rfl⟩)) h
    | refl => rfl
    | symm _ _ _ ih => exact ih.symm
    | trans _ _ _ _ _ ih1 ih2 => exact ih1.trans ih2
  exact (key i _ ((compInv_componentMin es).conn i)).mp rfl

theorem uniqueNodeIndex_some (links : List (List ℤ × List ℤ)) (i : ℤ) :
    uniqueNodeIndex (some links) i = componentMin (periodicEdges links) i := by
  simp only [uniqueNodeIndex]
  split
  · rename_i h
    rw [List.length_eq_zero_iff] at h
    subst h
    rfl
  · unfold periodicMapping
    by_cases h : i ∈ (periodicEdges links).map Prod.fst ∨ i ∈ (periodicEdges links).map Prod.snd
    · simp only [if_pos h]
    · simp only [if_neg h, componentMin_unlinked h]

/-! ### List sums -/

variable {R : Type*} [CommRing R]

theorem sum_map_ite_nodup {α : Type*} [DecidableEq α] (l : List α) (hl : l.Nodup) (a : α) (g : α → R) :
    (l.map (fun p => if p = a then g p else 0)).sum = if a ∈ l then g a else 0 := by
  induction l with
  | nil => simp
  | cons x xs ih =>
    rw [List.nodup_cons] at hl
    rw [List.map_cons, List.sum_cons, ih hl.2]
    by_cases h : x = a
    · subst h
      simp [hl.1]
    · have : ¬ a = x := fun e => h e.symm
      simp [h, this]

theorem sum_map_range (n : ℕ) (f : ℕ → R) : ((List.range n).map f).sum = ∑ k ∈ Finset.range n, f k := by
  induction n with
  | zero => simp
  | succ n ih => rw [List.range_succ, List.map_append, List.sum_append, Finset.sum_range_succ, ih]; simp

theorem sum_map_filter_range (n : ℕ) (p : ℕ → Bool) (f : ℕ → R) :
    (((List.range n).filter p).map f).sum = ∑ k ∈ Finset.range n, if p k then f k else 0 := by
  rw [← sum_map_range]
  induction (List.range n) with
  | nil => simp
  | cons x xs ih =>
    by_cases h : p x
    · simp [h, ih]
    · simp [h, ih]

/-! ### Nodes to exchange -/

theorem mem_indicesToExchange {nodes : List ℤ} {x : ℤ} :
    x ∈ indicesToExchange nodes ↔ x ≠ -1 ∧ nodes.count x > 1 := by
  unfold indicesToExchange sentinel
  rw [List.mem_insertionSort, List.mem_filter, List.mem_dedup]
  simp only [decide_eq_true_eq]
  constructor
  · exact fun h => h.2
  · intro h
    exact ⟨List.count_pos_iff.mp (by omega), h⟩

theorem nodup_indicesToExchange (nodes : List ℤ) : (indicesToExchange nodes).Nodup := by
  unfold indicesToExchange
  exact (List.perm_insertionSort _ _).nodup_iff.mpr ((List.nodup_dedup _).filter _)

end Verif.Core
