import Verif.Lemmas.Torus

/-! # C25: facet types enumerate the facets once and their interiors tile the element -/

namespace Verif.Common

open Verif.Spec

/-- All `3^d` types, each once. -/
theorem C25_all (d : ℕ) : (facetTypes d).length = 3 ^ d ∧ (facetTypes d).Nodup ∧
    ∀ f : List FacetDim, f ∈ facetTypes d ↔ f.length = d := by
  refine ⟨?_, facetTypes_nodup d, fun f => mem_facetTypes⟩
  simp [facetTypes, cartesian_length]

/-- `C(d,k) 2^(d-k)` types of dimension `k`, each once. -/
theorem C25_of_dim (d k : ℕ) : (facetTypesOfDim d k).length = d.choose k * 2 ^ (d - k) ∧
    (facetTypesOfDim d k).Nodup ∧
    ∀ f : List FacetDim, f ∈ facetTypesOfDim d k ↔ f.length = d ∧ f.count FacetDim.inner = k := by
  refine ⟨?_, (facetTypes_nodup d).filter _, fun f => ?_⟩
  · unfold facetTypesOfDim
    rw [← List.countP_eq_length_filter]
    induction d generalizing k with
    | zero => cases k <;> simp [facetTypes, cartesian]
    | succ d ih =>
      rw [facetTypes_succ, List.countP_append, List.countP_append, List.countP_map, List.countP_map,
        List.countP_map]
      have h1 : (facetTypes d).countP ((fun f => decide (f.count FacetDim.inner = k)) ∘ (FacetDim.first :: ·)) =
          d.choose k * 2 ^ (d - k) := by
        rw [← ih k]; congr 1
      have h2 : (facetTypes d).countP ((fun f => decide (f.count FacetDim.inner = k)) ∘ (FacetDim.last :: ·)) =
          d.choose k * 2 ^ (d - k) := by
        rw [← ih k]; congr 1
      rw [h1, h2]
      cases k with
      | zero =>
        have h3 : (facetTypes d).countP ((fun f => decide (f.count FacetDim.inner = 0)) ∘ (FacetDim.inner :: ·)) =
            0 := by
          rw [List.countP_eq_zero]; intro t _; simp
        rw [h3]
        simp [pow_succ]; ring
      | succ k =>
        have h3 : (facetTypes d).countP ((fun f => decide (f.count FacetDim.inner = k + 1)) ∘
            (FacetDim.inner :: ·)) = d.choose k * 2 ^ (d - k) := by
          rw [← ih k]
          congr 1
          funext t
          simp
        rw [h3, Nat.choose_succ_succ, Nat.add_sub_add_right]
        by_cases hk : k + 1 ≤ d
        · have : d - k = (d - (k + 1)) + 1 := by omega
          rw [this, pow_succ]; ring
        · rw [Nat.choose_eq_zero_of_lt (by omega : d < k + 1)]; ring
  · unfold facetTypesOfDim
    rw [List.mem_filter, mem_facetTypes]
    simp

/-- The facet dimension of a node position along one axis. -/
theorem axisSlice_interior_unique {m i : ℕ} (hm : 2 ≤ m) (hi : i < m) (t : FacetDim) :
    i ∈ axisSlice m true t ↔ t = if i = 0 then .first else if i = m - 1 then .last else .inner := by
  have hdrop : ∀ x, x ∈ (List.range (m - 1)).drop 1 ↔ 1 ≤ x ∧ x < m - 1 := by
    intro x
    rw [List.mem_iff_getElem?]
    constructor
    · rintro ⟨k, hk⟩
      rw [List.getElem?_drop] at hk
      obtain ⟨h1, h2⟩ := List.getElem?_eq_some_iff.mp hk
      rw [List.getElem_range] at h2
      rw [List.length_range] at h1
      omega
    · rintro ⟨h1, h2⟩
      refine ⟨x - 1, ?_⟩
      rw [List.getElem?_drop, List.getElem?_range (by omega)]
      congr 1; omega
  cases t
  · simp only [axisSlice, List.mem_singleton]
    constructor
    · intro h; rw [if_pos h]
    · intro h
      by_contra hc
      rw [if_neg hc] at h
      split at h <;> simp at h
  · simp only [axisSlice, List.mem_singleton]
    constructor
    · intro h; rw [if_neg (by omega), if_pos h]
    · intro h
      by_contra hc
      split at h
      · simp at h
      · simp [hc] at h
  · simp only [axisSlice, if_true, hdrop]
    constructor
    · intro h; rw [if_neg (by omega), if_neg (by omega)]
    · intro h
      split at h
      · simp at h
      · split at h
        · simp at h
        · omega

/-- Every node of the `m^d` grid lies in the interior slice of exactly one facet type. -/
theorem C25_interiors_tile (d m : ℕ) (hm : 2 ≤ m) (I : List ℕ) (hlen : I.length = d) (hI : ∀ x ∈ I, x < m) :
    ∃! f, f ∈ facetTypes d ∧ I ∈ facetSlice m true f := by
  refine ⟨I.map (fun i => if i = 0 then .first else if i = m - 1 then .last else .inner), ⟨?_, ?_⟩, ?_⟩
  · rw [mem_facetTypes]; simpa using hlen
  · unfold facetSlice
    rw [mem_cartesian, List.forall₂_iff_get]
    refine ⟨by simp, fun k h1 h2 => ?_⟩
    simp only [List.get_eq_getElem, List.getElem_map]
    exact (axisSlice_interior_unique hm (hI _ (List.getElem_mem h1)) _).mpr rfl
  · rintro f ⟨hf, hIf⟩
    rw [mem_facetTypes] at hf
    unfold facetSlice at hIf
    rw [mem_cartesian, List.forall₂_iff_get] at hIf
    refine List.ext_getElem (by simp; omega) (fun k h1 h2 => ?_)
    rw [List.getElem_map]
    have hk : k < I.length := by simpa using h2
    have := hIf.2 k hk (by simpa using h1)
    simp only [List.get_eq_getElem, List.getElem_map] at this
    exact (axisSlice_interior_unique hm (hI _ (List.getElem_mem hk)) _).mp this

/-- A slice selects nodes of the grid only, each once. -/
theorem C25_slices_valid (d m : ℕ) (hm : 1 ≤ m) (b : Bool) (f : List FacetDim) (hf : f.length = d) :
    (facetSlice m b f).Nodup ∧ ∀ I ∈ facetSlice m b f, I.length = d ∧ ∀ x ∈ I, x < m := by
  constructor
  · apply cartesian_nodup
    intro l hl
    obtain ⟨t, _, rfl⟩ := List.mem_map.mp hl
    cases t
    · simp [axisSlice]
    · simp [axisSlice]
    · simp only [axisSlice]
      split
      · exact List.nodup_range.sublist (List.drop_sublist _ _)
      · exact List.nodup_range
  · intro I hI
    unfold facetSlice at hI
    rw [mem_cartesian, List.forall₂_iff_get] at hI
    have hl : I.length = d := by have := hI.1; simpa [hf] using this
    refine ⟨hl, fun x hx => ?_⟩
    obtain ⟨k, hk, rfl⟩ := List.getElem_of_mem hx
    have := hI.2 k hk (by simp; omega)
    simp only [List.get_eq_getElem, List.getElem_map] at this
    generalize f[k]'(by omega) = t at this
    cases t
    · simp [axisSlice] at this; omega
    · simp [axisSlice] at this; omega
    · simp only [axisSlice] at this
      split at this
      · have := List.mem_range.mp (List.mem_of_mem_drop this); omega
      · exact List.mem_range.mp this

example : (facetTypesOfDim 3 2).length = 6 ∧ (facetTypesOfDim 3 1).length = 12 ∧
    facetSlice 4 true [.inner, .first] = [[1, 0], [2, 0]] := by decide

end Verif.Common
