import Verif.Lemmas.Cartesian
import Verif.Lemmas.GatherScatter

/-! Helper lemmas for the periodic unit cube. -/

namespace Verif.Common

open Verif.Spec

theorem mem_facetTypes {d : ℕ} {f : List FacetDim} : f ∈ facetTypes d ↔ f.length = d := by
  unfold facetTypes
  rw [mem_cartesian]
  induction d generalizing f with
  | zero => simp [List.forall₂_nil_right_iff]
  | succ d ih =>
    rw [List.replicate_succ]
    cases f with
    | nil => simp
    | cons x f =>
      rw [List.forall₂_cons, ih, List.length_cons]
      have : x ∈ [FacetDim.first, FacetDim.last, FacetDim.inner] := by cases x <;> simp
      simp [this]

theorem facetTypes_nodup (d : ℕ) : (facetTypes d).Nodup := by
  apply cartesian_nodup
  intro l hl
  rw [List.mem_replicate] at hl
  rw [hl.2]
  decide

theorem facetTypes_succ (d : ℕ) : facetTypes (d + 1) =
    (facetTypes d).map (FacetDim.first :: ·) ++ (facetTypes d).map (FacetDim.last :: ·) ++
      (facetTypes d).map (FacetDim.inner :: ·) := by
  unfold facetTypes
  rw [List.replicate_succ]
  simp [cartesian]

theorem filter_eq_singleton {α : Type*} [DecidableEq α] {l : List α} (hl : l.Nodup) {r : α} (hr : r ∈ l)
    (p : α → Bool) (hp : ∀ t ∈ l, p t = true ↔ t = r) : l.filter p = [r] := by
  have h1 : l.filter p = l.filter (fun t => t = r) := by
    apply List.filter_congr
    intro t ht
    by_cases h : t = r
    · simp [h]
      have := (hp t ht).mpr h
      rw [h] at this
      exact this
    · have : p t ≠ true := fun hc => h ((hp t ht).mp hc)
      simp [h]
      simpa using this
  rw [h1]
  have h3 : l.count r = 1 := List.count_eq_one_of_mem hl hr
  have h4 : (l.filter (fun t => decide (t = r))).length = 1 := by
    rw [← List.countP_eq_length_filter]
    rw [← h3, List.count]
    congr 1
  obtain ⟨x, hx⟩ := List.length_eq_one_iff.mp h4
  rw [hx]
  have : x ∈ l.filter (fun t => decide (t = r)) := by rw [hx]; exact List.mem_singleton_self x
  rw [List.mem_filter] at this
  simpa using this.2

theorem facetAxis_inner_cons (t : List FacetDim) : facetAxis (FacetDim.inner :: t) = facetAxis t + 1 := by
  unfold facetAxis
  by_cases h : FacetDim.first ∈ t
  · rw [if_pos (List.mem_cons_of_mem _ h), if_pos h]
    simp
  · rw [if_neg (by simp [h]), if_neg h]
    simp

theorem count_inner_eq_length {t : List FacetDim} :
    t.count FacetDim.inner = t.length ↔ t = List.replicate t.length FacetDim.inner := by
  rw [List.count_eq_length]
  rw [List.eq_replicate_iff]
  simp only [true_and]
  constructor
  · intro h b hb; exact (h b hb).symm
  · intro h b hb; exact (h b hb).symm

/-- The facets of codimension one normal to an axis: first, then last. -/
theorem facets_on_axis (d a : ℕ) (ha : a < d) :
    (facetTypesOfDim d (d - 1)).filter (fun f => facetAxis f = a) =
      [(List.replicate d FacetDim.inner).set a .first, (List.replicate d FacetDim.inner).set a .last] := by
  induction d generalizing a with
  | zero => omega
  | succ d ih =>
    have hall : ∀ t ∈ facetTypes d, (t.count FacetDim.inner = d ↔ t = List.replicate d FacetDim.inner) := by
      intro t ht
      rw [mem_facetTypes] at ht
      rw [← ht]; exact count_inner_eq_length
    have hmem : List.replicate d FacetDim.inner ∈ facetTypes d := by rw [mem_facetTypes]; simp
    unfold facetTypesOfDim
    rw [List.filter_filter, facetTypes_succ, List.filter_append, List.filter_append, List.filter_map,
      List.filter_map, List.filter_map]
    cases a with
    | zero =>
      have e1 : (facetTypes d).filter ((fun f => decide (facetAxis f = 0) &&
          decide (f.count FacetDim.inner = d + 1 - 1)) ∘ (FacetDim.first :: ·)) =
          [List.replicate d FacetDim.inner] := by
        apply filter_eq_singleton (facetTypes_nodup d) hmem
        intro t ht
        rw [← hall t ht]
        simp [facetAxis]
      have e2 : (facetTypes d).filter ((fun f => decide (facetAxis f = 0) &&
          decide (f.count FacetDim.inner = d + 1 - 1)) ∘ (FacetDim.last :: ·)) =
          [List.replicate d FacetDim.inner] := by
        apply filter_eq_singleton (facetTypes_nodup d) hmem
        intro t ht
        rw [← hall t ht]
        simp only [Function.comp, Bool.and_eq_true, decide_eq_true_eq]
        constructor
        · intro h; simpa using h.2
        · intro h
          have h1 : FacetDim.first ∉ t := by
            rw [(hall t ht).mp h]; simp
          refine ⟨?_, by simpa using h⟩
          unfold facetAxis
          rw [if_neg (by simp [h1])]
          simp
      have e3 : (facetTypes d).filter ((fun f => decide (facetAxis f = 0) &&
          decide (f.count FacetDim.inner = d + 1 - 1)) ∘ (FacetDim.inner :: ·)) = [] := by
        rw [List.filter_eq_nil_iff]
        intro t _
        simp [facetAxis_inner_cons]
      rw [e1, e2, e3]
      rfl
    | succ a =>
      have e1 : (facetTypes d).filter ((fun f => decide (facetAxis f = a + 1) &&
          decide (f.count FacetDim.inner = d + 1 - 1)) ∘ (FacetDim.first :: ·)) = [] := by
        rw [List.filter_eq_nil_iff]
        intro t _
        simp [facetAxis]
      have e2 : (facetTypes d).filter ((fun f => decide (facetAxis f = a + 1) &&
          decide (f.count FacetDim.inner = d + 1 - 1)) ∘ (FacetDim.last :: ·)) = [] := by
        rw [List.filter_eq_nil_iff]
        intro t ht
        simp only [Function.comp, Bool.and_eq_true, decide_eq_true_eq, not_and]
        intro h1 h2
        have h3 : t = List.replicate d FacetDim.inner := (hall t ht).mp (by simpa using h2)
        subst h3
        unfold facetAxis at h1
        rw [if_neg (by simp)] at h1
        simp at h1
      have e3 : (facetTypes d).filter ((fun f => decide (facetAxis f = a + 1) &&
          decide (f.count FacetDim.inner = d + 1 - 1)) ∘ (FacetDim.inner :: ·)) =
          ((facetTypesOfDim d (d - 1)).filter (fun f => facetAxis f = a)) := by
        unfold facetTypesOfDim
        rw [List.filter_filter]
        apply List.filter_congr
        intro t _
        simp only [Function.comp, facetAxis_inner_cons, List.count_cons_self, Nat.add_right_cancel_iff,
          Nat.add_sub_cancel]
        congr 1
        have : t.count FacetDim.inner + 1 = d ↔ t.count FacetDim.inner = d - 1 := by omega
        simp [this]
      rw [e1, e2, e3, ih a (by omega)]
      simp [List.replicate_succ]

/-- Replacing a one element factor of a product replaces that entry of every tuple. -/
theorem cartesian_set_singleton {α : Type*} (ls : List (List α)) (a : ℕ) (ha : a < ls.length) (x y : α) :
    cartesian (ls.set a [y]) = (cartesian (ls.set a [x])).map (fun t => t.set a y) := by
  induction ls generalizing a with
  | nil => simp at ha
  | cons l ls ih =>
    cases a with
    | zero => simp [cartesian]
    | succ a =>
      simp only [List.set_cons_succ, cartesian]
      rw [List.map_flatMap]
      apply List.flatMap_congr
      intro b _
      rw [ih a (by simpa using ha), List.map_map, List.map_map]
      rfl

theorem axisLinks_eq (n d a : ℕ) (ha : a < d) : axisLinks n d a =
    (cartesian ((List.replicate d (elements1d n)).set a [[0]])).map (fun et =>
      ((cartesian et).map (ravel (n + 1)), (cartesian et).map (fun I => ravel (n + 1) (I.set a n)))) := by
  have hset : ∀ t : FacetDim, ((List.replicate d FacetDim.inner).set a t).map (dimToElem n) =
      (List.replicate d (elements1d n)).set a (dimToElem n t) := by
    intro t
    rw [List.map_set, List.map_replicate]
    rfl
  unfold axisLinks axisToFacets
  rw [facets_on_axis d a ha]
  simp only [List.map_cons, List.map_nil]
  unfold facetElements
  rw [hset, hset]
  have h1 : dimToElem n .first = [[0]] := rfl
  have h2 : dimToElem n .last = [[n]] := rfl
  rw [h1, h2, cartesian_set_singleton (List.replicate d (elements1d n)) a (by simpa using ha) [0] [n],
    List.map_map, List.zip_map']
  apply List.map_congr_left
  intro et het
  simp only [Function.comp]
  have hlen : et.length = d := by
    rw [mem_cartesian] at het
    have := het.length_eq
    simpa using this
  have h0 : et = et.set a [0] := by
    rw [mem_cartesian] at het
    have hx := List.forall₂_iff_get.mp het
    refine List.ext_getElem? (fun k => ?_)
    rw [List.getElem?_set]
    by_cases hk : a = k
    · subst hk
      rw [if_pos rfl, if_pos (by omega), List.getElem?_eq_getElem (by omega)]
      have := hx.2 a (by omega) (by simpa using ha)
      simp at this
      rw [this]
    · rw [if_neg hk]
  have h3 := cartesian_set_singleton et a (by omega) 0 n
  rw [← h0] at h3
  rw [h3, List.map_map]
  rfl

/-- Entries of the tuples on the first facet of an axis. -/
theorem mem_facet_tuples {n d a : ℕ} (hn : 1 ≤ n) (ha : a < d) (I : List ℕ) :
    (∃ et ∈ cartesian ((List.replicate d (elements1d n)).set a [[0]]), I ∈ cartesian et) ↔
      I.length = d ∧ (∀ x ∈ I, x < n + 1) ∧ I[a]? = some 0 := by
  constructor
  · rintro ⟨et, het, hI⟩
    rw [mem_cartesian] at het hI
    have h1 := List.forall₂_iff_get.mp het
    have h2 := List.forall₂_iff_get.mp hI
    have hl1 : et.length = d := by simpa using h1.1
    have hl2 : I.length = d := h2.1.trans hl1
    refine ⟨hl2, ?_, ?_⟩
    · intro x hx
      obtain ⟨k, hk, rfl⟩ := List.getElem_of_mem hx
      have e1 := h1.2 k (by omega) (by simp; omega)
      have e2 := h2.2 k hk (by omega)
      simp only [List.get_eq_getElem, List.getElem_set, List.getElem_replicate] at e1 e2
      split at e1
      · rw [List.mem_singleton] at e1
        rw [e1, List.mem_singleton] at e2
        omega
      · rw [elements1d_eq, List.mem_map] at e1
        obtain ⟨i, hi, hie⟩ := e1
        rw [List.mem_range] at hi
        rw [← hie] at e2
        simp only [List.mem_cons, List.not_mem_nil, or_false] at e2
        omega
    · have e1 := h1.2 a (by omega) (by simp; omega)
      have e2 := h2.2 a (by omega) (by omega)
      simp only [List.get_eq_getElem, List.getElem_set_self, List.mem_singleton] at e1 e2
      rw [e1, List.mem_singleton] at e2
      rw [List.getElem?_eq_getElem (by omega), e2]
  · rintro ⟨hl, hlt, h0⟩
    refine ⟨(I.map (fun i => [min i (n - 1), min i (n - 1) + 1])).set a [0], ?_, ?_⟩
    · rw [mem_cartesian, List.forall₂_iff_get]
      refine ⟨by simp [hl], fun k hk1 hk2 => ?_⟩
      simp only [List.get_eq_getElem, List.getElem_set, List.getElem_replicate, List.getElem_map]
      split
      · simp
      · rw [elements1d_eq, List.mem_map]
        exact ⟨min (I[k]'(by simpa using hk1)) (n - 1), List.mem_range.mpr (by omega), rfl⟩
    · rw [mem_cartesian, List.forall₂_iff_get]
      refine ⟨by simp, fun k hk1 hk2 => ?_⟩
      simp only [List.get_eq_getElem, List.getElem_set, List.getElem_map]
      split
      · rename_i h
        subst h
        rw [List.getElem?_eq_getElem hk1, Option.some.injEq] at h0
        simp [h0]
      · have := hlt I[k] (List.getElem_mem hk1)
        simp only [List.mem_cons, List.not_mem_nil, or_false]
        omega

/-- Links as integers, as stored in the premesh. -/
def intLinks (links : List (List ℕ × List ℕ)) : List (List ℤ × List ℤ) :=
  links.map (fun l => (l.1.map (fun x : ℕ => (x : ℤ)), l.2.map (fun x : ℕ => (x : ℤ))))

theorem linkPair_cube {n d : ℕ} (hn : 1 ≤ n) (per : List ℕ) (x y : ℤ) :
    LinkPair (intLinks (cubeLinks n d per)) x y ↔
      ∃ a < d, a ∈ per ∧ ∃ I : List ℕ, I.length = d ∧ (∀ z ∈ I, z < n + 1) ∧ I[a]? = some 0 ∧
        x = (ravel (n + 1) I : ℕ) ∧ y = (ravel (n + 1) (I.set a n) : ℕ) := by
  unfold LinkPair intLinks cubeLinks
  constructor
  · rintro ⟨l, hl, k, h1, h2⟩
    obtain ⟨l', hl', rfl⟩ := List.mem_map.mp hl
    rw [List.mem_flatMap] at hl'
    obtain ⟨a, ha, hl'⟩ := hl'
    rw [List.mem_range] at ha
    split at hl'
    · rename_i hper
      rw [axisLinks_eq n d a ha, List.mem_map] at hl'
      obtain ⟨et, het, rfl⟩ := hl'
      simp only [List.getElem?_map] at h1 h2
      cases hI : (cartesian et)[k]? with
      | none => rw [hI] at h1; simp at h1
      | some I =>
        rw [hI] at h1 h2
        simp only [Option.map_some, Option.some.injEq] at h1 h2
        have := (mem_facet_tuples hn ha I).mp ⟨et, het, List.mem_of_getElem? hI⟩
        exact ⟨a, ha, hper, I, this.1, this.2.1, this.2.2, h1.symm, h2.symm⟩
    · simp at hl'
  · rintro ⟨a, ha, hper, I, hl, hlt, h0, rfl, rfl⟩
    obtain ⟨et, het, hI⟩ := (mem_facet_tuples hn ha I).mpr ⟨hl, hlt, h0⟩
    obtain ⟨k, hk⟩ := List.mem_iff_getElem?.mp hI
    refine ⟨_, List.mem_map.mpr ⟨((cartesian et).map (ravel (n + 1)),
      (cartesian et).map (fun I => ravel (n + 1) (I.set a n))),
      List.mem_flatMap.mpr ⟨a, List.mem_range.mpr ha, ?_⟩, rfl⟩, k, ?_, ?_⟩
    · rw [if_pos hper, axisLinks_eq n d a ha]
      exact List.mem_map.mpr ⟨et, het, rfl⟩
    · simp [List.getElem?_map, hk]
    · simp [List.getElem?_map, hk]

end Verif.Common
