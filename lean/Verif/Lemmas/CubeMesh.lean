import Verif.Lemmas.SortedMesh
import Verif.Model.CubePremesh
import Verif.Props.C22
import Verif.Props.C28

/-! Helper lemmas: the unit cube as an argument of the refiner. -/

set_option linter.unusedSectionVars false

namespace Verif.Core

open Verif.Common Verif.Spec

/-- The two ends of cell `i`. -/
def cellPair (i : ℕ) : List ℕ := [i, i + 1]

/-- The element whose lower corner is `E`. -/
def cubeElement (n : ℕ) (E : List ℕ) : List ℕ := (cartesian (E.map cellPair)).map (ravel (n + 1))

theorem isBox_cells (E : List ℕ) : IsBox (E.map cellPair) := by
  intro l hl
  obtain ⟨i, _, rfl⟩ := List.mem_map.mp hl
  right; rfl

theorem freeAxes_cells (E : List ℕ) : freeAxes (E.map cellPair) = E.length := by
  unfold freeAxes
  rw [List.countP_map, List.countP_eq_length.mpr]
  intro x _
  simp [cellPair]

theorem cubeElement_length (n : ℕ) (E : List ℕ) : (cubeElement n E).length = 2 ^ E.length := by
  rw [cubeElement, List.length_map, cartesian_box_length (isBox_cells E), freeAxes_cells]

theorem cubeElement_sorted {n : ℕ} {E : List ℕ} (h : ∀ x ∈ E, x < n) : (cubeElement n E).Pairwise (· < ·) := by
  refine ravel_cartesian_sorted ?_ ?_
  · intro l hl
    obtain ⟨i, _, rfl⟩ := List.mem_map.mp hl
    simp [cellPair]
  · intro l hl x hx
    obtain ⟨i, hi, rfl⟩ := List.mem_map.mp hl
    have := h i hi
    simp only [cellPair, List.mem_cons, List.not_mem_nil, or_false] at hx
    omega

theorem box_valid {b : ℕ} {et : List (List ℕ)} (h : ∀ l ∈ et, ∀ x ∈ l, x < b) :
    ∀ v ∈ (cartesian et).map (ravel b), v < b ^ et.length := by
  intro v hv
  obtain ⟨t, ht, rfl⟩ := List.mem_map.mp hv
  rw [mem_cartesian] at ht
  rw [← ht.length_eq]
  apply ravel_lt
  intro x hx
  obtain ⟨k, hk, rfl⟩ := List.mem_iff_getElem.mp hx
  rw [List.forall₂_iff_get] at ht
  have hk' : k < et.length := by rw [← ht.1]; exact hk
  exact h _ (List.getElem_mem hk') _ (ht.2 k hk hk')

section
variable {K : Type*} [Field K]

theorem cube_elements (n d : ℕ) (a b : K) (per : List ℕ) : (cubePremesh n d a b per).elements =
    (cartesian (List.replicate d (List.range n))).map (cubeElement n) := by
  change facetElements n (List.replicate d .inner) = _
  rw [facetElements_inner]
  have : List.replicate d ((List.range n).map (fun i => [i, i + 1])) =
      (List.replicate d (List.range n)).map (fun l => l.map cellPair) := by
    rw [List.map_replicate]; rfl
  rw [this]
  have hc : ∀ ls : List (List ℕ), cartesian (ls.map (fun l => l.map cellPair)) = (cartesian ls).map (List.map cellPair) := by
    intro ls
    induction ls with
    | nil => rfl
    | cons l ls ih =>
      simp only [List.map_cons, cartesian]
      rw [ih, List.flatMap_map, List.map_flatMap]
      congr 1
      funext x
      rw [List.map_map, List.map_map]
      rfl
  rw [hc, List.map_map]
  rfl

theorem cube_elements_length (n d : ℕ) (a b : K) (per : List ℕ) : (cubePremesh n d a b per).elements.length = n ^ d := by
  rw [cube_elements, List.length_map, cartesian_length]; simp

theorem cube_element_get {n d : ℕ} (a b : K) (per : List ℕ) {e : ℕ} (he : e < n ^ d) :
    (cubePremesh n d a b per).elements[e]? = some (cubeElement n (digits n d e)) := by
  rw [cube_elements, cartesian_replicate_range, List.map_map, List.getElem?_map, List.getElem?_range he]
  rfl

theorem mem_cube_elements {n d : ℕ} {a b : K} {per : List ℕ} {el : List ℕ} :
    el ∈ (cubePremesh n d a b per).elements ↔ ∃ E : List ℕ, E.length = d ∧ (∀ x ∈ E, x < n) ∧ el = cubeElement n E := by
  rw [cube_elements, List.mem_map]
  constructor
  · rintro ⟨E, hE, rfl⟩
    rw [mem_cartesian] at hE
    refine ⟨E, by simpa using hE.length_eq, fun x hx => ?_, rfl⟩
    obtain ⟨k, hk, rfl⟩ := List.mem_iff_getElem.mp hx
    rw [List.forall₂_iff_get] at hE
    have h2 := hE.1
    rw [List.length_replicate] at h2
    have := hE.2 k hk (by simp; omega)
    simpa using this
  · rintro ⟨E, hE, hlt, rfl⟩
    refine ⟨E, ?_, rfl⟩
    rw [mem_cartesian, List.forall₂_iff_get]
    refine ⟨by simp [hE], fun k h1 h2 => ?_⟩
    simpa using hlt _ (List.getElem_mem h1)

theorem cube_nodes_length (n d : ℕ) (a b : K) (per : List ℕ) :
    (cubePremesh n d a b per).nodeCoords.length = (n + 1) ^ d := by
  change (List.map _ _).length = _
  rw [List.length_map]
  exact (C22_nodes n d a b per).1

theorem cube_node {n d : ℕ} (a b : K) (per : List ℕ) {v : ℕ} (hv : v < (n + 1) ^ d) :
    (cubePremesh n d a b per).nodeCoords[v]? =
      some (fun k : Fin d => a + (digit (n + 1) d k v : K) * ((b - a) / (n : K))) := by
  change (List.map _ _)[v]? = _
  rw [List.getElem?_map, (C22_nodes n d a b per).2 v hv, Option.map_some]
  congr 1
  funext k
  unfold toVec
  have hk : (k : ℕ) < (digits (n + 1) d v).length := by rw [digits_length]; exact k.2
  rw [List.getD_eq_getElem _ _ (by rw [List.length_map]; exact hk), List.getElem_map]
  simp [digits]

/-- The facets of the boundary of the cube. -/
def CubeFacet (n d : ℕ) (f : List ℕ) : Prop :=
  ∃ ft : List FacetDim, ft.length = d ∧ ft.count .inner = d - 1 ∧ f ∈ facetElements n ft

theorem dimToElem_cases {n : ℕ} {f : FacetDim} {l : List ℕ} (h : l ∈ dimToElem n f) :
    (f = .first ∧ l = [0]) ∨ (f = .last ∧ l = [n]) ∨ (f = .inner ∧ ∃ i < n, l = cellPair i) := by
  cases f with
  | first => left; simpa [dimToElem] using h
  | last => right; left; simpa [dimToElem] using h
  | inner =>
    right; right
    simp only [dimToElem, elements1d_eq, List.mem_map, List.mem_range] at h
    obtain ⟨i, hi, rfl⟩ := h
    exact ⟨rfl, i, hi, rfl⟩

theorem facet_box {n : ℕ} : ∀ {et : List (List ℕ)} {ft : List FacetDim},
    List.Forall₂ (fun l f => l ∈ dimToElem n f) et ft → IsBox et ∧ freeAxes et = ft.count .inner ∧
      (∀ l ∈ et, l.Pairwise (· < ·)) ∧ (∀ l ∈ et, ∀ x ∈ l, x < n + 1) ∧ et.length = ft.length
  | [], [], _ => ⟨by simp [IsBox], rfl, by simp, by simp, rfl⟩
  | l :: et, f :: ft, h => by
    obtain ⟨h1, h2⟩ := List.forall₂_cons.mp h
    obtain ⟨i1, i2, i3, i4, i5⟩ := facet_box h2
    rcases dimToElem_cases h1 with ⟨rfl, rfl⟩ | ⟨rfl, rfl⟩ | ⟨rfl, i, hi, rfl⟩
    · refine ⟨?_, ?_, ?_, ?_, by simp [i5]⟩
      · intro m hm
        rcases List.mem_cons.mp hm with rfl | hm
        · left; rfl
        · exact i1 m hm
      · rw [List.count_cons_of_ne (by decide), ← i2]
        exact List.countP_cons_of_neg (by simp)
      · intro m hm
        rcases List.mem_cons.mp hm with rfl | hm
        · simp
        · exact i3 m hm
      · intro m hm
        rcases List.mem_cons.mp hm with rfl | hm
        · simp
        · exact i4 m hm
    · refine ⟨?_, ?_, ?_, ?_, by simp [i5]⟩
      · intro m hm
        rcases List.mem_cons.mp hm with rfl | hm
        · left; rfl
        · exact i1 m hm
      · rw [List.count_cons_of_ne (by decide), ← i2]
        exact List.countP_cons_of_neg (by simp)
      · intro m hm
        rcases List.mem_cons.mp hm with rfl | hm
        · simp
        · exact i3 m hm
      · intro m hm
        rcases List.mem_cons.mp hm with rfl | hm
        · simp
        · exact i4 m hm
    · refine ⟨?_, ?_, ?_, ?_, by simp [i5]⟩
      · intro m hm
        rcases List.mem_cons.mp hm with rfl | hm
        · right; rfl
        · exact i1 m hm
      · rw [List.count_cons_self, ← i2]
        exact List.countP_cons_of_pos (by simp [cellPair])
      · intro m hm
        rcases List.mem_cons.mp hm with rfl | hm
        · simp [cellPair]
        · exact i3 m hm
      · intro m hm x hx
        rcases List.mem_cons.mp hm with rfl | hm
        · simp only [cellPair, List.mem_cons, List.not_mem_nil, or_false] at hx
          omega
        · exact i4 m hm x hx

/-- A sub facet of a boundary facet is a facet of an element. -/
theorem facet_found {n : ℕ} (hn : 1 ≤ n) : ∀ {et : List (List ℕ)} {ft : List FacetDim},
    List.Forall₂ (fun l f => l ∈ dimToElem n f) et ft → ∀ ft' : List FacetDim, ft'.length = freeAxes et →
      ∃ (E : List ℕ) (ft2 : List FacetDim), E.length = ft.length ∧ ft2.length = ft.length ∧ (∀ x ∈ E, x < n) ∧
        sub (E.map cellPair) ft2 = sub et ft'
  | [], [], _, _, _ => ⟨[], [], rfl, rfl, by simp, rfl⟩
  | l :: et, f :: ft, h, ft', hft' => by
    obtain ⟨h1, h2⟩ := List.forall₂_cons.mp h
    rcases dimToElem_cases h1 with ⟨rfl, rfl⟩ | ⟨rfl, rfl⟩ | ⟨rfl, i, hi, rfl⟩
    · have hf : freeAxes ([0] :: et) = freeAxes et := List.countP_cons_of_neg (by simp)
      obtain ⟨E, ft2, e1, e2, e3, e4⟩ := facet_found hn h2 ft' (by omega)
      refine ⟨0 :: E, .first :: ft2, by simp [e1], by simp [e2], ?_, ?_⟩
      · intro x hx
        rcases List.mem_cons.mp hx with rfl | hx
        · omega
        · exact e3 x hx
      · simp [sub, cellPair, axisSlice, e4]
    · have hf : freeAxes ([n] :: et) = freeAxes et := List.countP_cons_of_neg (by simp)
      obtain ⟨E, ft2, e1, e2, e3, e4⟩ := facet_found hn h2 ft' (by omega)
      refine ⟨(n - 1) :: E, .last :: ft2, by simp [e1], by simp [e2], ?_, ?_⟩
      · intro x hx
        rcases List.mem_cons.mp hx with rfl | hx
        · omega
        · exact e3 x hx
      · have : n - 1 + 1 = n := by omega
        simp [sub, cellPair, axisSlice, e4, this]
    · have hf : freeAxes (cellPair i :: et) = freeAxes et + 1 := List.countP_cons_of_pos (by simp [cellPair])
      cases ft' with
      | nil => simp [hf] at hft'
      | cons g ft' =>
        obtain ⟨E, ft2, e1, e2, e3, e4⟩ := facet_found hn h2 ft' (by simpa [hf] using hft')
        refine ⟨i :: E, g :: ft2, by simp [e1], by simp [e2], ?_, ?_⟩
        · intro x hx
          rcases List.mem_cons.mp hx with rfl | hx
          · exact hi
          · exact e3 x hx
        · simp [sub, cellPair, e4]

theorem mem_axisToFacets {n d axis : ℕ} {fs : List (List ℕ)} (h : fs ∈ axisToFacets n d axis) :
    ∀ f ∈ fs, CubeFacet n d f := by
  unfold axisToFacets at h
  obtain ⟨ft, hft, rfl⟩ := List.mem_map.mp h
  rw [List.mem_filter] at hft
  have h2 := hft.1
  unfold facetTypesOfDim at h2
  rw [List.mem_filter] at h2
  intro f hf
  exact ⟨ft, mem_facetTypes.mp h2.1, by simpa using h2.2, hf⟩

theorem cube_groups {n d : ℕ} {a b : K} {per : List ℕ} {g : String × List (List ℕ)}
    (h : g ∈ (cubePremesh n d a b per).physicalGroups) : g.1 = "boundary" ∧ g.2 = cubeBoundary n d per ∧ g.2 ≠ [] ∧
      ∀ f ∈ g.2, CubeFacet n d f := by
  have hb : (cubePremesh n d a b per).physicalGroups = match (unitCubeMesh n d a b per).boundary with
      | none => []
      | some fs => [("boundary", fs)] := rfl
  rw [hb] at h
  have hu : (unitCubeMesh n d a b per).boundary = if (cubeBoundary n d per).length = 0 then none
    else some (cubeBoundary n d per) := rfl
  rw [hu] at h
  by_cases h0 : (cubeBoundary n d per).length = 0
  · rw [if_pos h0] at h; simp at h
  · rw [if_neg h0] at h
    simp only [List.mem_singleton] at h
    subst h
    refine ⟨rfl, rfl, fun hc => h0 (by simp only at hc; rw [hc]; rfl), fun f hf => ?_⟩
    simp only at hf
    unfold cubeBoundary at hf
    obtain ⟨axis, _, hf⟩ := List.mem_flatMap.mp hf
    split at hf
    · simp at hf
    · obtain ⟨fs, hfs, hf⟩ := List.mem_flatten.mp hf
      exact mem_axisToFacets hfs f hf

theorem cube_links {n d : ℕ} {a b : K} {per : List ℕ} {l : List (List ℕ × List ℕ)}
    (h : (cubePremesh n d a b per).periodicLinks = some l) : l = cubeLinks n d per ∧
      ∀ x ∈ l, CubeFacet n d x.1 ∧ CubeFacet n d x.2 := by
  have hb : (cubePremesh n d a b per).periodicLinks = if (cubeLinks n d per).length = 0 then none
    else some (cubeLinks n d per) := rfl
  rw [hb] at h
  by_cases h0 : (cubeLinks n d per).length = 0
  · rw [if_pos h0] at h; simp at h
  · rw [if_neg h0] at h
    have h := Option.some.inj h
    refine ⟨h.symm, fun x hx => ?_⟩
    rw [← h] at hx
    unfold cubeLinks at hx
    obtain ⟨axis, _, hx⟩ := List.mem_flatMap.mp hx
    split at hx
    · unfold axisLinks at hx
      split at hx
      · next f0 f1 heq =>
        have h1 := mem_axisToFacets (n := n) (d := d) (axis := axis) (fs := f0) (by rw [heq]; simp)
        have h2 := mem_axisToFacets (n := n) (d := d) (axis := axis) (fs := f1) (by rw [heq]; simp)
        have := List.of_mem_zip (a := x.1) (b := x.2) (by simpa using hx)
        exact ⟨h1 _ this.1, h2 _ this.2⟩
      · simp at hx
    · simp at hx

end

variable {K : Type*} [Field K] [LinearOrder K] [IsStrictOrderedRing K]

theorem cube_firstOrder {n d : ℕ} (hd : 1 ≤ d) (a b : K) (per : List ℕ) :
    FirstOrder (cubePremesh n d a b per) where
  dim_pos := hd
  order_one := rfl
  width := by
    intro el hel
    obtain ⟨E, hE, _, rfl⟩ := mem_cube_elements.mp hel
    rw [cubeElement_length, hE]; rfl
  distinct := by
    intro el hel
    obtain ⟨E, _, hlt, rfl⟩ := mem_cube_elements.mp hel
    exact (cubeElement_sorted hlt).imp (fun h => Nat.ne_of_lt h)
  valid := by
    intro el hel x hx
    obtain ⟨E, hE, hlt, rfl⟩ := mem_cube_elements.mp hel
    rw [cube_nodes_length, ← hE]
    have := box_valid (b := n + 1) (et := E.map cellPair) (by
      intro l hl y hy
      obtain ⟨i, hi, rfl⟩ := List.mem_map.mp hl
      have := hlt i hi
      simp only [cellPair, List.mem_cons, List.not_mem_nil, or_false] at hy
      omega) x hx
    rwa [List.length_map] at this
  matching := by
    have h1 : ∀ el ∈ (cubePremesh n d a b per).elements, el.length = 2 ^ d := by
      intro el hel
      obtain ⟨E, hE, _, rfl⟩ := mem_cube_elements.mp hel
      rw [cubeElement_length, hE]
    have h2 : ∀ el ∈ (cubePremesh n d a b per).elements, el.Pairwise (· < ·) := by
      intro el hel
      obtain ⟨E, _, hlt, rfl⟩ := mem_cube_elements.mp hel
      exact cubeElement_sorted hlt
    exact facetsMatch_of_sorted h1 h2 h1 h2

theorem cube_ownInverse (n d : ℕ) (a b : K) (per : List ℕ) (mm : ℕ) : OwnInverse (cubePremesh n d a b per) mm := by
  intro el hel el' hel' ft ft' hft hft' hc _ _ σ fl hσ hM
  obtain ⟨E, hE, hlt, rfl⟩ := mem_cube_elements.mp hel
  obtain ⟨E', hE', hlt', rfl⟩ := mem_cube_elements.mp hel'
  exact involutive_of_sorted (by rw [cubeElement_length, hE]; rfl) (cubeElement_sorted hlt)
    (by rw [cubeElement_length, hE']; rfl) (cubeElement_sorted hlt') hft hft' hc hσ hM

theorem cubeFacet_shape {n d : ℕ} {f : List ℕ} (h : CubeFacet n d f) : f.length = 2 ^ (d - 1) ∧ f.Pairwise (· < ·) ∧
    (∀ x ∈ f, x < (n + 1) ^ d) := by
  obtain ⟨ft, hft, hc, hf⟩ := h
  unfold facetElements at hf
  obtain ⟨et, het, rfl⟩ := List.mem_map.mp hf
  rw [mem_cartesian, List.forall₂_map_right_iff] at het
  obtain ⟨i1, i2, i3, i4, i5⟩ := facet_box het
  refine ⟨?_, ravel_cartesian_sorted i3 i4, ?_⟩
  · rw [List.length_map, cartesian_box_length i1, i2, hc]
  · have := box_valid i4
    rwa [i5, hft] at this

theorem cube_facetsOf {n d : ℕ} (hn : 1 ≤ n) (a b : K) (per : List ℕ) {fs : List (List ℕ)}
    (h : ∀ f ∈ fs, CubeFacet n d f) : FacetsOf (cubePremesh n d a b per) fs where
  width := fun f hf => (cubeFacet_shape (h f hf)).1
  distinct := fun f hf => (cubeFacet_shape (h f hf)).2.1.imp (fun h => Nat.ne_of_lt h)
  valid := fun f hf => by rw [cube_nodes_length]; exact (cubeFacet_shape (h f hf)).2.2
  found := by
    intro f hf ft' hft' _
    obtain ⟨ft, hft, hc, hfe⟩ := h f hf
    unfold facetElements at hfe
    obtain ⟨et, het, rfl⟩ := List.mem_map.mp hfe
    rw [mem_cartesian, List.forall₂_map_right_iff] at het
    obtain ⟨i1, i2, i3, i4, i5⟩ := facet_box het
    have hl : ft'.length = freeAxes et := by rw [hft', i2, hc]; rfl
    obtain ⟨E, ft2, e1, e2, e3, e4⟩ := facet_found hn het ft' hl
    refine ⟨cubeElement n E, mem_cube_elements.mpr ⟨E, by omega, e3, rfl⟩, ft2, ?_, ?_⟩
    · rw [e2, hft]; rfl
    · rw [facetCorners_box i1 _ hl, cubeElement, facetCorners_box (isBox_cells E) _ (by rw [freeAxes_cells]; omega), e4]
  matching := by
    refine facetsMatch_of_sorted ?_ ?_ (fun f hf => (cubeFacet_shape (h f hf)).1) (fun f hf => (cubeFacet_shape (h f hf)).2.1)
    · intro el hel
      obtain ⟨E, hE, _, rfl⟩ := mem_cube_elements.mp hel
      rw [cubeElement_length, hE]; rfl
    · intro el hel
      obtain ⟨E, _, hlt, rfl⟩ := mem_cube_elements.mp hel
      exact cubeElement_sorted hlt

theorem cube_ownInverseF {n d : ℕ} (a b : K) (per : List ℕ) {fs : List (List ℕ)} (h : ∀ f ∈ fs, CubeFacet n d f) (mm : ℕ) :
    OwnInverseF (cubePremesh n d a b per) fs mm := by
  intro el hel f hf ft ft' hft hft' hc _ _ σ fl hσ hM
  obtain ⟨E, hE, hlt, rfl⟩ := mem_cube_elements.mp hel
  exact involutive_of_sorted (by rw [cubeElement_length, hE]; rfl) (cubeElement_sorted hlt)
    (cubeFacet_shape (h f hf)).1 (cubeFacet_shape (h f hf)).2.1 hft hft' hc hσ hM

theorem cube_boundary {n d : ℕ} (hn : 1 ≤ n) (a b : K) (per : List ℕ) : Boundary (cubePremesh n d a b per) where
  groups := fun g hg => by
    obtain ⟨_, _, h1, h2⟩ := cube_groups hg
    exact ⟨h1, cube_facetsOf hn a b per h2⟩
  links := fun l hl => by
    obtain ⟨_, h⟩ := cube_links hl
    constructor
    · refine cube_facetsOf hn a b per (fun f hf => ?_)
      obtain ⟨x, hx, rfl⟩ := List.mem_map.mp hf
      exact (h x hx).1
    · refine cube_facetsOf hn a b per (fun f hf => ?_)
      obtain ⟨x, hx, rfl⟩ := List.mem_map.mp hf
      exact (h x hx).2

end Verif.Core
