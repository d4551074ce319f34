import Verif.Props.C76
import Verif.Props.C23

/-!
# C77: periodic identification and boundary of the refined unit cube

For every `n`, `ndim`, `periodic_dims` and every symmetric increasing list of element nodes: the refined mesh identifies
exactly the nodes that coincide on the torus of the periodic axes, and its boundary group lists exactly the nodes on the
faces normal to the other axes.
-/

set_option linter.unusedSectionVars false

namespace Verif.Core

open Verif.Common Verif.Spec

variable {K : Type*} [Field K] [LinearOrder K] [IsStrictOrderedRing K]

/-! ### Facets normal to an axis -/

/-- The facet type normal to axis `a`. -/
def axisFacet (d a : ℕ) (t : FacetDim) : List FacetDim := (List.replicate d FacetDim.inner).set a t

theorem axisFacet_length (d a : ℕ) (t : FacetDim) : (axisFacet d a t).length = d := by simp [axisFacet]

theorem axisFacet_count {d a : ℕ} (ha : a < d) {t : FacetDim} (ht : t ≠ .inner) : (axisFacet d a t).count .inner = d - 1 := by
  unfold axisFacet
  rw [List.count_set (by simpa using ha)]
  simp [ht]

theorem axisFacet_get {d a : ℕ} (ha : a < d) (t : FacetDim) (k : ℕ) (hk : k < d) :
    (axisFacet d a t)[k]? = some (if a = k then t else .inner) := by
  unfold axisFacet
  rw [List.getElem?_set]
  by_cases h : a = k
  · simp [h, hk]
  · simp [h, hk]

theorem mem_facetElements {n : ℕ} {ft : List FacetDim} {f : List ℕ} : f ∈ facetElements n ft ↔
    ∃ et, List.Forall₂ (fun l f => l ∈ dimToElem n f) et ft ∧ f = (cartesian et).map (ravel (n + 1)) := by
  unfold facetElements
  rw [List.mem_map]
  constructor
  · rintro ⟨et, het, rfl⟩
    rw [mem_cartesian, List.forall₂_map_right_iff] at het
    exact ⟨et, het, rfl⟩
  · rintro ⟨et, het, rfl⟩
    refine ⟨et, ?_, rfl⟩
    rw [mem_cartesian, List.forall₂_map_right_iff]
    exact het

theorem mem_cubeBoundary {n d : ℕ} {per : List ℕ} {f : List ℕ} : f ∈ cubeBoundary n d per ↔
    ∃ a < d, a ∉ per ∧ ∃ t : FacetDim, t ≠ .inner ∧ ∃ et,
      List.Forall₂ (fun l f => l ∈ dimToElem n f) et (axisFacet d a t) ∧ f = (cartesian et).map (ravel (n + 1)) := by
  unfold cubeBoundary
  rw [List.mem_flatMap]
  constructor
  · rintro ⟨a, ha, hf⟩
    rw [List.mem_range] at ha
    split at hf
    · simp at hf
    · next hper =>
      unfold axisToFacets at hf
      rw [facets_on_axis d a ha] at hf
      simp only [List.map_cons, List.map_nil, List.flatten_cons, List.flatten_nil, List.append_nil, List.mem_append] at hf
      rcases hf with hf | hf
      · obtain ⟨et, h1, h2⟩ := mem_facetElements.mp hf
        exact ⟨a, ha, hper, .first, by decide, et, h1, h2⟩
      · obtain ⟨et, h1, h2⟩ := mem_facetElements.mp hf
        exact ⟨a, ha, hper, .last, by decide, et, h1, h2⟩
  · rintro ⟨a, ha, hper, t, ht, et, h1, h2⟩
    refine ⟨a, List.mem_range.mpr ha, ?_⟩
    rw [if_neg hper]
    unfold axisToFacets
    rw [facets_on_axis d a ha]
    simp only [List.map_cons, List.map_nil, List.flatten_cons, List.flatten_nil, List.append_nil, List.mem_append]
    have := mem_facetElements.mpr ⟨et, h1, h2⟩
    cases t with
    | first => left; exact this
    | last => right; exact this
    | inner => exact absurd rfl ht

theorem forall2_axis {n d a : ℕ} {et : List (List ℕ)} {t : FacetDim} :
    et ∈ cartesian ((List.replicate d (elements1d n)).set a (dimToElem n t)) ↔
      List.Forall₂ (fun l f => l ∈ dimToElem n f) et (axisFacet d a t) := by
  rw [mem_cartesian, ← List.forall₂_map_right_iff (f := dimToElem n) (R := fun l L => l ∈ L)]
  unfold axisFacet
  rw [List.map_set, List.map_replicate]
  rfl

theorem forall2_axis_get {n d a : ℕ} (ha : a < d) {et : List (List ℕ)} {t : FacetDim}
    (h : List.Forall₂ (fun l f => l ∈ dimToElem n f) et (axisFacet d a t)) : ∃ l, et[a]? = some l ∧ l ∈ dimToElem n t := by
  have hx := List.forall₂_iff_get.mp h
  have hl : et.length = d := by rw [hx.1, axisFacet_length]
  refine ⟨et[a], List.getElem?_eq_getElem (by omega), ?_⟩
  have := hx.2 a (by omega) (by rw [axisFacet_length]; omega)
  have h2 := axisFacet_get ha t a ha
  rw [List.getElem?_eq_getElem (by rw [axisFacet_length]; omega), if_pos rfl, Option.some.injEq] at h2
  simp only [List.get_eq_getElem] at this
  rw [h2] at this
  exact this

theorem forall2_axis_set {n d a : ℕ} (ha : a < d) {et : List (List ℕ)} {t t' : FacetDim}
    (h : List.Forall₂ (fun l f => l ∈ dimToElem n f) et (axisFacet d a t)) {l : List ℕ} (hl : l ∈ dimToElem n t') :
    List.Forall₂ (fun l f => l ∈ dimToElem n f) (et.set a l) (axisFacet d a t') := by
  have hx := List.forall₂_iff_get.mp h
  have hlen : et.length = d := by rw [hx.1, axisFacet_length]
  rw [List.forall₂_iff_get]
  refine ⟨by rw [List.length_set, axisFacet_length, hlen], fun k h1 h2 => ?_⟩
  rw [axisFacet_length] at h2
  have e := axisFacet_get ha t' k h2
  rw [List.getElem?_eq_getElem (by rw [axisFacet_length]; omega), Option.some.injEq] at e
  have e0 := axisFacet_get ha t k h2
  rw [List.getElem?_eq_getElem (by rw [axisFacet_length]; omega), Option.some.injEq] at e0
  have h3 := hx.2 k (by omega) (by rw [axisFacet_length]; omega)
  simp only [List.get_eq_getElem] at h3 ⊢
  rw [e, List.getElem_set]
  rw [e0] at h3
  by_cases hk : a = k
  · rw [if_pos hk, if_pos hk]; exact hl
  · rw [if_neg hk, if_neg hk]
    rw [if_neg hk] at h3
    exact h3

theorem mem_cubeLinks {n d : ℕ} {per : List ℕ} {x : List ℕ × List ℕ} : x ∈ cubeLinks n d per ↔
    ∃ a < d, a ∈ per ∧ ∃ et, List.Forall₂ (fun l f => l ∈ dimToElem n f) et (axisFacet d a .first) ∧
      x.1 = (cartesian et).map (ravel (n + 1)) ∧ x.2 = (cartesian (et.set a [n])).map (ravel (n + 1)) := by
  have key : ∀ {a : ℕ}, a < d → ∀ {et}, List.Forall₂ (fun l f => l ∈ dimToElem n f) et (axisFacet d a .first) →
      (cartesian et).map (fun I => ravel (n + 1) (I.set a n)) = (cartesian (et.set a [n])).map (ravel (n + 1)) := by
    intro a ha et h
    obtain ⟨l, h1, h2⟩ := forall2_axis_get ha h
    have h2 : l = [0] := by simpa [dimToElem] using h2
    subst h2
    obtain ⟨hl, h1⟩ := List.getElem?_eq_some_iff.mp h1
    have h3 := cartesian_set_singleton et a hl 0 n
    have h0 : et.set a [0] = et := by rw [← h1]; exact List.set_getElem_self hl
    rw [h0] at h3
    rw [h3, List.map_map]
    rfl
  unfold cubeLinks
  rw [List.mem_flatMap]
  constructor
  · rintro ⟨a, ha, hx⟩
    rw [List.mem_range] at ha
    split at hx
    · next hper =>
      rw [axisLinks_eq n d a ha, List.mem_map] at hx
      obtain ⟨et, het, rfl⟩ := hx
      have het := (forall2_axis (t := .first)).mp het
      exact ⟨a, ha, hper, et, het, rfl, key ha het⟩
    · simp at hx
  · rintro ⟨a, ha, hper, et, het, h1, h2⟩
    refine ⟨a, List.mem_range.mpr ha, ?_⟩
    rw [if_pos hper, axisLinks_eq n d a ha, List.mem_map]
    refine ⟨et, (forall2_axis (t := .first)).mpr het, ?_⟩
    rw [key ha het, ← h1, ← h2]

theorem gpt_set {n p : ℕ} : ∀ {et : List (List ℕ)} {J : List ℕ} {a : ℕ}, et[a]? = some [0] →
    gpt p (et.set a [n]) J = (gpt p et J).set a (n * p)
  | [], _, _, h => by simp at h
  | l :: et, J, 0, h => by
    have : l = [0] := by simpa using h
    subst this
    simp [gpt]
  | l :: et, J, a + 1, h => by
    have h : et[a]? = some [0] := by simpa using h
    simp only [List.set_cons_succ, gpt]
    split
    · rw [gpt_set h, List.set_cons_succ]
    · rw [gpt_set h, List.set_cons_succ]

/-- The points of the facets normal to an axis. -/
theorem axis_points {n d p a : ℕ} (hn : 1 ≤ n) (hp : 1 ≤ p) (ha : a < d) {t : FacetDim} (ht : t ≠ .inner) (I : List ℕ) :
    (∃ et, List.Forall₂ (fun l f => l ∈ dimToElem n f) et (axisFacet d a t) ∧ ∃ i < (p + 1) ^ (d - 1),
      gpt p et (digits (p + 1) (d - 1) i) = I) ↔
      I.length = d ∧ (∀ x ∈ I, x < n * p + 1) ∧ I[a]? = some (if t = .first then 0 else n * p) := by
  constructor
  · rintro ⟨et, het, i, hi, rfl⟩
    obtain ⟨_, i2, _⟩ := facet_box het
    rw [axisFacet_count ha ht] at i2
    obtain ⟨g1, g2, g3⟩ := gpt_spec hp het (J := digits (p + 1) (d - 1) i) (by rw [digits_length]; omega)
      (fun x hx => mem_digits_lt (by omega) hx)
    rw [axisFacet_length] at g1
    refine ⟨g1, g2, ?_⟩
    have := g3 a (by rw [axisFacet_length]; omega)
    rw [axisFacet_get ha t a ha, if_pos rfl] at this
    cases t with
    | first => exact this.1 rfl
    | last => exact this.2 rfl
    | inner => exact absurd rfl ht
  · rintro ⟨h1, h2, h3⟩
    obtain ⟨et, J, e1, e2, e3, e4⟩ := gpt_surj hn hp (ft := axisFacet d a t) (I := I) (by rw [axisFacet_length, h1]) h2 (by
      intro k hk
      rw [axisFacet_length] at hk
      rw [axisFacet_get ha t k hk]
      by_cases hak : a = k
      · subst hak
        rw [if_pos rfl]
        cases t with
        | first => exact ⟨fun _ => h3, fun hc => by simp at hc⟩
        | last => exact ⟨fun hc => by simp at hc, fun _ => h3⟩
        | inner => exact absurd rfl ht
      · rw [if_neg hak]
        exact ⟨fun hc => by simp at hc, fun hc => by simp at hc⟩)
    obtain ⟨_, i2, _⟩ := facet_box e1
    rw [axisFacet_count ha ht] at i2
    refine ⟨et, e1, ravel (p + 1) J, ?_, ?_⟩
    · have := ravel_lt e3
      rwa [e2, i2] at this
    · have := digits_ravel e3
      rw [e2, i2] at this
      rw [this, e4]

/-! ### Refined facets -/

section
variable {n d p : ℕ} {nodes : Fin (p + 1) → K} {a b : K} {per : List ℕ} {r : Refined (Fin d → K)}

theorem cube_listed (hn : 1 ≤ n) (hd : 1 ≤ d) (h : ElementNodes nodes)
    (hr : refinePremesh (cubePremesh n d a b per) nodes = .ok r) :
    List.Forall₂ (fun g o => o.1 = g.1 ∧ Listed (cubePremesh n d a b per) p r g.2 o.2 ∧
        Placed (cubePremesh n d a b per) nodes r g.2 o.2)
      (cubePremesh n d a b per).physicalGroups r.physicalGroups ∧
      ((cubePremesh n d a b per).periodicLinks = none → r.periodicLinks = none) ∧
      ∀ l, (cubePremesh n d a b per).periodicLinks = some l → ∃ l', r.periodicLinks = some l' ∧
        (Listed (cubePremesh n d a b per) p r (l.map (·.1)) (l'.map (·.1)) ∧
          Placed (cubePremesh n d a b per) nodes r (l.map (·.1)) (l'.map (·.1))) ∧
        Listed (cubePremesh n d a b per) p r (l.map (·.2)) (l'.map (·.2)) ∧
          Placed (cubePremesh n d a b per) nodes r (l.map (·.2)) (l'.map (·.2)) := by
  have hF := cube_firstOrder (n := n) hd a b per
  have hb := cube_boundary (d := d) hn a b per
  obtain ⟨r', hr', g1, g2, g3⟩ := C59_succeeds hF hb h.pos nodes ⟨h.first, h.last⟩
  rw [hr] at hr'
  cases hr'
  obtain ⟨k1, k2⟩ := C59_geometry_partial hF hb h.pos nodes ⟨h.first, h.last⟩ h.symmetric
    (fun g hg => cube_ownInverseF a b per (cube_groups hg).2.2.2 _)
    (fun l hl => ⟨cube_ownInverseF a b per (fun f hf => by
        obtain ⟨x, hx, rfl⟩ := List.mem_map.mp hf
        exact ((cube_links hl).2 x hx).1) _, cube_ownInverseF a b per (fun f hf => by
        obtain ⟨x, hx, rfl⟩ := List.mem_map.mp hf
        exact ((cube_links hl).2 x hx).2) _⟩) hr
  refine ⟨?_, g2, fun l hl => ?_⟩
  · rw [List.forall₂_iff_get] at g1 k1 ⊢
    exact ⟨g1.1, fun i h1 h2 => ⟨(g1.2 i h1 h2).1, (g1.2 i h1 h2).2, (k1.2 i h1 h2).2⟩⟩
  · obtain ⟨l', e1, e2, e3⟩ := g3 l hl
    obtain ⟨l'', e1', e4, e5⟩ := k2 l hl
    rw [e1] at e1'
    cases e1'
    exact ⟨l', e1, ⟨e2, e4⟩, e3, e5⟩

/-- The nodes of a refined facet and their grid positions. -/
theorem refined_facet (hn : 1 ≤ n) (h : ElementNodes nodes) (hab : a ≠ b) {pos : ℕ → ℕ}
    (hO : OnGrid nodes n d a b r pos) {fs : List (List ℕ)} {fs' : List (List ℤ)}
    (hL : Listed (cubePremesh n d a b per) p r fs fs') (hP : Placed (cubePremesh n d a b per) nodes r fs fs')
    {j : ℕ} {et : List (List ℕ)} {ft : List FacetDim} (hF : List.Forall₂ (fun l f => l ∈ dimToElem n f) et ft)
    (hft : ft.length = d) (hc : ft.count .inner = d - 1) (hj : fs[j]? = some ((cartesian et).map (ravel (n + 1)))) :
    ∃ f', fs'[j]? = some f' ∧ f'.length = (p + 1) ^ (d - 1) ∧ ∀ i < (p + 1) ^ (d - 1), ∃ v < r.nodeCoords.length,
      f'[i]? = some (v : ℤ) ∧ pos v = ravel (n * p + 1) (gpt p et (digits (p + 1) (d - 1) i)) := by
  obtain ⟨f', h1, h2, h3⟩ := hL.2 j _ hj
  refine ⟨f', h1, h2, fun i hi => ?_⟩
  obtain ⟨v, h4, h5⟩ := h3 i hi
  exact ⟨v, h5, h4, (hO.facet hn h hab hF hft hc hi (hP j _ _ hj h1 i v h4)).2⟩

theorem refined_linkPair (hn : 1 ≤ n) (hd : 1 ≤ d) (h : ElementNodes nodes) (hab : a ≠ b) {pos : ℕ → ℕ}
    (hr : refinePremesh (cubePremesh n d a b per) nodes = .ok r)
    (hO : OnGrid nodes n d a b r pos) (x y : ℤ) :
    LinkPair (r.periodicLinks.getD []) x y ↔ ∃ v < r.nodeCoords.length, ∃ w < r.nodeCoords.length, x = (v : ℕ) ∧
      y = (w : ℕ) ∧ LinkPair (intLinks (cubeLinks (n * p) d per)) (pos v : ℕ) (pos w : ℕ) := by
  have hp := h.pos
  have hnp : 1 ≤ n * p := Nat.mul_pos hn hp
  obtain ⟨_, hnone, hsome⟩ := cube_listed hn hd h hr
  have hlk : (cubePremesh n d a b per).periodicLinks = if (cubeLinks n d per).length = 0 then none
    else some (cubeLinks n d per) := rfl
  by_cases h0 : (cubeLinks n d per).length = 0
  · rw [if_pos h0] at hlk
    rw [hnone hlk]
    constructor
    · rintro ⟨l, hl, _⟩; simp at hl
    · rintro ⟨v, _, w, _, _, _, hvw⟩
      exfalso
      rw [linkPair_cube hnp] at hvw
      obtain ⟨c, hc, hper, _⟩ := hvw
      have hnil : cubeLinks n d per = [] := List.eq_nil_of_length_eq_zero h0
      obtain ⟨et, het, _⟩ := (mem_facet_tuples hn hc (List.replicate d 0)).mpr
        ⟨by simp, fun x hx => by rw [List.eq_of_mem_replicate hx]; omega, by simp [hc]⟩
      have := (mem_cubeLinks (n := n) (d := d) (per := per)
        (x := ((cartesian et).map (ravel (n + 1)), (cartesian (et.set c [n])).map (ravel (n + 1))))).mpr
        ⟨c, hc, hper, et, (forall2_axis (t := .first)).mp het, rfl, rfl⟩
      rw [hnil] at this
      simp at this
  rw [if_neg h0] at hlk
  obtain ⟨l', hl', ⟨L1, P1⟩, L2, P2⟩ := hsome _ hlk
  rw [hl', Option.getD_some]
  have hlen : l'.length = (cubeLinks n d per).length := by simpa using L1.1
  have hfac : ∀ {j : ℕ} {c : ℕ} {et : List (List ℕ)}, c < d →
      List.Forall₂ (fun l f => l ∈ dimToElem n f) et (axisFacet d c .first) →
      (cubeLinks n d per)[j]? = some ((cartesian et).map (ravel (n + 1)), (cartesian (et.set c [n])).map (ravel (n + 1))) →
      ∃ f g, l'[j]? = some (f, g) ∧ f.length = (p + 1) ^ (d - 1) ∧ g.length = (p + 1) ^ (d - 1) ∧
        ∀ i < (p + 1) ^ (d - 1), ∃ v < r.nodeCoords.length, ∃ w < r.nodeCoords.length, f[i]? = some (v : ℤ) ∧
          g[i]? = some (w : ℤ) ∧ pos v = ravel (n * p + 1) (gpt p et (digits (p + 1) (d - 1) i)) ∧
          pos w = ravel (n * p + 1) ((gpt p et (digits (p + 1) (d - 1) i)).set c (n * p)) := by
    intro j c et hc het hj
    obtain ⟨l0, hl0, hl0'⟩ := forall2_axis_get hc het
    have hl0' : l0 = [0] := by simpa [dimToElem] using hl0'
    subst hl0'
    have het2 := forall2_axis_set (t' := .last) hc het (l := [n]) (by simp [dimToElem])
    obtain ⟨f, f1, f2, f3⟩ := refined_facet hn h hab hO L1 P1 het (axisFacet_length _ _ _) (axisFacet_count hc (by decide))
      (j := j) (by rw [List.getElem?_map, hj]; rfl)
    obtain ⟨g, g1, g2, g3⟩ := refined_facet hn h hab hO L2 P2 het2 (axisFacet_length _ _ _) (axisFacet_count hc (by decide))
      (j := j) (by rw [List.getElem?_map, hj]; rfl)
    rw [List.getElem?_map] at f1 g1
    cases hlj : l'[j]? with
    | none => rw [hlj] at f1; simp at f1
    | some z =>
      rw [hlj] at f1 g1
      simp only [Option.map_some, Option.some.injEq] at f1 g1
      refine ⟨f, g, by rw [← f1, ← g1], f2, g2, fun i hi => ?_⟩
      obtain ⟨v, v1, v2, v3⟩ := f3 i hi
      obtain ⟨w, w1, w2, w3⟩ := g3 i hi
      rw [gpt_set hl0] at w3
      exact ⟨v, v1, w, w1, v2, w2, v3, w3⟩
  constructor
  · rintro ⟨z, hz, k, hz1, hz2⟩
    obtain ⟨j, hj⟩ := List.mem_iff_getElem?.mp hz
    have hjl := (List.getElem?_eq_some_iff.mp hj).1
    obtain ⟨c, hc, hper, et, het, e1, e2⟩ := mem_cubeLinks.mp (List.getElem_mem (l := cubeLinks n d per) (n := j) (by omega))
    obtain ⟨f, g, hfg, hfl, hgl, hpts⟩ := hfac hc het (j := j) (by
      rw [List.getElem?_eq_getElem (by omega)]
      exact congrArg some (Prod.ext e1 e2))
    rw [hj] at hfg
    have hfg := Option.some.inj hfg
    subst hfg
    simp only at hz1 hz2
    have hk : k < (p + 1) ^ (d - 1) := by
      rw [← hfl]; exact (List.getElem?_eq_some_iff.mp hz1).1
    obtain ⟨v, v1, w, w1, v2, w2, v3, w3⟩ := hpts k hk
    rw [hz1] at v2
    rw [hz2] at w2
    refine ⟨v, v1, w, w1, Option.some.inj v2, Option.some.inj w2, ?_⟩
    rw [linkPair_cube hnp]
    obtain ⟨a1, a2, a3⟩ := (axis_points hn hp hc (t := .first) (by decide) _).mp ⟨et, het, k, hk, rfl⟩
    refine ⟨c, hc, hper, gpt p et (digits (p + 1) (d - 1) k), a1, a2, a3, ?_, ?_⟩
    · rw [v3]
    · rw [w3]
  · rintro ⟨v, hv, w, hw, rfl, rfl, hvw⟩
    rw [linkPair_cube hnp] at hvw
    obtain ⟨c, hc, hper, I, i1, i2, i3, i4, i5⟩ := hvw
    obtain ⟨et, het, i, hi, hI⟩ := (axis_points hn hp hc (t := .first) (by decide) I).mpr ⟨i1, i2, i3⟩
    have hmem := (mem_cubeLinks (n := n) (d := d) (per := per)
        (x := ((cartesian et).map (ravel (n + 1)), (cartesian (et.set c [n])).map (ravel (n + 1))))).mpr
        ⟨c, hc, hper, et, het, rfl, rfl⟩
    obtain ⟨j, hj⟩ := List.mem_iff_getElem?.mp hmem
    obtain ⟨f, g, hfg, hfl, hgl, hpts⟩ := hfac hc het hj
    obtain ⟨v', v1, w', w1, v2, w2, v3, w3⟩ := hpts i hi
    rw [hI] at v3 w3
    have hvv : v' = v := hO.bij.injOn v1 hv (by rw [v3]; exact_mod_cast i4.symm)
    have hww : w' = w := hO.bij.injOn w1 hw (by rw [w3]; exact_mod_cast i5.symm)
    subst hvv hww
    exact ⟨(f, g), List.mem_of_getElem? hfg, i, v2, w2⟩

theorem refined_linked (hn : 1 ≤ n) (hd : 1 ≤ d) (h : ElementNodes nodes) (hab : a ≠ b) {pos : ℕ → ℕ}
    (hr : refinePremesh (cubePremesh n d a b per) nodes = .ok r)
    (hO : OnGrid nodes n d a b r pos) {v w : ℕ} (hv : v < r.nodeCoords.length) (hw : w < r.nodeCoords.length) :
    Linked (r.periodicLinks.getD []) v w ↔ Linked (intLinks (cubeLinks (n * p) d per)) (pos v : ℕ) (pos w : ℕ) := by
  have hLP := refined_linkPair hn hd h hab hr hO
  have hnp : 1 ≤ n * p := Nat.mul_pos hn h.pos
  constructor
  · intro hl
    have key : ∀ x y : ℤ, Linked (r.periodicLinks.getD []) x y → x = y ∨ ∃ v < r.nodeCoords.length,
        ∃ w < r.nodeCoords.length, x = (v : ℕ) ∧ y = (w : ℕ) ∧
        Linked (intLinks (cubeLinks (n * p) d per)) (pos v : ℕ) (pos w : ℕ) := by
      intro x y hxy
      unfold Linked at hxy
      induction hxy with
      | rel x y hxy =>
        obtain ⟨v, hv, w, hw, e1, e2, e3⟩ := (hLP x y).mp hxy
        exact Or.inr ⟨v, hv, w, hw, e1, e2, .rel _ _ e3⟩
      | refl x => exact Or.inl rfl
      | symm x y _ ih =>
        rcases ih with rfl | ⟨v, hv, w, hw, e1, e2, e3⟩
        · exact Or.inl rfl
        · exact Or.inr ⟨w, hw, v, hv, e2, e1, e3.symm _ _⟩
      | trans x y z _ _ ih1 ih2 =>
        rcases ih1 with rfl | ⟨v, hv, w, hw, e1, e2, e3⟩
        · exact ih2
        · rcases ih2 with rfl | ⟨v', hv', w', hw', e1', e2', e3'⟩
          · exact Or.inr ⟨v, hv, w, hw, e1, e2, e3⟩
          · have : w = v' := by rw [e2] at e1'; exact_mod_cast e1'
            subst this
            exact Or.inr ⟨v, hv, w', hw', e1, e2', e3.trans _ _ _ e3'⟩
    rcases key _ _ hl with he | ⟨v', _, w', _, e1, e2, e3⟩
    · have : v = w := by exact_mod_cast he
      rw [this]; exact .refl _
    · have e1 : v = v' := by exact_mod_cast e1
      have e2 : w = w' := by exact_mod_cast e2
      rw [e1, e2]; exact e3
  · intro hl
    have key : ∀ x y : ℤ, Linked (intLinks (cubeLinks (n * p) d per)) x y → x = y ∨ ∃ v < r.nodeCoords.length,
        ∃ w < r.nodeCoords.length, x = (pos v : ℕ) ∧ y = (pos w : ℕ) ∧ Linked (r.periodicLinks.getD []) v w := by
      intro x y hxy
      unfold Linked at hxy
      induction hxy with
      | rel x y hxy =>
        have hx := hxy
        rw [linkPair_cube hnp] at hx
        obtain ⟨c, hc, hper, I, i1, i2, i3, rfl, rfl⟩ := hx
        have hlt1 := ravel_lt i2
        rw [i1] at hlt1
        have hlt2 := ravel_lt (b := n * p + 1) (I := I.set c (n * p)) (by
          intro z hz
          rcases List.mem_or_eq_of_mem_set hz with hz | hz
          · exact i2 z hz
          · omega)
        rw [List.length_set, i1] at hlt2
        obtain ⟨v, hv, e1⟩ := hO.bij.surjOn hlt1
        obtain ⟨w, hw, e2⟩ := hO.bij.surjOn hlt2
        refine Or.inr ⟨v, hv, w, hw, by rw [e1], by rw [e2], .rel _ _ ((hLP _ _).mpr ⟨v, hv, w, hw, rfl, rfl, ?_⟩)⟩
        rw [e1, e2]; exact hxy
      | refl x => exact Or.inl rfl
      | symm x y _ ih =>
        rcases ih with rfl | ⟨v, hv, w, hw, e1, e2, e3⟩
        · exact Or.inl rfl
        · exact Or.inr ⟨w, hw, v, hv, e2, e1, e3.symm _ _⟩
      | trans x y z _ _ ih1 ih2 =>
        rcases ih1 with rfl | ⟨v, hv, w, hw, e1, e2, e3⟩
        · exact ih2
        · rcases ih2 with rfl | ⟨v', hv', w', hw', e1', e2', e3'⟩
          · exact Or.inr ⟨v, hv, w, hw, e1, e2, e3⟩
          · have : w = v' := hO.bij.injOn hw hv' (by rw [e2] at e1'; exact_mod_cast e1')
            subst this
            exact Or.inr ⟨v, hv, w', hw', e1, e2', e3.trans _ _ _ e3'⟩
    rcases key _ _ hl with he | ⟨v', hv', w', hw', e1, e2, e3⟩
    · have : v = w := hO.bij.injOn hv hw (by exact_mod_cast he)
      rw [this]; exact .refl _
    · have e1 : v = v' := hO.bij.injOn hv hv' (by exact_mod_cast e1)
      have e2 : w = w' := hO.bij.injOn hw hw' (by exact_mod_cast e2)
      rw [e1, e2]; exact e3

theorem uniqueNodeIndex_iff (links : Option (List (List ℤ × List ℤ))) (x y : ℤ) :
    uniqueNodeIndex links x = uniqueNodeIndex links y ↔ Linked (links.getD []) x y := by
  cases links with
  | some l => exact C12_same_iff_linked _ _ _
  | none =>
    change x = y ↔ Linked [] x y
    constructor
    · intro he; rw [he]; exact .refl _
    · intro he
      unfold Linked at he
      induction he with
      | rel x y hxy => obtain ⟨l, hl, _⟩ := hxy; simp at hl
      | refl x => rfl
      | symm x y _ ih => exact ih.symm
      | trans x y z _ _ ih1 ih2 => exact ih1.trans ih2

theorem unique_iff_grid (hn : 1 ≤ n) (hd : 1 ≤ d) (h : ElementNodes nodes) (hab : a ≠ b) {pos : ℕ → ℕ}
    (hr : refinePremesh (cubePremesh n d a b per) nodes = .ok r) (hO : OnGrid nodes n d a b r pos) {v w : ℕ}
    (hv : v < r.nodeCoords.length) (hw : w < r.nodeCoords.length) :
    uniqueNodeIndex r.periodicLinks v = uniqueNodeIndex r.periodicLinks w ↔
      cubeUnique (unitCubeMesh (n * p) d a b per) (pos v) = cubeUnique (unitCubeMesh (n * p) d a b per) (pos w) := by
  rw [uniqueNodeIndex_iff, refined_linked hn hd h hab hr hO hv hw, cubeUnique_iff_linked]

/-- Two nodes of the refined mesh are the same degree of freedom iff their grid indices agree modulo `n p` on the periodic
axes and exactly on the others. -/
theorem C77_torus (hn : 1 ≤ n) (hd : 1 ≤ d) (h : ElementNodes nodes) (hab : a ≠ b) {pos : ℕ → ℕ}
    (hr : refinePremesh (cubePremesh n d a b per) nodes = .ok r) (hO : OnGrid nodes n d a b r pos) {v w : ℕ}
    (hv : v < r.nodeCoords.length) (hw : w < r.nodeCoords.length) :
    uniqueNodeIndex r.periodicLinks v = uniqueNodeIndex r.periodicLinks w ↔
      ∀ j < d, (j ∈ per → digit (n * p + 1) d j (pos v) % (n * p) = digit (n * p + 1) d j (pos w) % (n * p)) ∧
        (j ∉ per → digit (n * p + 1) d j (pos v) = digit (n * p + 1) d j (pos w)) := by
  have hnp : 1 ≤ n * p := Nat.mul_pos hn h.pos
  rw [unique_iff_grid hn hd h hab hr hO hv hw,
    C23_torus hnp a b per (hO.bij.mapsTo hv) (hO.bij.mapsTo hw)]

theorem card_image_eq {α : Type*} [DecidableEq α] {β : Type*} [DecidableEq β] {N M : ℕ} {pos : ℕ → ℕ} (f : ℕ → α)
    (g : ℕ → β) (hpos : Set.BijOn pos (Set.Iio N) (Set.Iio M))
    (hfg : ∀ v < N, ∀ w < N, (f v = f w ↔ g (pos v) = g (pos w))) :
    ((Finset.range N).image f).card = ((Finset.range M).image g).card := by
  have hM : (Finset.range M).image g = ((Finset.range N).image (fun v => g (pos v))) := by
    ext y
    simp only [Finset.mem_image, Finset.mem_range]
    constructor
    · rintro ⟨m, hm, rfl⟩
      obtain ⟨v, hv, rfl⟩ := hpos.surjOn (show m ∈ Set.Iio M from hm)
      exact ⟨v, hv, rfl⟩
    · rintro ⟨v, hv, rfl⟩
      exact ⟨pos v, hpos.mapsTo (show v ∈ Set.Iio N from hv), rfl⟩
  rw [hM]
  have hiff : ∀ k ∈ Finset.range N, ∀ l ∈ Finset.range N, (f k = f l ↔ g (pos k) = g (pos l)) := by
    intro k hk l hl
    exact hfg k (Finset.mem_range.mp hk) l (Finset.mem_range.mp hl)
  clear hM hfg hpos
  generalize Finset.range N = s at hiff
  induction s using Finset.induction_on with
  | empty => simp
  | insert c s hc ih =>
    have ih' := ih (fun k hk l hl => hiff k (Finset.mem_insert_of_mem hk) l (Finset.mem_insert_of_mem hl))
    rw [Finset.image_insert, Finset.image_insert]
    have hm : f c ∈ s.image f ↔ g (pos c) ∈ s.image (fun v => g (pos v)) := by
      simp only [Finset.mem_image]
      constructor
      · rintro ⟨k, hk, e⟩
        exact ⟨k, hk, (hiff k (Finset.mem_insert_of_mem hk) c (Finset.mem_insert_self c s)).mp e⟩
      · rintro ⟨k, hk, e⟩
        exact ⟨k, hk, (hiff k (Finset.mem_insert_of_mem hk) c (Finset.mem_insert_self c s)).mpr e⟩
    by_cases hc1 : f c ∈ s.image f
    · rw [Finset.insert_eq_of_mem hc1, Finset.insert_eq_of_mem (hm.mp hc1), ih']
    · rw [Finset.card_insert_of_notMem hc1, Finset.card_insert_of_notMem (fun hx => hc1 (hm.mpr hx)), ih']

/-- The number of degrees of freedom of the refined mesh. -/
theorem C77_count (hn : 1 ≤ n) (hd : 1 ≤ d) (h : ElementNodes nodes) (hab : a ≠ b)
    (hr : refinePremesh (cubePremesh n d a b per) nodes = .ok r) :
    ((Finset.range r.nodeCoords.length).image (fun v : ℕ => uniqueNodeIndex r.periodicLinks v)).card =
      (n * p) ^ ((List.range d).countP (· ∈ per)) * (n * p + 1) ^ ((List.range d).countP (· ∉ per)) := by
  obtain ⟨r', hr', _, _, _, pos, hO, _⟩ := C76_refined_grid hn hd h hab per
  rw [hr] at hr'
  cases hr'
  rw [← C23_count (Nat.mul_pos hn h.pos) a b per]
  exact card_image_eq _ _ hO.bij (fun v hv w hw => unique_iff_grid hn hd h hab hr hO hv hw)

/-- The refined mesh has a boundary group iff some axis is not periodic, under the name `boundary`, and the group lists
exactly the nodes with grid index `0` or `n p` on an axis that is not periodic. -/
theorem C77_boundary (hn : 1 ≤ n) (hd : 1 ≤ d) (h : ElementNodes nodes) (hab : a ≠ b) {pos : ℕ → ℕ}
    (hr : refinePremesh (cubePremesh n d a b per) nodes = .ok r) (hO : OnGrid nodes n d a b r pos) :
    ((∃ j < d, j ∉ per) ↔ r.physicalGroups ≠ []) ∧ r.physicalGroups.length ≤ 1 ∧
    ∀ g ∈ r.physicalGroups, g.1 = "boundary" ∧ ∀ v < r.nodeCoords.length, ((∃ f ∈ g.2, (v : ℤ) ∈ f) ↔
      ∃ j < d, j ∉ per ∧ (digit (n * p + 1) d j (pos v) = 0 ∨ digit (n * p + 1) d j (pos v) = n * p)) := by
  have hp := h.pos
  obtain ⟨hgroups, _, _⟩ := cube_listed hn hd h hr
  have hb : (cubePremesh n d a b per).physicalGroups = if (cubeBoundary n d per).length = 0 then []
      else [("boundary", cubeBoundary n d per)] := by
    change (match (if (cubeBoundary n d per).length = 0 then none else some (cubeBoundary n d per)) with
      | none => []
      | some fs => [("boundary", fs)]) = _
    split_ifs <;> rfl
  have hne : (∃ j < d, j ∉ per) ↔ (cubeBoundary n d per).length ≠ 0 := by
    constructor
    · rintro ⟨j, hj, hper⟩ h0
      have hnil := List.eq_nil_of_length_eq_zero h0
      obtain ⟨et, het, _⟩ := (mem_facet_tuples hn hj (List.replicate d 0)).mpr
        ⟨by simp, fun x hx => by rw [List.eq_of_mem_replicate hx]; omega, by simp [hj]⟩
      have := (mem_cubeBoundary (n := n) (d := d) (per := per)
        (f := (cartesian et).map (ravel (n + 1)))).mpr
        ⟨j, hj, hper, .first, by decide, et, (forall2_axis (t := .first)).mp het, rfl⟩
      rw [hnil] at this
      simp at this
    · intro h0
      obtain ⟨f, hf⟩ := List.exists_mem_of_length_pos (Nat.pos_of_ne_zero h0)
      obtain ⟨j, hj, hper, _⟩ := mem_cubeBoundary.mp hf
      exact ⟨j, hj, hper⟩
  have hlen := hgroups.length_eq
  rw [hb] at hlen
  refine ⟨?_, ?_, fun g hg => ?_⟩
  · rw [hne]
    by_cases h0 : (cubeBoundary n d per).length = 0
    · rw [if_pos h0] at hlen
      have : r.physicalGroups = [] := List.eq_nil_of_length_eq_zero hlen.symm
      simp [h0, this]
    · rw [if_neg h0] at hlen
      constructor
      · intro _ hc
        rw [hc] at hlen
        simp at hlen
      · intro _; exact h0
  · split_ifs at hlen <;> simp at hlen <;> omega
  · obtain ⟨i, hi, rfl⟩ := List.getElem_of_mem hg
    have hx := (List.forall₂_iff_get.mp hgroups).2 i (by rw [hgroups.length_eq]; exact hi) hi
    simp only [List.get_eq_getElem] at hx
    obtain ⟨e1, hL, hP⟩ := hx
    obtain ⟨c1, c2, _⟩ := cube_groups (List.getElem_mem (l := (cubePremesh n d a b per).physicalGroups) (n := i)
      (by rw [hgroups.length_eq]; exact hi))
    rw [c2] at hL hP
    refine ⟨by rw [e1, c1], fun v hv => ?_⟩
    have hdig : ∀ {I : List ℕ}, I.length = d → (∀ x ∈ I, x < n * p + 1) → ∀ j < d,
        I[j]? = some (digit (n * p + 1) d j (ravel (n * p + 1) I)) := by
      intro I i1 i2 j hj
      have h7 := digit_eq_getElem (n * p + 1) d j (ravel (n * p + 1) I) hj
      have h8 := digits_ravel i2
      rw [i1] at h8
      rw [h8] at h7
      exact h7
    constructor
    · rintro ⟨f, hf, hvf⟩
      obtain ⟨j, hj⟩ := List.mem_iff_getElem?.mp hf
      have hjl := (List.getElem?_eq_some_iff.mp hj).1
      rw [hL.1] at hjl
      obtain ⟨c, hc, hper, t, ht, et, het, he⟩ := mem_cubeBoundary.mp (List.getElem_mem hjl)
      obtain ⟨f', f1, f2, f3⟩ := refined_facet hn h hab hO hL hP het (axisFacet_length _ _ _) (axisFacet_count hc ht)
        (j := j) (by rw [List.getElem?_eq_getElem hjl, he])
      rw [hj] at f1
      cases f1
      obtain ⟨k, hk⟩ := List.mem_iff_getElem?.mp hvf
      have hkl : k < (p + 1) ^ (d - 1) := by rw [← f2]; exact (List.getElem?_eq_some_iff.mp hk).1
      obtain ⟨w, w1, w2, w3⟩ := f3 k hkl
      rw [hk] at w2
      have hvw : v = w := by exact_mod_cast Option.some.inj w2
      subst hvw
      obtain ⟨a1, a2, a3⟩ := (axis_points hn hp hc ht _).mp ⟨et, het, k, hkl, rfl⟩
      refine ⟨c, hc, hper, ?_⟩
      rw [w3]
      have := hdig a1 a2 c hc
      rw [a3] at this
      rw [← Option.some.inj this]
      by_cases h0 : t = .first
      · left; rw [if_pos h0]
      · right; rw [if_neg h0]
    · rintro ⟨c, hc, hper, hcase⟩
      have hlt : pos v < (n * p + 1) ^ d := hO.bij.mapsTo hv
      have hI1 : (digits (n * p + 1) d (pos v)).length = d := digits_length _ _ _
      have hI2 : ∀ x ∈ digits (n * p + 1) d (pos v), x < n * p + 1 := fun x hx => mem_digits_lt (by omega) hx
      have hI3 := digit_eq_getElem (n * p + 1) d c (pos v) hc
      have hexists : ∃ t : FacetDim, t ≠ .inner ∧
          (digits (n * p + 1) d (pos v))[c]? = some (if t = .first then 0 else n * p) := by
        rcases hcase with h0 | h0
        · exact ⟨.first, by decide, by rw [hI3, h0]; rfl⟩
        · exact ⟨.last, by decide, by rw [hI3, h0]; rfl⟩
      obtain ⟨t, ht, hI4⟩ := hexists
      obtain ⟨et, het, k, hk, hI⟩ := (axis_points hn hp hc ht _).mpr ⟨hI1, hI2, hI4⟩
      have hmem := (mem_cubeBoundary (n := n) (d := d) (per := per)
        (f := (cartesian et).map (ravel (n + 1)))).mpr ⟨c, hc, hper, t, ht, et, het, rfl⟩
      obtain ⟨j, hj⟩ := List.mem_iff_getElem?.mp hmem
      obtain ⟨f', f1, f2, f3⟩ := refined_facet hn h hab hO hL hP het (axisFacet_length _ _ _) (axisFacet_count hc ht) hj
      obtain ⟨w, w1, w2, w3⟩ := f3 k hk
      rw [hI, ravel_digits hlt] at w3
      have hwv : w = v := hO.bij.injOn w1 hv w3
      subst hwv
      exact ⟨f', List.mem_of_getElem? f1, List.mem_of_getElem? w2⟩

end

/-- Two by two elements of order two on a square, periodic in the first direction: 25 nodes, 20 degrees of freedom and a
boundary group. -/
example : ∃ r pos, refinePremesh (cubePremesh 2 2 (0 : ℚ) 1 [0]) (ncNode (K := ℚ) 3) = .ok r ∧ OnGrid (ncNode 3) 2 2 (0 : ℚ) 1 r pos ∧
    ((Finset.range r.nodeCoords.length).image (fun v : ℕ => uniqueNodeIndex r.periodicLinks v)).card = 20 ∧
    r.physicalGroups ≠ [] := by
  have hN := ncNode_elementNodes (K := ℚ) (p := 2) (by omega)
  obtain ⟨r, h1, _, _, _, pos, hO, _⟩ := C76_refined_grid (n := 2) (d := 2) (by omega) (by omega) hN (a := 0) (b := 1)
    (by norm_num) [0]
  refine ⟨r, pos, h1, hO, ?_, ?_⟩
  · rw [C77_count (by omega) (by omega) hN (by norm_num) h1]
    decide
  · exact ((C77_boundary (by omega) (by omega) hN (by norm_num) h1 hO).1).mp ⟨1, by omega, by decide⟩

end Verif.Core
