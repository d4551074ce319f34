import Verif.Props.C59
import Verif.Model.Reader

/-!
# C29: imported gmsh elements are reordered to lexicographic order, periodic facets included

The elements are (`C29_elements`). Periodic facets are in the same convention in two dimensions (`C29_links_partial`,
`C29_refinable_partial`), where a facet has two corners. In three dimensions the quadrilaterals are copied in gmsh's
cyclic order (`C29_violated`), and the mesh cannot be refined. In one dimension any periodic entry makes the reader raise
(`C29_violated_line`).
-/

namespace Verif.Common

open Verif.Core Verif.Spec

/-- The position of gmsh's node `k` of a cell in the reference cell, from the gmsh manual: lines, quadrilaterals
(counterclockwise) and hexahedra (bottom counterclockwise, then top counterclockwise). -/
def gmshCorner : ℕ → ℕ → List ℕ
  | 1, 0 => [0] | 1, 1 => [1]
  | 2, 0 => [0, 0] | 2, 1 => [1, 0] | 2, 2 => [1, 1] | 2, 3 => [0, 1]
  | 3, 0 => [0, 0, 0] | 3, 1 => [1, 0, 0] | 3, 2 => [1, 1, 0] | 3, 3 => [0, 1, 0]
  | 3, 4 => [0, 0, 1] | 3, 5 => [1, 0, 1] | 3, 6 => [1, 1, 1] | 3, 7 => [0, 1, 1]
  | _, _ => []

theorem readMesh_ok {V : Type*} {g : GmshMesh V} {d : ℕ} {pm : Premesh1 V} (h : readMesh g d = .ok pm) :
    (d = 1 ∨ d = 2 ∨ d = 3) ∧ ∃ cells, g.cells (elemCellType d) = some cells ∧
      pm.ndim = d ∧ pm.order = 1 ∧ pm.nodeCoords = g.points ∧ pm.physicalGroups = [] ∧
      pm.elements = cells.map (fun el => (nodeOrdering d).map (fun k => el.getD k 0)) ∧
      (pm.periodicLinks = none ∧ (g.periodic = none ∨ g.periodic = some []) ∨
        ∃ p links, g.periodic = some p ∧ p ≠ [] ∧ periodicLinksOf g p d = .ok links ∧ pm.periodicLinks = some links) := by
  unfold readMesh at h
  split at h
  · simp at h
  rename_i hd
  refine ⟨by omega, ?_⟩
  cases hc : g.cells (elemCellType d) with
  | none => rw [hc] at h; simp at h
  | some cells =>
    rw [hc] at h
    simp only at h
    refine ⟨cells, rfl, ?_⟩
    split at h
    · rename_i hp
      simp only [Except.ok.injEq] at h; subst h
      exact ⟨rfl, rfl, rfl, rfl, rfl, Or.inl ⟨rfl, Or.inl hp⟩⟩
    · rename_i hp
      simp only [Except.ok.injEq] at h; subst h
      exact ⟨rfl, rfl, rfl, rfl, rfl, Or.inl ⟨rfl, Or.inr hp⟩⟩
    · rename_i p ps hp
      cases hl : periodicLinksOf g (p :: ps) d with
      | error e => rw [hl] at h; simp at h
      | ok links =>
        rw [hl] at h
        simp only [Except.ok.injEq] at h; subst h
        exact ⟨rfl, rfl, rfl, rfl, rfl, Or.inr ⟨p :: ps, links, hp, by simp, hl, rfl⟩⟩

/-- Nodes and elements: the points are kept, there is one element per cell, and the node gmsh puts at a corner of the
reference cell is at the lexicographic position of this corner. -/
theorem C29_elements {V : Type*} {g : GmshMesh V} {d : ℕ} {pm : Premesh1 V} (h : readMesh g d = .ok pm) :
    pm.nodeCoords = g.points ∧ pm.ndim = d ∧ pm.order = 1 ∧ ∃ cells, g.cells (elemCellType d) = some cells ∧
      pm.elements.length = cells.length ∧
      ∀ (e : ℕ) (cell el : List ℕ), cells[e]? = some cell → pm.elements[e]? = some el → cell.length = 2 ^ d →
        el.length = 2 ^ d ∧ ∀ k < 2 ^ d, el[ravel 2 (gmshCorner d k)]? = cell[k]? := by
  obtain ⟨hd, cells, hcells, h1, h2, h3, _, h5, _⟩ := readMesh_ok h
  refine ⟨h3, h1, h2, cells, hcells, by rw [h5, List.length_map], fun e cell el hc hel hlen => ?_⟩
  rw [h5, List.getElem?_map, hc] at hel
  simp only [Option.map_some, Option.some.injEq] at hel
  subst hel
  have hg : ∀ k < 2 ^ d, cell.getD k 0 = cell[k]?.getD 0 ∧ cell[k]? = some (cell.getD k 0) := by
    intro k hk
    rw [List.getD_eq_getElem _ _ (by omega), List.getElem?_eq_getElem (by omega)]
    simp
  rcases hd with rfl | rfl | rfl
  · refine ⟨rfl, fun k hk => ?_⟩
    rw [(hg k hk).2]
    norm_num at hk
    interval_cases k <;> rfl
  · refine ⟨rfl, fun k hk => ?_⟩
    rw [(hg k hk).2]
    norm_num at hk
    interval_cases k <;> rfl
  · refine ⟨rfl, fun k hk => ?_⟩
    rw [(hg k hk).2]
    norm_num at hk
    interval_cases k <;> rfl

/-- `(x, y)` is the last pair for `x` among the periodic pairs of entities of dimension `d - 1`. -/
def Partner (periodic : List (ℕ × List (ℕ × ℕ))) (d x y : ℕ) : Prop :=
  ∃ l1 l2, (periodic.filter (fun e => e.1 + 1 = d)).flatMap (·.2) = l1 ++ (x, y) :: l2 ∧ ∀ q ∈ l2, q.1 ≠ x

theorem srcTgt_eq_some {periodic : List (ℕ × List (ℕ × ℕ))} {d x y : ℕ} :
    srcTgt periodic d x = some y ↔ Partner periodic d x y := by
  unfold srcTgt Partner
  generalize (periodic.filter (fun e => e.1 + 1 = d)).flatMap (·.2) = L
  rw [Option.map_eq_some_iff]
  constructor
  · rintro ⟨⟨a, b⟩, hf, rfl⟩
    rw [List.find?_eq_some_iff_append] at hf
    obtain ⟨hx, as, bs, hL, hno⟩ := hf
    have hx' : a = x := by simpa using hx
    subst hx'
    refine ⟨bs.reverse, as.reverse, ?_, ?_⟩
    · have := congrArg List.reverse hL
      rw [List.reverse_reverse] at this
      rw [this]; simp
    · intro q hq
      have := hno q (by simpa using hq)
      simpa using this
  · rintro ⟨l1, l2, rfl, hno⟩
    refine ⟨(x, y), ?_, rfl⟩
    rw [List.find?_eq_some_iff_append]
    refine ⟨by simp, l2.reverse, l1.reverse, by simp, fun q hq => ?_⟩
    have := hno q (by simpa using hq)
    simpa using this

/-- In two dimensions the periodic links are exactly the line cells both of whose nodes have partners, in the order of the
file, each with the list of partners.

Partial: only for `d = 2`; for `d = 3` the statement fails (`C29_violated`), for `d = 1` reading fails. -/
theorem C29_links_partial {V : Type*} {g : GmshMesh V} {pm : Premesh1 V} (h : readMesh g 2 = .ok pm)
    {p : List (ℕ × List (ℕ × ℕ))} (hp : g.periodic = some p) (hne : p ≠ []) :
    ∃ lines links, g.cells "line" = some lines ∧ pm.periodicLinks = some links ∧ links ≠ [] ∧
      (∀ x ∈ links, x.1 ∈ lines ∧ List.Forall₂ (Partner p 2) x.1 x.2) ∧
      (∀ f ∈ lines, (∀ v ∈ f, ∃ w, Partner p 2 v w) → ∃ x ∈ links, x.1 = f) ∧
      (links.map (·.1)).Sublist lines := by
  obtain ⟨_, cells, _, _, _, _, _, _, hl⟩ := readMesh_ok h
  rcases hl with ⟨_, hh⟩ | ⟨q, links, hq, _, hlinks, hpl⟩
  · rw [hp] at hh
    rcases hh with hh | hh
    · cases hh
    · simp only [Option.some.injEq] at hh; exact absurd hh hne
  rw [hp] at hq; cases hq
  unfold periodicLinksOf facetCellType at hlinks
  simp only [if_true] at hlinks
  cases hc : g.cells "line" with
  | none => rw [hc] at hlinks; simp at hlinks
  | some lines =>
    rw [hc] at hlinks
    simp only at hlinks
    split at hlinks
    · simp at hlinks
    · rename_i hne'
      simp only [Except.ok.injEq] at hlinks
      refine ⟨lines, links, rfl, hpl, by rw [← hlinks]; exact hne', ?_, ?_, ?_⟩
      · intro x hx
        rw [← hlinks] at hx
        obtain ⟨f, hf, rfl⟩ := List.mem_map.mp hx
        obtain ⟨hf1, hf2⟩ := List.mem_filter.mp hf
        rw [List.all_eq_true] at hf2
        refine ⟨hf1, ?_⟩
        rw [List.forall₂_map_right_iff, List.forall₂_same]
        intro v hv
        obtain ⟨w, hw⟩ := Option.isSome_iff_exists.mp (hf2 v hv)
        rw [hw]
        exact srcTgt_eq_some.mp hw
      · intro f hf hall
        refine ⟨(f, f.map (fun x => (srcTgt p 2 x).getD 0)), ?_, rfl⟩
        rw [← hlinks]
        refine List.mem_map.mpr ⟨f, List.mem_filter.mpr ⟨hf, ?_⟩, rfl⟩
        rw [List.all_eq_true]
        intro v hv
        obtain ⟨w, hw⟩ := hall v hv
        rw [srcTgt_eq_some.mpr hw]; rfl
      · rw [← hlinks, List.map_map]
        have : ((fun x : List ℕ × List ℕ => x.1) ∘ fun f => (f, f.map (fun x => (srcTgt p 2 x).getD 0))) = id := rfl
        rw [this, List.map_id]
        exact List.filter_sublist

/-- In two dimensions a mesh that was read can be refined: when the cells are quadrilaterals with distinct nodes and all
periodic facets are edges of cells. Partial: `d = 2`, as above. -/
theorem C29_refinable_partial {K V : Type*} [Field K] [LinearOrder K] [IsStrictOrderedRing K] [AddCommGroup V]
    [Module K V] {g : GmshMesh V} {pm : Premesh1 V} (h : readMesh g 2 = .ok pm) {cells : List (List ℕ)}
    (hcells : g.cells "quad" = some cells) (hw : ∀ c ∈ cells, c.length = 4) (hd : ∀ c ∈ cells, c.Nodup)
    (hv : ∀ c ∈ cells, ∀ x ∈ c, x < g.points.length)
    (hl : ∀ links, pm.periodicLinks = some links → ∀ x ∈ links, ∀ f, f = x.1 ∨ f = x.2 → f.Nodup ∧
      ∃ a b, f = [a, b] ∧ ∃ c ∈ cells, ∃ i, (c[i]? = some a ∧ c[(i + 1) % 4]? = some b) ∨
        (c[i]? = some b ∧ c[(i + 1) % 4]? = some a))
    {n : ℕ} (hn : 1 ≤ n) (nodes : Fin (n + 1) → K) (hends : nodes 0 = -1 ∧ nodes (Fin.last n) = 1) :
    ∃ r, refinePremesh pm nodes = .ok r := by
  obtain ⟨_, cells', hc', h1, h2, h3, h4, h5, _⟩ := readMesh_ok h
  have : elemCellType 2 = "quad" := rfl
  rw [this, hcells] at hc'
  cases hc'
  have hperm : ∀ c ∈ cells, (nodeOrdering 2).map (fun k => c.getD k 0) = [c.getD 0 0, c.getD 3 0, c.getD 1 0, c.getD 2 0] :=
    fun _ _ => rfl
  have hform : ∀ c ∈ cells, ∃ a b d e, c = [a, b, d, e] := by
    intro c hc
    have := hw c hc
    match c, this with
    | [a, b, d, e], _ => exact ⟨a, b, d, e, rfl⟩
  have hels : ∀ el ∈ pm.elements, ∃ a b d e, [a, b, d, e] ∈ cells ∧ el = [a, e, b, d] := by
    intro el hel
    rw [h5] at hel
    obtain ⟨c, hc, rfl⟩ := List.mem_map.mp hel
    obtain ⟨a, b, d, e, rfl⟩ := hform c hc
    exact ⟨a, b, d, e, hc, rfl⟩
  have hF := (C27_low_dimension (K := K) (pm := pm) (by omega) (by omega) h2
    (by
      intro el hel
      obtain ⟨a, b, d, e, _, rfl⟩ := hels el hel
      rw [h1]; rfl)
    (by
      intro el hel
      obtain ⟨a, b, d, e, hc, rfl⟩ := hels el hel
      have := hd _ hc
      have hp : [a, e, b, d].Perm [a, b, d, e] := List.Perm.cons a (List.perm_append_comm (l₁ := [e]) (l₂ := [b, d]))
      exact hp.nodup_iff.mpr this)
    (by
      intro el hel x hx
      obtain ⟨a, b, d, e, hc, rfl⟩ := hels el hel
      rw [h3]
      refine hv _ hc x ?_
      have hp : [a, e, b, d].Perm [a, b, d, e] := List.Perm.cons a (List.perm_append_comm (l₁ := [e]) (l₂ := [b, d]))
      exact hp.subset hx) hn nodes hends).1
  -- edges of cells are facets of elements
  have hfacets : ∀ fs : List (List ℕ), (∀ f ∈ fs, f.Nodup ∧
      ∃ a b, f = [a, b] ∧ ∃ c ∈ cells, ∃ i, (c[i]? = some a ∧ c[(i + 1) % 4]? = some b) ∨
        (c[i]? = some b ∧ c[(i + 1) % 4]? = some a)) → FacetsOf pm fs := by
    intro fs hfs
    refine (C59_low_dimension (by omega) (by omega) ?_ (fun f hf => (hfs f hf).1) ?_ (fun _ f hf => ?_) 0).1
    · intro f hf
      obtain ⟨_, a, b, rfl, _⟩ := hfs f hf
      rw [h1]; rfl
    · intro f hf x hx
      obtain ⟨_, a, b, rfl, c, hc, i, hi⟩ := hfs f hf
      rw [h3]
      refine hv c hc x ?_
      have hx' : x = a ∨ x = b := by simpa using hx
      rcases hi with ⟨p1, p2⟩ | ⟨p1, p2⟩ <;> rcases hx' with rfl | rfl
      · exact List.mem_of_getElem? p1
      · exact List.mem_of_getElem? p2
      · exact List.mem_of_getElem? p2
      · exact List.mem_of_getElem? p1
    · obtain ⟨_, a, b, rfl, c, hc, i, hi⟩ := hfs f hf
      obtain ⟨u, v, w, z, rfl⟩ := hform c hc
      refine ⟨[u, z, v, w], ?_, ?_⟩
      · rw [h5]; exact List.mem_map.mpr ⟨_, hc, rfl⟩
      have main : ∀ a b, ([u, v, w, z][i]? = some a ∧ [u, v, w, z][(i + 1) % 4]? = some b) →
          ∃ ft : List FacetDim, ft.length = 2 ∧ (facetCorners ft [u, z, v, w]).Perm [a, b] := by
        rintro a b ⟨p1, p2⟩
        have hi4 : i < 4 := by
          have := (List.getElem?_eq_some_iff.mp p1).1
          simpa using this
        interval_cases i <;> simp at p1 p2 <;> subst p1 p2
        · exact ⟨[.inner, .first], rfl, List.Perm.refl _⟩
        · exact ⟨[.last, .inner], rfl, List.Perm.refl _⟩
        · exact ⟨[.inner, .last], rfl, List.Perm.swap _ _ _⟩
        · exact ⟨[.first, .inner], rfl, List.Perm.swap _ _ _⟩
      rcases hi with hi | hi
      · exact main a b hi
      · obtain ⟨ft, hft, hp⟩ := main b a hi
        exact ⟨ft, hft, hp.trans (List.Perm.swap _ _ _)⟩
  have hB : Boundary pm := by
    refine ⟨fun g' hg => ?_, fun links hlinks => ⟨hfacets _ ?_, hfacets _ ?_⟩⟩
    · rw [h4] at hg; simp at hg
    · intro f hf
      obtain ⟨x, hx, rfl⟩ := List.mem_map.mp hf
      exact hl links hlinks x hx _ (Or.inl rfl)
    · intro f hf
      obtain ⟨x, hx, rfl⟩ := List.mem_map.mp hf
      exact hl links hlinks x hx _ (Or.inr rfl)
  obtain ⟨r, hr, _⟩ := C59_succeeds hF hB hn nodes hends
  exact ⟨r, hr⟩

/-- Non-vacuity: one square with its left edge (nodes 3, 0) tied to the right edge (2, 1). -/
def periodicSquare : GmshMesh (ℚ × ℚ) where
  points := [(0, 0), (1, 0), (1, 1), (0, 1)]
  cells := fun t => if t = "quad" then some [[0, 1, 2, 3]] else if t = "line" then some [[0, 1], [1, 2], [2, 3], [3, 0]] else none
  periodic := some [(1, [(3, 2), (0, 1)]), (0, [(1, 2)])]

example : ∃ pm, readMesh periodicSquare 2 = .ok pm ∧ pm.elements = [[0, 3, 1, 2]] ∧
    pm.periodicLinks = some [([3, 0], [2, 1])] ∧ ∃ r, refinePremesh pm (ncNode 4 (K := ℚ)) = .ok r := by
  refine ⟨⟨2, 1, [(0, 0), (1, 0), (1, 1), (0, 1)], [[0, 3, 1, 2]], [], some [([3, 0], [2, 1])]⟩, by rfl, rfl, rfl, ?_⟩
  refine C29_refinable_partial (g := periodicSquare) (cells := [[0, 1, 2, 3]]) (by rfl) (by rfl) (by decide) (by decide)
    (by decide) ?_ (by norm_num) _ (by constructor <;> decide +kernel)
  intro links hlinks x hx f hf
  have hx' : x = ([3, 0], [2, 1]) := by
    have : links = [([3, 0], [2, 1])] := (Option.some.inj hlinks).symm
    subst this; simpa using hx
  subst hx'
  rcases hf with rfl | rfl
  · exact ⟨by decide, 3, 0, rfl, [0, 1, 2, 3], by simp, 3, Or.inl (by decide)⟩
  · exact ⟨by decide, 2, 1, rfl, [0, 1, 2, 3], by simp, 1, Or.inr (by decide)⟩

/-- A unit cube in gmsh's numbering whose face `x = 0` is tied to the face `x = 1`. -/
def periodicCube : GmshMesh (ℚ × ℚ × ℚ) where
  points := [(0, 0, 0), (1, 0, 0), (1, 1, 0), (0, 1, 0), (0, 0, 1), (1, 0, 1), (1, 1, 1), (0, 1, 1)]
  cells := fun t => if t = "hexahedron" then some [[0, 1, 2, 3, 4, 5, 6, 7]]
    else if t = "quad" then some [[0, 3, 7, 4], [1, 2, 6, 5]] else none
  periodic := some [(2, [(0, 1), (3, 2), (7, 6), (4, 5)])]

/-- The property is false in three dimensions. The links of any mesh list a quadrilateral of the file as it is, in gmsh's
cyclic order `a b c d`; so corner 1 of gmsh, which is at reference position `(1, 0)`, sits at lexicographic position 1
instead of 2. Unless the diagonal `a c` of the face happens to be an edge of some cell, the mesh cannot be refined to any
order. -/
theorem C29_violated {K V : Type*} [Field K] [LinearOrder K] [IsStrictOrderedRing K] [AddCommGroup V]
    [Module K V] {g : GmshMesh V} {pm : Premesh1 V} (h : readMesh g 3 = .ok pm) (hF : FirstOrder pm)
    {links : List (List ℕ × List ℕ)} (hl : pm.periodicLinks = some links) {x : List ℕ × List ℕ} (hx : x ∈ links) :
    (∃ quads, g.cells "quad" = some quads ∧ x.1 ∈ quads) ∧
    ∀ a b c d, x.1 = [a, b, c, d] →
      (∀ el ∈ pm.elements, ∀ ft : List FacetDim, ft.length = 3 → ¬ (facetCorners ft el).Perm [a, c]) →
      ∀ (n : ℕ), 1 ≤ n → ∀ nodes : Fin (n + 1) → K, nodes 0 = -1 ∧ nodes (Fin.last n) = 1 →
        ∃ e, refinePremesh pm nodes = .error e := by
  obtain ⟨_, cells, _, h1, h2, h3, h4, h5, hp⟩ := readMesh_ok h
  refine ⟨?_, ?_⟩
  · rcases hp with ⟨hh, _⟩ | ⟨q, links', hq, _, hlinks, hpl⟩
    · rw [hl] at hh; cases hh
    · rw [hl] at hpl; cases hpl
      unfold periodicLinksOf facetCellType at hlinks
      simp only [show (3 : ℕ) ≠ 2 by norm_num, if_false, if_true] at hlinks
      cases hc : g.cells "quad" with
      | none => rw [hc] at hlinks; simp at hlinks
      | some quads =>
        rw [hc] at hlinks
        simp only at hlinks
        split at hlinks
        · simp at hlinks
        · simp only [Except.ok.injEq] at hlinks
          rw [← hlinks] at hx
          obtain ⟨f, hf, rfl⟩ := List.mem_map.mp hx
          exact ⟨quads, rfl, (List.mem_filter.mp hf).1⟩
  · intro a b c d hxe hno n hn nodes hends
    cases hr : refinePremesh pm nodes with
    | error e => exact ⟨e, rfl⟩
    | ok r =>
      exfalso
      obtain ⟨el, hel, ft, hft, hperm⟩ := C59_links_needed hF h4 hn nodes hends hr hl hx
        (ft' := [.inner, .first]) (by rw [h1]; rfl) (by decide)
      rw [hxe] at hperm
      rw [h1] at hft
      exact hno el hel ft hft hperm

/-- The cube above is such a mesh; with the same faces in lexicographic order it can be refined. -/
theorem C29_violated_cube : ∃ pm, readMesh periodicCube 3 = .ok pm ∧ FirstOrder pm ∧
    pm.periodicLinks = some [([0, 3, 7, 4], [1, 2, 6, 5])] ∧
    (∀ (n : ℕ), 1 ≤ n → ∀ nodes : Fin (n + 1) → ℚ, nodes 0 = -1 ∧ nodes (Fin.last n) = 1 →
        ∃ e, refinePremesh pm nodes = .error e) ∧
    ∃ r, refinePremesh { pm with periodicLinks := some [([0, 4, 3, 7], [1, 5, 2, 6])] } (ncNode 4 (K := ℚ)) = .ok r := by
  let pm : Premesh1 (ℚ × ℚ × ℚ) := ⟨3, 1, periodicCube.points, [[0, 4, 3, 7, 1, 5, 2, 6]], [],
    some [([0, 3, 7, 4], [1, 2, 6, 5])]⟩
  have hread : readMesh periodicCube 3 = .ok pm := by rfl
  have hF : FirstOrder pm := ⟨by decide, rfl, by decide, by decide, by decide, facetsMatch_of_check (by decide +kernel)⟩
  refine ⟨pm, hread, hF, rfl, ?_, ?_⟩
  · refine (C29_violated hread hF rfl (x := ([0, 3, 7, 4], [1, 2, 6, 5])) (by simp)).2 0 3 7 4 rfl ?_
    have key : ∀ ft ∈ facetTypes 3, ¬ (facetCorners ft [0, 4, 3, 7, 1, 5, 2, 6]).insertionSort (· ≤ ·) = [0, 7] := by
      decide +kernel
    intro el hel ft hft hp
    have : el = [0, 4, 3, 7, 1, 5, 2, 6] := by simpa [pm] using hel
    subst this
    refine key ft (mem_facetTypes.mpr hft) ?_
    rw [key_eq_iff.mpr hp]
    rfl
  · have hchk : (match refinePremesh { pm with periodicLinks := some [([0, 4, 3, 7], [1, 5, 2, 6])] } (ncNode 4 (K := ℚ)) with
      | .error _ => false
      | .ok _ => true) = true := by decide +kernel
    split at hchk
    · simp at hchk
    · rename_i r hr
      exact ⟨r, hr⟩

/-- In one dimension every mesh with a periodic entry makes the reader raise: there is no facet type for points. -/
theorem C29_violated_line {V : Type*} (g : GmshMesh V) {p : List (ℕ × List (ℕ × ℕ))} (hp : g.periodic = some p)
    (hne : p ≠ []) : ∃ e, readMesh g 1 = .error e := by
  unfold readMesh
  rw [if_neg (by decide)]
  cases hc : g.cells (elemCellType 1) with
  | none => exact ⟨_, rfl⟩
  | some cells =>
    obtain ⟨a, l, rfl⟩ := List.exists_cons_of_ne_nil hne
    simp only [hp]
    exact ⟨"KeyError", by simp [periodicLinksOf, facetCellType]⟩

end Verif.Common
