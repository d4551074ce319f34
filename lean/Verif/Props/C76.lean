import Verif.Lemmas.CubeGrid
import Mathlib.Algebra.Order.Field.Basic
import Mathlib.Data.Set.Card
import Mathlib.Order.Interval.Finset.Nat
import Mathlib.Tactic.FieldSimp

/-!
# C76: the refined unit cube is the tensor grid of the element nodes

No hypothesis on the mesh: the statements are about `refine_premesh(unit_cube_mesh(n, ndim, a, b, periodic_dims), nodes)`
for every `n`, `ndim`, `periodic_dims` and every symmetric increasing list of `p + 1` points from `-1` to `1`.
-/

set_option linter.unusedSectionVars false

namespace Verif.Core

open Verif.Common Verif.Spec

variable {K : Type*} [Field K] [LinearOrder K] [IsStrictOrderedRing K]

/-- Points of an element from `-1` to `1`, increasing and symmetric. -/
structure ElementNodes {p : ℕ} (nodes : Fin (p + 1) → K) : Prop where
  first : nodes 0 = -1
  last : nodes (Fin.last p) = 1
  increasing : StrictMono nodes
  symmetric : ∀ i, nodes (Fin.rev i) = - nodes i

/-- Distance of point `g` of the refined grid from the lower end, in cells: `g / p` whole cells and the position of node
`g % p` in the next one. -/
def gridOffset {p : ℕ} (nodes : Fin (p + 1) → K) (g : ℕ) : K := (g / p : ℕ) + (1 + at0 nodes (g % p)) / 2

/-- Node `v` is point `i` of element `e`. -/
def NodeAt {V : Type*} (r : Refined V) (e i v : ℕ) : Prop := ∃ ref, r.elements[e]? = some ref ∧ ref[i]? = some (v : ℤ)

/-- `pos` numbers the nodes of the refined mesh by the points of the grid with `n p + 1` points per axis on `[a, b] ^ d`,
one to one, and every node sits at its place. -/
structure OnGrid {p : ℕ} (nodes : Fin (p + 1) → K) (n d : ℕ) (a b : K) (r : Refined (Fin d → K)) (pos : ℕ → ℕ) : Prop where
  bij : Set.BijOn pos (Set.Iio r.nodeCoords.length) (Set.Iio ((n * p + 1) ^ d))
  coords : ∀ v < r.nodeCoords.length, r.nodeCoords[v]? = some (fun k : Fin d =>
    a + (b - a) / n * gridOffset nodes (digit (n * p + 1) d k (pos v)))

theorem ElementNodes.pos {p : ℕ} {nodes : Fin (p + 1) → K} (h : ElementNodes nodes) : 1 ≤ p := by
  by_contra hp
  have : p = 0 := by omega
  subst this
  have h1 := h.first
  have h2 := h.last
  rw [show Fin.last 0 = 0 from rfl, h1] at h2
  have : (0 : K) < 1 := one_pos
  linarith

omit [LinearOrder K] [IsStrictOrderedRing K] in
theorem lin_sum (x : K) (h2 : (2 : K) ≠ 0) : lin x 0 + lin x 1 = 1 := by
  unfold lin
  simp only [if_true, one_ne_zero, if_false]
  field_simp
  ring

theorem gridOffset_cell {p : ℕ} {nodes : Fin (p + 1) → K} (h : ElementNodes nodes) {e i : ℕ} (hi : i < p + 1) :
    gridOffset nodes (e * p + i) = e + (1 + at0 nodes i) / 2 := by
  have hp := h.pos
  unfold gridOffset
  by_cases hip : i = p
  · subst hip
    have e1 : (e * i + i) / i = e + 1 := by
      rw [show e * i + i = (e + 1) * i by ring, Nat.mul_div_cancel _ (by omega)]
    have e2 : (e * i + i) % i = 0 := by
      rw [show e * i + i = (e + 1) * i by ring, Nat.mul_mod_left]
    have e3 : at0 nodes 0 = -1 := by rw [at0, dif_pos (by omega)]; exact h.first
    have e4 : at0 nodes i = 1 := by
      rw [at0, dif_pos (by omega), ← h.last]; rfl
    rw [e1, e2, e3, e4]
    push_cast
    ring
  · have hlt : i < p := by omega
    have e1 : (e * p + i) / p = e := by
      rw [Nat.add_comm, Nat.add_mul_div_right _ _ (by omega), Nat.div_eq_of_lt hlt, zero_add]
    have e2 : (e * p + i) % p = i := by
      rw [Nat.add_comm, Nat.add_mul_mod_self_right, Nat.mod_eq_of_lt hlt]
    rw [e1, e2]

theorem at0_bounds {p : ℕ} {nodes : Fin (p + 1) → K} (h : ElementNodes nodes) {i : ℕ} (hi : i < p + 1) :
    -1 ≤ at0 nodes i ∧ at0 nodes i ≤ 1 ∧ (i < p → at0 nodes i < 1) := by
  rw [at0, dif_pos hi]
  refine ⟨?_, ?_, fun hlt => ?_⟩
  · rw [← h.first]; exact h.increasing.monotone (Fin.zero_le _)
  · rw [← h.last]; exact h.increasing.monotone (Fin.le_last _)
  · rw [← h.last]
    apply h.increasing
    rw [Fin.lt_def]
    exact hlt

/-- Different points of the refined grid have different positions. -/
theorem gridOffset_strictMono {p : ℕ} {nodes : Fin (p + 1) → K} (h : ElementNodes nodes) :
    StrictMono (gridOffset nodes) := by
  have hp := h.pos
  intro g g' hlt
  have hd := Nat.div_add_mod g p
  have hd' := Nat.div_add_mod g' p
  have hm := Nat.mod_lt g hp
  have hm' := Nat.mod_lt g' hp
  unfold gridOffset
  rcases Nat.lt_or_ge (g / p) (g' / p) with hq | hq
  · have b1 := (at0_bounds h (i := g % p) (by omega)).2.2 hm
    have b2 := (at0_bounds h (i := g' % p) (by omega)).1
    have : ((g / p : ℕ) : K) + 1 ≤ ((g' / p : ℕ) : K) := by exact_mod_cast hq
    linarith
  · have hqe : g / p = g' / p := le_antisymm (Nat.div_le_div_right (le_of_lt hlt)) hq
    have hmm : g % p < g' % p := by rw [hqe] at hd; omega
    rw [hqe]
    have : at0 nodes (g % p) < at0 nodes (g' % p) := by
      rw [at0, dif_pos (by omega), at0, dif_pos (by omega)]
      exact h.increasing (by rw [Fin.lt_def]; exact hmm)
    linarith

/-- A corner of an element. -/
theorem cubeElement_corner {n : ℕ} {E cs : List ℕ} (hl : cs.length = E.length) (h2 : ∀ x ∈ cs, x < 2) :
    (cubeElement n E).getD (ravel 2 cs) 0 = ravel (n + 1) (List.zipWith (· + ·) E cs) := by
  have hr := ravel_lt h2
  rw [hl] at hr
  have := getElem?_cartesian_pairs E hr
  rw [← hl, digits_ravel h2] at this
  rw [List.getD_eq_getElem?_getD, cubeElement, List.getElem?_map]
  have e : E.map cellPair = E.map (fun i => [i, i + 1]) := rfl
  rw [e, this]
  rfl

/-- The interpolated position of point `i` of cell `e`. -/
theorem cube_interpolated {n d p : ℕ} (hn : 1 ≤ n) (nodes : Fin (p + 1) → K) (a b : K)
    (per : List ℕ) {e i : ℕ} (hi : i < (p + 1) ^ d) :
    interpolated d nodes (cubePremesh n d a b per).nodeCoords (cubeElement n (digits n d e)) i =
      fun k : Fin d => a + (b - a) / n * (digit n d k e + (1 + at0 nodes (digit (p + 1) d k i)) / 2) := by
  have hIl : (digits (p + 1) d i).length = d := digits_length _ _ _
  have hIlt : ∀ x ∈ digits (p + 1) d i, x < p + 1 := fun x hx => mem_digits_lt (by omega) hx
  have hEl : (digits n d e).length = d := digits_length _ _ _
  have hElt : ∀ x ∈ digits n d e, x < n := fun x hx => mem_digits_lt (by omega) hx
  have hrav : ravel (p + 1) (digits (p + 1) d i) = i := ravel_digits hi
  have hml := interpolated_ml (V := Fin d → K) nodes (cubePremesh n d a b per).nodeCoords
    (cubeElement n (digits n d e)) hIl hIlt
  rw [hrav] at hml
  refine hml.trans ?_
  funext k
  rw [ml_apply]
  have hw : ∀ j, lin (at0 nodes j) 0 + lin (at0 nodes j) 1 = 1 := fun j => lin_sum _ two_ne_zero
  have hk : (k : ℕ) < d := k.2
  have hcong : ml (V := K) (fun a b => lin (at0 nodes a) b) (digits (p + 1) d i) (fun cs =>
      (cubePremesh n d a b per).nodeCoords.getD ((cubeElement n (digits n d e)).getD (ravel 2 cs) 0) 0 k) =
      ml (fun a b => lin (at0 nodes a) b) (digits (p + 1) d i) (fun cs =>
        (a + (digit n d k e : K) * ((b - a) / n)) + (cs.getD k 0 : K) * ((b - a) / n)) := by
    apply ml_congr
    intro cs hcl hc2
    rw [hIl] at hcl
    rw [cubeElement_corner (by omega) hc2]
    have hz := zipWith_add_lt hElt hc2
    have hzl : (List.zipWith (· + ·) (digits n d e) cs).length = d := by simp [hEl, hcl]
    have hzr := ravel_lt hz
    rw [hzl] at hzr
    rw [List.getD_eq_getElem?_getD, cube_node a b per hzr, Option.getD_some]
    have hdig : digit (n + 1) d k (ravel (n + 1) (List.zipWith (· + ·) (digits n d e) cs)) =
        digit n d k e + cs.getD k 0 := by
      have h4 := digit_eq_getElem (n + 1) d k (ravel (n + 1) (List.zipWith (· + ·) (digits n d e) cs)) hk
      have h5 := digits_ravel hz
      rw [hzl] at h5
      rw [h5, List.getElem?_zipWith, digit_eq_getElem n d k e hk, List.getElem?_eq_getElem (by omega)] at h4
      rw [List.getD_eq_getElem _ _ (by omega)]
      simpa using h4.symm
    rw [hdig]
    push_cast
    ring
  rw [hcong, ml_affine _ hw _ _ _ _ (by omega)]
  have hIk : (digits (p + 1) d i).getD k 0 = digit (p + 1) d k i := digits_getD hk
  rw [hIk]
  have : lin (at0 nodes (digit (p + 1) d k i)) 1 = (1 + at0 nodes (digit (p + 1) d k i)) / 2 := by
    unfold lin; simp
  rw [this]
  ring

/-- Node `i` of element `e` of the refined unit cube is at distance `gridOffset nodes (e_k p + i_k)` cells from `a` along
axis `k`. -/
theorem cube_geometry {n d p : ℕ} (hn : 1 ≤ n) (hd : 1 ≤ d) {nodes : Fin (p + 1) → K} (h : ElementNodes nodes) (a b : K)
    (per : List ℕ) {r : Refined (Fin d → K)} (hr : refinePremesh (cubePremesh n d a b per) nodes = .ok r)
    {e i : ℕ} (he : e < n ^ d) (hi : i < (p + 1) ^ d) : ∃ v, NodeAt r e i v ∧
      r.nodeCoords[v]? = some (fun k : Fin d => a + (b - a) / n *
        gridOffset nodes (digit n d k e * p + digit (p + 1) d k i)) := by
  obtain ⟨ref, v, h1, h2, h3⟩ := C27_geometry_partial (cube_firstOrder hd a b per) h.pos nodes ⟨h.first, h.last⟩
    h.symmetric (cube_ownInverse n d a b per _) hr e _ (cube_element_get a b per he) i hi
  refine ⟨v, ⟨ref, h1, h2⟩, ?_⟩
  rw [h3]
  congr 1
  refine (cube_interpolated (d := d) hn nodes a b per hi).trans ?_
  funext k
  rw [gridOffset_cell h (digit_lt _ _ _ _ (by omega))]

/-- Points of elements with the same position on the refined grid are the same node. -/
theorem cube_conforming {n d p : ℕ} (hn : 1 ≤ n) (hd : 1 ≤ d) {nodes : Fin (p + 1) → K} (h : ElementNodes nodes) (a b : K)
    (per : List ℕ) {r : Refined (Fin d → K)} (hr : refinePremesh (cubePremesh n d a b per) nodes = .ok r)
    {e i e' i' v v' : ℕ} (he : e < n ^ d) (hi : i < (p + 1) ^ d) (he' : e' < n ^ d) (hi' : i' < (p + 1) ^ d)
    (hv : NodeAt r e i v) (hv' : NodeAt r e' i' v')
    (hg : ∀ k < d, digit n d k e * p + digit (p + 1) d k i = digit n d k e' * p + digit (p + 1) d k i') : v = v' := by
  have hp := h.pos
  have hIlt : ∀ x ∈ digits (p + 1) d i, x < p + 1 := fun x hx => mem_digits_lt (by omega) hx
  have hIlt' : ∀ x ∈ digits (p + 1) d i', x < p + 1 := fun x hx => mem_digits_lt (by omega) hx
  have hgl : gidx p (digits n d e) (digits (p + 1) d i) = gidx p (digits n d e') (digits (p + 1) d i') := by
    unfold gidx digits
    rw [List.zipWith_map, List.zipWith_map, List.zipWith_self, List.zipWith_self]
    apply List.map_congr_left
    intro k hk
    exact hg k (List.mem_range.mp hk)
  obtain ⟨s1, s2, s3⟩ := same_facet hp (by simp [digits_length]) (by simp [digits_length]) (by simp [digits_length])
    hIlt hIlt' hgl
  obtain ⟨ref, hr1, hr2⟩ := hv
  obtain ⟨ref', hr1', hr2'⟩ := hv'
  rcases s3 with ⟨hE, hI⟩ | hlt
  · have e1 : e = e' := by rw [← ravel_digits he, ← ravel_digits he', hE]
    have e2 : i = i' := by rw [← ravel_digits hi, ← ravel_digits hi', hI]
    subst e1 e2
    rw [hr1] at hr1'; cases hr1'
    rw [hr2] at hr2'
    exact_mod_cast Option.some.inj hr2'
  · rw [digits_length] at hlt
    have hc : (fty p (digits (p + 1) d i')).count .inner = (fty p (digits (p + 1) d i)).count .inner := by
      rw [← inn_length, ← inn_length, s1]
    obtain ⟨q1, q2⟩ := slice_fty hp hIlt
    obtain ⟨_, q4⟩ := slice_fty hp hIlt'
    rw [← s1] at q4
    have hM : Matching ((fty p (digits (p + 1) d i)).count .inner)
        (facetCorners (fty p (digits (p + 1) d i)) (cubeElement n (digits n d e)))
        (facetCorners (fty p (digits (p + 1) d i')) (cubeElement n (digits n d e'))) id (fun _ => False) := by
      have c1 : facetCorners (fty p (digits (p + 1) d i)) (cubeElement n (digits n d e)) =
          facetCorners (fty p (digits (p + 1) d i')) (cubeElement n (digits n d e')) := by
        unfold cubeElement
        rw [facetCorners_box (isBox_cells _) _ (by rw [freeAxes_cells, fty_length, digits_length, digits_length]),
          facetCorners_box (isBox_cells _) _ (by rw [freeAxes_cells, fty_length, digits_length, digits_length]), s2]
      rw [c1]
      exact matching_refl _
    obtain ⟨f1, f2, w, g1, g2, g3, g4⟩ := C27_conforming_partial (cube_firstOrder hd a b per) hp nodes ⟨h.first, h.last⟩
      (cube_ownInverse n d a b per _) hr (cube_element_get a b per he) (cube_element_get a b per he')
      (ft := fty p (digits (p + 1) d i)) (ft' := fty p (digits (p + 1) d i'))
      (by rw [fty_length, digits_length]; rfl) (by rw [fty_length, digits_length]; rfl) rfl hc hlt (axisPerm_id _) hM
      q1 (cubeImage_self q1) q2 q4
    rw [ravel_digits hi] at g3
    rw [ravel_digits hi'] at g4
    rw [hr1] at g1; cases g1
    rw [hr1'] at g2; cases g2
    rw [hr2] at g3
    rw [hr2'] at g4
    have e1 : (v : ℤ) = w := Option.some.inj g3
    have e2 : (v' : ℤ) = w := Option.some.inj g4
    omega

theorem cube_refines {n d p : ℕ} (hn : 1 ≤ n) (hd : 1 ≤ d) {nodes : Fin (p + 1) → K} (h : ElementNodes nodes) (a b : K)
    (per : List ℕ) : ∃ r, refinePremesh (cubePremesh n d a b per) nodes = .ok r := by
  obtain ⟨r, hr, _⟩ := C59_succeeds (cube_firstOrder hd a b per) (cube_boundary hn a b per) h.pos nodes ⟨h.first, h.last⟩
  exact ⟨r, hr⟩

/-- Every node of the refined mesh is a point of an element. -/
theorem cube_used {n d p : ℕ} (hn : 1 ≤ n) (hd : 1 ≤ d) {nodes : Fin (p + 1) → K} (h : ElementNodes nodes) (a b : K)
    (per : List ℕ) {r : Refined (Fin d → K)} (hr : refinePremesh (cubePremesh n d a b per) nodes = .ok r) {v : ℕ}
    (hv : v < r.nodeCoords.length) : ∃ e < n ^ d, ∃ i < (p + 1) ^ d, NodeAt r e i v := by
  have hF := cube_firstOrder (n := n) hd a b per
  have hp := h.pos
  obtain ⟨k1, k2, k3⟩ := C28_old_nodes_kept hF hp nodes ⟨h.first, h.last⟩ hr
  obtain ⟨a1, a2⟩ := C28_allocated_once hF hp nodes ⟨h.first, h.last⟩ hr
  have key : ∀ ref ∈ r.elements, (v : ℤ) ∈ ref → ∃ e < n ^ d, ∃ i < (p + 1) ^ d, NodeAt r e i v := by
    intro ref href hmem
    obtain ⟨e, he, rfl⟩ := List.mem_iff_getElem.mp href
    obtain ⟨i, hi, hie⟩ := List.mem_iff_getElem.mp hmem
    have hl := (a1 _ href).1
    refine ⟨e, ?_, i, ?_, _, List.getElem?_eq_getElem he, ?_⟩
    · rw [← cube_elements_length (K := K) n d a b per, ← k2]; exact he
    · rw [hl] at hi; exact hi
    · rw [List.getElem?_eq_getElem hi, hie]
  rcases Nat.lt_or_ge v (cubePremesh n d a b per).nodeCoords.length with hlt | hge
  · -- an old node
    rw [cube_nodes_length] at hlt
    obtain ⟨el, hel, hvel⟩ := C22_every_node_used n d hn a b per v hlt
    obtain ⟨e, he, hee⟩ := List.mem_iff_getElem.mp (show el ∈ (cubePremesh n d a b per).elements from hel)
    obtain ⟨c, hc, hce⟩ := List.mem_iff_getElem.mp hvel
    have hel' : (cubePremesh n d a b per).elements[e]? = some el := by rw [List.getElem?_eq_getElem he, hee]
    obtain ⟨ref, h1, h2, h3⟩ := k3 e el hel'
    have hcl : c < 2 ^ d := by
      have := hF.width el hel
      rw [this] at hc; exact hc
    have hlt2 : ∀ x ∈ (digits 2 d c).map (· * p), x < p + 1 := by
      intro x hx
      obtain ⟨y, hy, rfl⟩ := List.mem_map.mp hx
      have := mem_digits_lt (by norm_num) hy
      interval_cases y <;> omega
    have hlen : ((digits 2 d c).map (· * p)).length = d := by simp [digits_length]
    have hi := ravel_lt hlt2
    rw [hlen] at hi
    have hdig := digits_ravel hlt2
    rw [hlen] at hdig
    have := h3 c hcl (ravel (p + 1) ((digits 2 d c).map (· * p))) hi (fun k hk => by
      change digit (p + 1) d k _ = digit 2 d k c * p
      have h4 := digit_eq_getElem (p + 1) d k (ravel (p + 1) ((digits 2 d c).map (· * p))) hk
      rw [hdig, List.getElem?_map, digit_eq_getElem 2 d k c hk] at h4
      simpa using h4.symm)
    refine ⟨e, ?_, _, hi, ref, h1, ?_⟩
    · rw [← cube_elements_length (K := K) n d a b per]; exact he
    · rw [this, List.getElem?_eq_getElem hc, hce]; rfl
  · obtain ⟨ref, href, hmem⟩ := a2 v hge hv
    exact key ref href hmem

theorem axis_split {n p g : ℕ} (hn : 1 ≤ n) (hp : 1 ≤ p) (hg : g < n * p + 1) :
    min (g / p) (n - 1) < n ∧ g - min (g / p) (n - 1) * p < p + 1 ∧
      min (g / p) (n - 1) * p + (g - min (g / p) (n - 1) * p) = g := by
  have hle : min (g / p) (n - 1) * p ≤ g := by
    calc min (g / p) (n - 1) * p ≤ g / p * p := Nat.mul_le_mul_right _ (min_le_left _ _)
      _ ≤ g := Nat.div_mul_le_self g p
  refine ⟨lt_of_le_of_lt (min_le_right _ _) (by omega), ?_, by omega⟩
  rcases le_total (g / p) (n - 1) with h | h
  · rw [min_eq_left h]
    have h3 := Nat.div_add_mod g p
    rw [mul_comm] at h3
    have := Nat.mod_lt g hp
    omega
  · rw [min_eq_right h]
    have : (n - 1) * p + p = n * p := by
      obtain ⟨t, rfl⟩ := Nat.exists_eq_add_of_le' hn
      simp; ring
    omega

/-- Refining the unit cube succeeds; its nodes correspond one to one to the points of the grid with `n p + 1` points per
axis (`pos`), point `i` of element `e` being grid point `e_k p + i_k` along axis `k`, and every node sits at its place of
the grid. In particular there are `(n p + 1) ^ d` nodes and no two have the same coordinates. -/
theorem C76_refined_grid {n d p : ℕ} (hn : 1 ≤ n) (hd : 1 ≤ d) {nodes : Fin (p + 1) → K} (h : ElementNodes nodes)
    {a b : K} (hab : a ≠ b) (per : List ℕ) :
    ∃ r, refinePremesh (cubePremesh n d a b per) nodes = .ok r ∧ r.elements.length = n ^ d ∧
      r.nodeCoords.length = (n * p + 1) ^ d ∧ r.nodeCoords.Nodup ∧
      ∃ pos : ℕ → ℕ, OnGrid nodes n d a b r pos ∧
        ∀ e < n ^ d, ∀ i < (p + 1) ^ d, ∃ v < r.nodeCoords.length, NodeAt r e i v ∧
          ∀ k < d, digit (n * p + 1) d k (pos v) = digit n d k e * p + digit (p + 1) d k i := by
  have hp := h.pos
  have hF := cube_firstOrder (n := n) hd a b per
  obtain ⟨r, hr⟩ := cube_refines hn hd h a b per
  have hlen : r.elements.length = n ^ d := by
    rw [(C28_old_nodes_kept hF hp nodes ⟨h.first, h.last⟩ hr).2.1, cube_elements_length]
  have hscale : (b - a) / (n : K) ≠ 0 :=
    div_ne_zero (sub_ne_zero.mpr hab.symm) (by exact_mod_cast (show n ≠ 0 by omega))
  -- the grid index of an element point
  have hgval : ∀ {e i : ℕ}, e < n ^ d → ∀ k < d, digit n d k e * p + digit (p + 1) d k i < n * p + 1 := by
    intro e i he k hk
    have h1 : digit n d k e < n := digit_lt _ _ _ _ (by omega)
    have h2 : digit (p + 1) d k i < p + 1 := digit_lt _ _ _ _ (by omega)
    have : digit n d k e * p + p ≤ n * p := by
      rw [← Nat.succ_mul]; exact Nat.mul_le_mul_right _ h1
    omega
  set G : ℕ → ℕ → ℕ := fun e i => ravel (n * p + 1) ((List.range d).map (fun k => digit n d k e * p + digit (p + 1) d k i))
    with hG
  have hGlt : ∀ {e i : ℕ}, e < n ^ d → G e i < (n * p + 1) ^ d := by
    intro e i he
    have := ravel_lt (b := n * p + 1) (I := (List.range d).map (fun k => digit n d k e * p + digit (p + 1) d k i)) (by
      intro x hx
      obtain ⟨k, hk, rfl⟩ := List.mem_map.mp hx
      exact hgval he k (List.mem_range.mp hk))
    simpa [hG] using this
  have hGdig : ∀ {e i : ℕ}, e < n ^ d → ∀ k < d, digit (n * p + 1) d k (G e i) = digit n d k e * p + digit (p + 1) d k i := by
    intro e i he k hk
    have := digits_ravel (b := n * p + 1) (I := (List.range d).map (fun k => digit n d k e * p + digit (p + 1) d k i)) (by
      intro x hx
      obtain ⟨k, hk, rfl⟩ := List.mem_map.mp hx
      exact hgval he k (List.mem_range.mp hk))
    rw [List.length_map, List.length_range] at this
    have h4 := digit_eq_getElem (n * p + 1) d k (G e i) hk
    rw [show G e i = ravel (n * p + 1) ((List.range d).map (fun k => digit n d k e * p + digit (p + 1) d k i)) from rfl,
      this] at h4
    rw [List.getElem?_map, List.getElem?_range hk] at h4
    simpa using h4.symm
  have hused := @cube_used K _ _ _ n d p hn hd nodes h a b per r hr
  have hex : ∀ v, ∃ e i, v < r.nodeCoords.length → e < n ^ d ∧ i < (p + 1) ^ d ∧ NodeAt r e i v := by
    intro v
    by_cases hv : v < r.nodeCoords.length
    · obtain ⟨e, he, i, hi, hN⟩ := hused hv
      exact ⟨e, i, fun _ => ⟨he, hi, hN⟩⟩
    · exact ⟨0, 0, fun hc => absurd hc hv⟩
  choose ev iv hEI using hex
  have hgeo : ∀ {e i v}, e < n ^ d → i < (p + 1) ^ d → NodeAt r e i v → r.nodeCoords[v]? = some (fun k : Fin d =>
      a + (b - a) / n * gridOffset nodes (digit n d k e * p + digit (p + 1) d k i)) := by
    intro e i v he hi hN
    obtain ⟨w, ⟨ref, hw1, hw2⟩, hw3⟩ := cube_geometry hn hd h a b per hr he hi
    obtain ⟨ref', hN1, hN2⟩ := hN
    rw [hw1] at hN1; cases hN1
    rw [hw2] at hN2
    have : w = v := by exact_mod_cast Option.some.inj hN2
    rw [← this]; exact hw3
  -- the grid position does not depend on the element chosen
  have hsame : ∀ {e i e' i' v}, e < n ^ d → i < (p + 1) ^ d → e' < n ^ d → i' < (p + 1) ^ d → NodeAt r e i v → NodeAt r e' i' v →
      ∀ k < d, digit n d k e * p + digit (p + 1) d k i = digit n d k e' * p + digit (p + 1) d k i' := by
    intro e i e' i' v he hi he' hi' hN hN' k hk
    have h1 := hgeo he hi hN
    rw [hgeo he' hi' hN'] at h1
    have h2 := congrFun (Option.some.inj h1) ⟨k, hk⟩
    simp only [add_right_inj] at h2
    exact (gridOffset_strictMono h).injective (mul_left_cancel₀ hscale h2).symm
  set pos : ℕ → ℕ := fun v => G (ev v) (iv v) with hpos
  have hposdig : ∀ {e i v}, e < n ^ d → i < (p + 1) ^ d → v < r.nodeCoords.length → NodeAt r e i v →
      ∀ k < d, digit (n * p + 1) d k (pos v) = digit n d k e * p + digit (p + 1) d k i := by
    intro e i v he hi hv hN k hk
    obtain ⟨e1, e2, e3⟩ := hEI v hv
    rw [hpos]
    simp only
    rw [hGdig e1 k hk]
    exact hsame e1 e2 he hi e3 hN k hk
  have hdigext : ∀ {g g'}, g < (n * p + 1) ^ d → g' < (n * p + 1) ^ d →
      (∀ k < d, digit (n * p + 1) d k g = digit (n * p + 1) d k g') → g = g' := by
    intro g g' hg hg' hk
    have : digits (n * p + 1) d g = digits (n * p + 1) d g' := by
      unfold digits
      apply List.map_congr_left
      intro k hkr
      exact hk k (List.mem_range.mp hkr)
    rw [← ravel_digits hg, ← ravel_digits hg', this]
  have hbij : Set.BijOn pos (Set.Iio (r.nodeCoords.length)) (Set.Iio ((n * p + 1) ^ d)) := by
    refine ⟨fun v hv => hGlt (hEI v hv).1, ?_, ?_⟩
    · intro v hv v' hv' hvv
      obtain ⟨e1, e2, e3⟩ := hEI v hv
      obtain ⟨f1, f2, f3⟩ := hEI v' hv'
      refine cube_conforming hn hd h a b per hr e1 e2 f1 f2 e3 f3 (fun k hk => ?_)
      rw [← hGdig e1 k hk, ← hGdig f1 k hk]
      exact congrArg _ hvv
    · intro g hg
      have hg : g < (n * p + 1) ^ d := hg
      have hdl : ∀ k, digit (n * p + 1) d k g < n * p + 1 := fun k => digit_lt _ _ _ _ (by omega)
      have hE := ravel_lt (b := n) (I := (List.range d).map (fun k => min (digit (n * p + 1) d k g / p) (n - 1))) (by
        intro x hx
        obtain ⟨k, _, rfl⟩ := List.mem_map.mp hx
        exact (axis_split hn hp (hdl k)).1)
      have hEd := digits_ravel (b := n) (I := (List.range d).map (fun k => min (digit (n * p + 1) d k g / p) (n - 1))) (by
        intro x hx
        obtain ⟨k, _, rfl⟩ := List.mem_map.mp hx
        exact (axis_split hn hp (hdl k)).1)
      have hI := ravel_lt (b := p + 1) (I := (List.range d).map (fun k => digit (n * p + 1) d k g -
          min (digit (n * p + 1) d k g / p) (n - 1) * p)) (by
        intro x hx
        obtain ⟨k, _, rfl⟩ := List.mem_map.mp hx
        exact (axis_split hn hp (hdl k)).2.1)
      have hId := digits_ravel (b := p + 1) (I := (List.range d).map (fun k => digit (n * p + 1) d k g -
          min (digit (n * p + 1) d k g / p) (n - 1) * p)) (by
        intro x hx
        obtain ⟨k, _, rfl⟩ := List.mem_map.mp hx
        exact (axis_split hn hp (hdl k)).2.1)
      set e := ravel n ((List.range d).map (fun k => min (digit (n * p + 1) d k g / p) (n - 1)))
      set i := ravel (p + 1) ((List.range d).map (fun k => digit (n * p + 1) d k g -
          min (digit (n * p + 1) d k g / p) (n - 1) * p))
      rw [List.length_map, List.length_range] at hE hEd hI hId
      obtain ⟨v, hN, hco⟩ := cube_geometry hn hd h a b per hr hE hI
      have hv : v < r.nodeCoords.length := (List.getElem?_eq_some_iff.mp hco).1
      refine ⟨v, hv, hdigext (hGlt (hEI v hv).1) hg (fun k hk => ?_)⟩
      rw [hposdig hE hI hv hN k hk]
      have e1 := digit_eq_getElem n d k e hk
      have e2 := digit_eq_getElem (p + 1) d k i hk
      rw [hEd, List.getElem?_map, List.getElem?_range hk] at e1
      rw [hId, List.getElem?_map, List.getElem?_range hk] at e2
      simp only [Option.map_some, Option.some.injEq] at e1 e2
      rw [← e1, ← e2]
      exact (axis_split hn hp (hdl k)).2.2
  have hcoord : ∀ v < r.nodeCoords.length, r.nodeCoords[v]? = some (fun k : Fin d =>
          a + (b - a) / n * gridOffset nodes (digit (n * p + 1) d k (pos v))) := by
    intro v hv
    obtain ⟨e1, e2, e3⟩ := hEI v hv
    rw [hgeo e1 e2 e3]
    congr 1
    funext k
    rw [hposdig e1 e2 hv e3 k k.2]
  refine ⟨r, hr, hlen, ?_, ?_, pos, ⟨hbij, hcoord⟩, ?_⟩
  · have := Set.ncard_congr (fun v _ => pos v) (fun v hv => hbij.mapsTo hv) (fun v w hv hw hvw => hbij.injOn hv hw hvw)
      (fun g hg => by obtain ⟨v, hv, hvg⟩ := hbij.surjOn hg; exact ⟨v, hv, hvg⟩)
    rw [← Finset.coe_range, ← Finset.coe_range, Set.ncard_coe_finset, Set.ncard_coe_finset] at this
    simpa using this
  · rw [List.nodup_iff_injective_get]
    intro v w hvw
    have h1 := hcoord v.1 v.2
    have h2 := hcoord w.1 w.2
    rw [List.getElem?_eq_getElem v.2] at h1
    rw [List.getElem?_eq_getElem w.2] at h2
    have h3 : r.nodeCoords[v.1] = r.nodeCoords[w.1] := hvw
    rw [h3] at h1
    rw [h1] at h2
    have h4 := Option.some.inj h2
    refine Fin.ext (hbij.injOn v.2 w.2 (hdigext (hbij.mapsTo v.2) (hbij.mapsTo w.2) (fun k hk => ?_)))
    have h5 := congrFun h4 ⟨k, hk⟩
    simp only [add_right_inj] at h5
    exact (gridOffset_strictMono h).injective (mul_left_cancel₀ hscale h5)
  · intro e he i hi
    obtain ⟨v, hN, hco⟩ := cube_geometry hn hd h a b per hr he hi
    have hv : v < r.nodeCoords.length := (List.getElem?_eq_some_iff.mp hco).1
    exact ⟨v, hv, hN, hposdig he hi hv hN⟩

/-! ### Facets -/

/-- Grid indices of point `J` of the facet whose axes are `et`. -/
def gpt (p : ℕ) : List (List ℕ) → List ℕ → List ℕ
  | [], _ => []
  | l :: et, J => if l.length = 2 then (l.getD 0 0 * p + J.headD 0) :: gpt p et J.tail else l.getD 0 0 * p :: gpt p et J

theorem gpt_spec {n p : ℕ} (hp : 1 ≤ p) : ∀ {et : List (List ℕ)} {ft : List FacetDim},
    List.Forall₂ (fun l f => l ∈ dimToElem n f) et ft → ∀ {J : List ℕ}, J.length = freeAxes et → (∀ x ∈ J, x < p + 1) →
      (gpt p et J).length = ft.length ∧ (∀ x ∈ gpt p et J, x < n * p + 1) ∧
      ∀ k < ft.length, (ft[k]? = some .first → (gpt p et J)[k]? = some 0) ∧
        (ft[k]? = some .last → (gpt p et J)[k]? = some (n * p))
  | [], [], _, _, _, _ => ⟨rfl, by simp [gpt], by simp⟩
  | l :: et, f :: ft, h, J, hJ, hlt => by
    obtain ⟨h1, h2⟩ := List.forall₂_cons.mp h
    rcases dimToElem_cases h1 with ⟨rfl, rfl⟩ | ⟨rfl, rfl⟩ | ⟨rfl, i, hi, rfl⟩
    · have hf : freeAxes ([0] :: et) = freeAxes et := List.countP_cons_of_neg (by simp)
      obtain ⟨i1, i2, i3⟩ := gpt_spec hp h2 (J := J) (by omega) hlt
      have e : gpt p ([0] :: et) J = 0 :: gpt p et J := by simp [gpt]
      rw [e]
      refine ⟨by simp [i1], ?_, ?_⟩
      · intro x hx
        rcases List.mem_cons.mp hx with rfl | hx
        · omega
        · exact i2 x hx
      · intro k hk
        cases k with
        | zero => simp
        | succ k => simpa using i3 k (by simpa using hk)
    · have hf : freeAxes ([n] :: et) = freeAxes et := List.countP_cons_of_neg (by simp)
      obtain ⟨i1, i2, i3⟩ := gpt_spec hp h2 (J := J) (by omega) hlt
      have e : gpt p ([n] :: et) J = n * p :: gpt p et J := by simp [gpt]
      rw [e]
      refine ⟨by simp [i1], ?_, ?_⟩
      · intro x hx
        rcases List.mem_cons.mp hx with rfl | hx
        · omega
        · exact i2 x hx
      · intro k hk
        cases k with
        | zero => simp
        | succ k => simpa using i3 k (by simpa using hk)
    · have hf : freeAxes (cellPair i :: et) = freeAxes et + 1 := List.countP_cons_of_pos (by simp [cellPair])
      cases J with
      | nil => simp [hf] at hJ
      | cons j J =>
        obtain ⟨i1, i2, i3⟩ := gpt_spec hp h2 (J := J) (by simpa [hf] using hJ)
          (fun x hx => hlt x (List.mem_cons_of_mem _ hx))
        have e : gpt p (cellPair i :: et) (j :: J) = (i * p + j) :: gpt p et J := by simp [gpt, cellPair]
        rw [e]
        refine ⟨by simp [i1], ?_, ?_⟩
        · intro x hx
          rcases List.mem_cons.mp hx with rfl | hx
          · have := hlt j List.mem_cons_self
            have : i * p + p ≤ n * p := by rw [← Nat.succ_mul]; exact Nat.mul_le_mul_right _ hi
            omega
          · exact i2 x hx
        · intro k hk
          cases k with
          | zero => simp
          | succ k => simpa using i3 k (by simpa using hk)

/-- Every grid point on the facet type is a point of one of its facets. -/
theorem gpt_surj {n p : ℕ} (hn : 1 ≤ n) (hp : 1 ≤ p) : ∀ {ft : List FacetDim} {I : List ℕ}, I.length = ft.length →
    (∀ x ∈ I, x < n * p + 1) → (∀ k < ft.length, (ft[k]? = some .first → I[k]? = some 0) ∧
        (ft[k]? = some .last → I[k]? = some (n * p))) →
    ∃ et J, List.Forall₂ (fun l f => l ∈ dimToElem n f) et ft ∧ J.length = freeAxes et ∧ (∀ x ∈ J, x < p + 1) ∧
      gpt p et J = I
  | [], [], _, _, _ => ⟨[], [], List.Forall₂.nil, rfl, by simp, rfl⟩
  | f :: ft, x :: I, hl, hlt, h => by
    obtain ⟨et, J, i1, i2, i3, i4⟩ := gpt_surj hn hp (ft := ft) (I := I) (by simpa using hl)
      (fun y hy => hlt y (List.mem_cons_of_mem _ hy)) (fun k hk => by simpa using h (k + 1) (by simpa using hk))
    have h0 := h 0 (by simp)
    cases f with
    | first =>
      have hx : x = 0 := by simpa using h0.1 rfl
      subst hx
      refine ⟨[0] :: et, J, List.Forall₂.cons (by simp [dimToElem]) i1, ?_, i3, by simp [gpt, i4]⟩
      rw [i2]; exact (List.countP_cons_of_neg (by simp)).symm
    | last =>
      have hx : x = n * p := by simpa using h0.2 rfl
      subst hx
      refine ⟨[n] :: et, J, List.Forall₂.cons (by simp [dimToElem]) i1, ?_, i3, by simp [gpt, i4]⟩
      rw [i2]; exact (List.countP_cons_of_neg (by simp)).symm
    | inner =>
      obtain ⟨s1, s2, s3⟩ := axis_split hn hp (hlt x List.mem_cons_self)
      refine ⟨cellPair (min (x / p) (n - 1)) :: et, (x - min (x / p) (n - 1) * p) :: J, List.Forall₂.cons ?_ i1, ?_, ?_, ?_⟩
      · simp only [dimToElem, elements1d_eq, List.mem_map, List.mem_range]
        exact ⟨_, s1, rfl⟩
      · rw [List.length_cons, i2]; exact (List.countP_cons_of_pos (by simp [cellPair])).symm
      · intro y hy
        rcases List.mem_cons.mp hy with rfl | hy
        · exact s2
        · exact i3 y hy
      · simp only [gpt, cellPair, List.length_cons, List.length_nil]
        simp only [List.getD_cons_zero, List.headD_cons, List.tail_cons, i4]
        rw [if_pos trivial, s3]

theorem pick_valid {n : ℕ} : ∀ {et : List (List ℕ)} {ft : List FacetDim},
    List.Forall₂ (fun l f => l ∈ dimToElem n f) et ft → ∀ {cs : List ℕ}, cs.length = freeAxes et → (∀ x ∈ cs, x < 2) →
      (pick et cs).length = ft.length ∧ ∀ x ∈ pick et cs, x < n + 1
  | [], [], _, _, _, _ => ⟨rfl, by simp [pick]⟩
  | l :: et, f :: ft, h, cs, hJ, hlt => by
    obtain ⟨h1, h2⟩ := List.forall₂_cons.mp h
    rcases dimToElem_cases h1 with ⟨rfl, rfl⟩ | ⟨rfl, rfl⟩ | ⟨rfl, i, hi, rfl⟩
    · have hf : freeAxes ([0] :: et) = freeAxes et := List.countP_cons_of_neg (by simp)
      obtain ⟨i1, i2⟩ := pick_valid h2 (cs := cs) (by omega) hlt
      refine ⟨by simp [pick, i1], ?_⟩
      simpa [pick] using i2
    · have hf : freeAxes ([n] :: et) = freeAxes et := List.countP_cons_of_neg (by simp)
      obtain ⟨i1, i2⟩ := pick_valid h2 (cs := cs) (by omega) hlt
      refine ⟨by simp [pick, i1], ?_⟩
      simpa [pick] using i2
    · have hf : freeAxes (cellPair i :: et) = freeAxes et + 1 := List.countP_cons_of_pos (by simp [cellPair])
      cases cs with
      | nil => simp [hf] at hJ
      | cons j cs =>
        obtain ⟨i1, i2⟩ := pick_valid h2 (cs := cs) (by simpa [hf] using hJ)
          (fun x hx => hlt x (List.mem_cons_of_mem _ hx))
        have hj := hlt j List.mem_cons_self
        refine ⟨by simp [pick, cellPair, i1], ?_⟩
        simp only [pick, cellPair, List.length_cons, List.length_nil, List.headD_cons, List.tail_cons]
        rw [if_pos trivial]
        intro x hx
        rcases List.mem_cons.mp hx with rfl | hx
        · interval_cases j <;> simp <;> omega
        · exact i2 x hx

/-- Interpolation of the grid indices of the corners of a facet. -/
theorem ml_pick {n p : ℕ} {nodes : Fin (p + 1) → K} (h : ElementNodes nodes) (A s : K) :
    ∀ {et : List (List ℕ)} {ft : List FacetDim}, List.Forall₂ (fun l f => l ∈ dimToElem n f) et ft → ∀ {J : List ℕ},
      J.length = freeAxes et → (∀ x ∈ J, x < p + 1) → ∀ k < et.length,
      ml (V := K) (fun a b => lin (at0 nodes a) b) J (fun cs => A + s * ((pick et cs).getD k 0 : K)) =
        A + s * gridOffset nodes ((gpt p et J).getD k 0)
  | [], _, _, _, _, _, k, hk => by simp at hk
  | l :: et, f :: ft, hF, J, hJ, hlt, k, hk => by
    have hw : ∀ j, lin (at0 nodes j) 0 + lin (at0 nodes j) 1 = 1 := fun j => lin_sum _ two_ne_zero
    have hp := h.pos
    have hoff : ∀ x : ℕ, gridOffset nodes (x * p) = x := fun x => by
      have := gridOffset_cell h (e := x) (i := 0) (by omega)
      rw [add_zero] at this
      rw [this, at0, dif_pos (by omega)]
      have hf := h.first
      rw [show (⟨0, by omega⟩ : Fin (p + 1)) = 0 from rfl, hf]
      ring
    obtain ⟨h1, h2⟩ := List.forall₂_cons.mp hF
    rcases dimToElem_cases h1 with ⟨rfl, rfl⟩ | ⟨rfl, rfl⟩ | ⟨rfl, i, hi, rfl⟩
    · have hf : freeAxes ([0] :: et) = freeAxes et := List.countP_cons_of_neg (by simp)
      have ih := ml_pick h A s h2 (J := J) (by omega) hlt
      have e1 : gpt p ([0] :: et) J = 0 * p :: gpt p et J := by simp [gpt]
      have e2 : ∀ cs, pick ([0] :: et) cs = 0 :: pick et cs := fun cs => by simp [pick]
      simp only [e1, e2]
      cases k with
      | zero =>
        simp only [List.getD_cons_zero]
        rw [ml_const _ hw, hoff]
      | succ k =>
        simp only [List.getD_cons_succ]
        exact ih k (by simpa using hk)
    · have hf : freeAxes ([n] :: et) = freeAxes et := List.countP_cons_of_neg (by simp)
      have ih := ml_pick h A s h2 (J := J) (by omega) hlt
      have e1 : gpt p ([n] :: et) J = n * p :: gpt p et J := by simp [gpt]
      have e2 : ∀ cs, pick ([n] :: et) cs = n :: pick et cs := fun cs => by simp [pick]
      simp only [e1, e2]
      cases k with
      | zero =>
        simp only [List.getD_cons_zero]
        rw [ml_const _ hw, hoff]
      | succ k =>
        simp only [List.getD_cons_succ]
        exact ih k (by simpa using hk)
    · have hf : freeAxes (cellPair i :: et) = freeAxes et + 1 := List.countP_cons_of_pos (by simp [cellPair])
      cases J with
      | nil => simp [hf] at hJ
      | cons j J =>
        have ih := ml_pick h A s h2 (J := J) (by simpa [hf] using hJ) (fun x hx => hlt x (List.mem_cons_of_mem _ hx))
        have e1 : gpt p (cellPair i :: et) (j :: J) = (i * p + j) :: gpt p et J := by simp [gpt, cellPair]
        have e2 : ∀ x cs, pick (cellPair i :: et) (x :: cs) = (cellPair i).getD x 0 :: pick et cs := fun x cs => by
          simp [pick, cellPair]
        simp only [ml, e1, e2]
        cases k with
        | zero =>
          simp only [List.getD_cons_zero]
          rw [ml_const _ hw, ml_const _ hw, gridOffset_cell h (hlt j List.mem_cons_self)]
          simp only [cellPair, List.getD_cons_zero, List.getD_cons_succ, smul_eq_mul]
          unfold lin
          simp only [if_true, one_ne_zero, if_false]
          push_cast
          field_simp
          ring
        | succ k =>
          simp only [List.getD_cons_succ]
          rw [ih k (by simpa using hk), smul_eq_mul, smul_eq_mul, ← add_mul, hw, one_mul]

/-- The position interpolated from the corners of a boundary facet. -/
theorem facet_position {n d p : ℕ} {nodes : Fin (p + 1) → K} (h : ElementNodes nodes) (a b : K)
    (per : List ℕ) {et : List (List ℕ)} {ft : List FacetDim} (hF : List.Forall₂ (fun l f => l ∈ dimToElem n f) et ft)
    (hft : ft.length = d) (hc : ft.count .inner = d - 1) {i : ℕ} (hi : i < (p + 1) ^ (d - 1)) :
    interpolated (d - 1) nodes (cubePremesh n d a b per).nodeCoords ((cartesian et).map (ravel (n + 1))) i =
      fun k : Fin d => a + (b - a) / n * gridOffset nodes ((gpt p et (digits (p + 1) (d - 1) i)).getD k 0) := by
  obtain ⟨i1, i2, i3, i4, i5⟩ := facet_box hF
  have hJl : (digits (p + 1) (d - 1) i).length = d - 1 := digits_length _ _ _
  have hJlt : ∀ x ∈ digits (p + 1) (d - 1) i, x < p + 1 := fun x hx => mem_digits_lt (by omega) hx
  have hml := interpolated_ml (V := Fin d → K) nodes (cubePremesh n d a b per).nodeCoords
    ((cartesian et).map (ravel (n + 1))) hJl hJlt
  rw [ravel_digits hi] at hml
  rw [hml]
  funext k
  rw [ml_apply]
  have hk : (k : ℕ) < d := k.2
  rw [← ml_pick h a ((b - a) / n) hF (by omega) hJlt k (by omega)]
  apply ml_congr
  intro cs hcl hc2
  rw [hJl] at hcl
  obtain ⟨v1, v2⟩ := pick_valid hF (cs := cs) (by omega) hc2
  have hzr := ravel_lt v2
  rw [v1, hft] at hzr
  have e1 : ((cartesian et).map (ravel (n + 1))).getD (ravel 2 cs) 0 = ravel (n + 1) (pick et cs) := by
    rw [List.getD_eq_getElem?_getD, List.getElem?_map, cartesian_pick i1 (by omega) hc2]
    rfl
  rw [e1, List.getD_eq_getElem?_getD, cube_node a b per hzr, Option.getD_some]
  have hdig : digit (n + 1) d k (ravel (n + 1) (pick et cs)) = (pick et cs).getD k 0 := by
    have h4 := digit_eq_getElem (n + 1) d k (ravel (n + 1) (pick et cs)) hk
    have h5 := digits_ravel v2
    rw [v1, hft] at h5
    rw [h5] at h4
    rw [List.getD_eq_getElem?_getD, h4]
    rfl
  rw [hdig]
  ring

theorem digits_ext {b d g g' : ℕ} (hg : g < b ^ d) (hg' : g' < b ^ d) (h : ∀ k < d, digit b d k g = digit b d k g') :
    g = g' := by
  have : digits b d g = digits b d g' := by
    unfold digits
    apply List.map_congr_left
    intro k hk
    exact h k (List.mem_range.mp hk)
  rw [← ravel_digits hg, ← ravel_digits hg', this]

/-- A node of a refined facet has the grid position of its point. -/
theorem OnGrid.facet {n d p : ℕ} (hn : 1 ≤ n) {nodes : Fin (p + 1) → K} (h : ElementNodes nodes) {a b : K} (hab : a ≠ b)
    {per : List ℕ} {r : Refined (Fin d → K)} {pos : ℕ → ℕ} (hO : OnGrid nodes n d a b r pos) {et : List (List ℕ)}
    {ft : List FacetDim} (hF : List.Forall₂ (fun l f => l ∈ dimToElem n f) et ft) (hft : ft.length = d)
    (hc : ft.count .inner = d - 1) {i v : ℕ} (hi : i < (p + 1) ^ (d - 1)) (hv : r.nodeCoords[v]? =
      some (interpolated (d - 1) nodes (cubePremesh n d a b per).nodeCoords ((cartesian et).map (ravel (n + 1))) i)) :
    v < r.nodeCoords.length ∧ pos v = ravel (n * p + 1) (gpt p et (digits (p + 1) (d - 1) i)) := by
  have hvl := (List.getElem?_eq_some_iff.mp hv).1
  have hscale : (b - a) / (n : K) ≠ 0 :=
    div_ne_zero (sub_ne_zero.mpr hab.symm) (by exact_mod_cast (show n ≠ 0 by omega))
  obtain ⟨i1, i2, _⟩ := facet_box hF
  have hJlt : ∀ x ∈ digits (p + 1) (d - 1) i, x < p + 1 := fun x hx => mem_digits_lt (by omega) hx
  obtain ⟨g1, g2, _⟩ := gpt_spec h.pos hF (J := digits (p + 1) (d - 1) i) (by rw [digits_length]; omega) hJlt
  refine ⟨hvl, ?_⟩
  rw [facet_position h a b per hF hft hc hi, hO.coords v hvl] at hv
  have hv := Option.some.inj hv
  have hgl := ravel_lt g2
  rw [g1, hft] at hgl
  refine digits_ext (hO.bij.mapsTo hvl) hgl (fun k hk => ?_)
  have h5 := congrFun hv ⟨k, hk⟩
  simp only [add_right_inj] at h5
  have h6 := (gridOffset_strictMono h).injective (mul_left_cancel₀ hscale h5)
  rw [h6]
  have h7 := digit_eq_getElem (n * p + 1) d k (ravel (n * p + 1) (gpt p et (digits (p + 1) (d - 1) i))) hk
  have h8 := digits_ravel g2
  rw [g1, hft] at h8
  rw [h8] at h7
  rw [List.getD_eq_getElem?_getD, h7]
  rfl

/-- The Newton-Cotes nodes qualify, for every order. -/
theorem ncNode_elementNodes {p : ℕ} (hp : 1 ≤ p) : ElementNodes (ncNode (K := K) (p + 1)) := by
  have h0 : (p : K) ≠ 0 := by exact_mod_cast (show p ≠ 0 by omega)
  have hpos : (0 : K) < p := by exact_mod_cast (show 0 < p by omega)
  refine ⟨by simp [ncNode], ?_, ?_, ?_⟩
  · simp only [ncNode, Fin.val_last, Nat.add_sub_cancel]
    field_simp
    ring
  · intro i j hij
    have : ((i : ℕ) : K) < (j : ℕ) := by exact_mod_cast hij
    simp only [ncNode, Nat.add_sub_cancel]
    have h2 : (0 : K) < 2 / p := by positivity
    nlinarith
  · intro i
    have hi : (i : ℕ) ≤ p := by omega
    simp only [ncNode, Nat.add_sub_cancel, Fin.val_rev]
    rw [show p + 1 - ((i : ℕ) + 1) = p - i by omega, Nat.cast_sub hi]
    field_simp
    ring

/-- Three by three elements of order four on the unit square, periodic in the first direction: 13 points per axis. -/
example : ∃ r, refinePremesh (cubePremesh 3 2 (0 : ℚ) 1 [0]) (ncNode (K := ℚ) 5) = .ok r ∧ r.elements.length = 9 ∧
    r.nodeCoords.length = 13 ^ 2 := by
  obtain ⟨r, h1, h2, h3, _⟩ := C76_refined_grid (n := 3) (d := 2) (p := 4) (by omega) (by omega)
    (ncNode_elementNodes (K := ℚ) (by omega)) (a := 0) (b := 1) (by norm_num) [0]
  exact ⟨r, h1, h2, h3⟩

end Verif.Core
