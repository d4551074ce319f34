import Verif.Model.DatagenLog
import Verif.Lemmas.CubeSym

/-!
The smallest distance of nodes within the elements of a cube mesh is the smallest distance of any two nodes.
-/

namespace Verif.Niles

open Verif.Core Verif.NS Verif.Common Verif.Spec

variable {n d p : ℕ} {a b c : ℝ} {per : List ℕ} {mesh : Mesh ℝ d} {node : ℕ → ℕ → ℕ}

theorem foldl_min_spec (l : List (WithTop ℝ)) : ∀ x : WithTop ℝ, l.foldl min x ≤ x ∧ (∀ y ∈ l, l.foldl min x ≤ y) ∧
    (l.foldl min x = x ∨ l.foldl min x ∈ l) := by
  induction l with
  | nil => intro x; exact ⟨le_refl _, by simp, Or.inl rfl⟩
  | cons y l ih =>
    intro x
    obtain ⟨h1, h2, h3⟩ := ih (min x y)
    refine ⟨le_trans h1 (min_le_left _ _), fun z hz => ?_, ?_⟩
    · rcases List.mem_cons.mp hz with rfl | hz
      · exact le_trans h1 (min_le_right _ _)
      · exact h2 z hz
    · rw [List.foldl_cons]
      rcases h3 with h3 | h3
      · rw [h3]
        rcases min_choice x y with h4 | h4
        · exact Or.inl h4
        · exact Or.inr (by rw [h4]; simp)
      · exact Or.inr (List.mem_cons_of_mem _ h3)

theorem abs_le_pointDistance (x y : Fin d → ℝ) (k : Fin d) : |x k - y k| ≤ pointDistance x y :=
  Real.abs_le_sqrt (Finset.single_le_sum (f := fun k => (x k - y k) ^ 2) (fun _ _ => sq_nonneg _) (Finset.mem_univ k))

/-- `computeDx` is one of the distances and not larger than any. -/
theorem computeDx_spec (mesh : Mesh ℝ d) (he : 1 ≤ mesh.numElements) (hN : 2 ≤ mesh.nodesPerElem) : ∃ dx : ℝ, computeDx mesh = dx ∧
    (∃ e < mesh.numElements, ∃ i < mesh.nodesPerElem, ∃ j < mesh.nodesPerElem, i ≠ j ∧
      pointDistance (mesh.elementCoords e i) (mesh.elementCoords e j) = dx) ∧
    ∀ e < mesh.numElements, ∀ i < mesh.nodesPerElem, ∀ j < mesh.nodesPerElem, i ≠ j →
      dx ≤ pointDistance (mesh.elementCoords e i) (mesh.elementCoords e j) := by
  have hfold : computeDx mesh = ((List.range mesh.numElements).map (pairwiseMin mesh)).foldl min ⊤ := by
    unfold computeDx
    rw [List.foldl_map]
  obtain ⟨_, h2, h3⟩ := foldl_min_spec ((List.range mesh.numElements).map (pairwiseMin mesh)) ⊤
  rw [← hfold] at h2 h3
  have hle : ∀ e < mesh.numElements, ∀ i < mesh.nodesPerElem, ∀ j < mesh.nodesPerElem, i ≠ j →
      computeDx mesh ≤ (pointDistance (mesh.elementCoords e i) (mesh.elementCoords e j) : ℝ) := by
    intro e he i hi j hj hij
    refine le_trans (h2 _ (List.mem_map.mpr ⟨e, List.mem_range.mpr he, rfl⟩)) ?_
    refine (foldl_min_spec _ ⊤).2.1 _ (List.mem_flatMap.mpr ⟨i, List.mem_range.mpr hi, List.mem_map.mpr ⟨j, List.mem_range.mpr hj, ?_⟩⟩)
    unfold pairwise
    rw [if_neg hij]
  have htop : computeDx mesh ≠ ⊤ := by
    have := hle 0 (by omega) 0 (by omega) 1 (by omega) (by omega)
    intro h
    rw [h] at this
    exact absurd this (by simp)
  rcases h3 with h3 | h3
  · exact absurd h3 htop
  obtain ⟨e, he', h4⟩ := List.mem_map.mp h3
  rcases (foldl_min_spec ((List.range mesh.nodesPerElem).flatMap fun i => (List.range mesh.nodesPerElem).map fun j => pairwise mesh e i j) ⊤).2.2
    with h5 | h5
  · exact absurd (h4 ▸ h5) htop
  · change pairwiseMin mesh e ∈ _ at h5
    obtain ⟨i, hi, h6⟩ := List.mem_flatMap.mp h5
    obtain ⟨j, hj, h7⟩ := List.mem_map.mp h6
    rw [h4] at h7
    unfold pairwise at h7
    by_cases hij : i = j
    · rw [if_pos hij] at h7
      exact absurd h7.symm htop
    · rw [if_neg hij] at h7
      refine ⟨_, h7.symm, ⟨e, List.mem_range.mp he', i, List.mem_range.mp hi, j, List.mem_range.mp hj, hij, rfl⟩, ?_⟩
      intro e₁ he₁ i₁ hi₁ j₁ hj₁ hij₁
      have := hle e₁ he₁ i₁ hi₁ j₁ hj₁ hij₁
      rw [← h7] at this
      exact_mod_cast this

theorem _root_.Verif.Core.AffCells.elementCoords_eq (h : AffCells n p a c mesh node) {e i : ℕ} (he : e < n ^ d) (hi : i < mesh.nodesPerElem) :
    mesh.elementCoords e i = mesh.coords (node e i) := by
  funext k
  unfold Mesh.elementCoords
  rw [h.gather _ he hi]

/-- Two nodes of an element which differ in one coordinate only. -/
theorem _root_.Verif.Core.AffCells.neighbours (h : AffCells n p a c mesh node) (hn : 1 ≤ n) (k : Fin d) {x y : ℕ} (hx : x < p + 1) (hy : y < p + 1) (hxy : x ≠ y) :
    ∃ i < mesh.nodesPerElem, ∃ j < mesh.nodesPerElem, i ≠ j ∧
      pointDistance (mesh.elementCoords 0 i) (mesh.elementCoords 0 j) = c * |at0 mesh.grid.value x - at0 mesh.grid.value y| := by
  have h0 : 0 < n ^ d := Nat.pow_pos (by omega)
  have hpt := h.points
  obtain ⟨i, hi, hi'⟩ := digit_surj (d := d) (b := mesh.grid.numPoints) fun m => if m = k then ⟨x, by omega⟩ else ⟨0, by omega⟩
  obtain ⟨j, hj, hj'⟩ := digit_surj (d := d) (b := mesh.grid.numPoints) fun m => if m = k then ⟨y, by omega⟩ else ⟨0, by omega⟩
  refine ⟨i, hi, j, hj, ?_, ?_⟩
  · rintro rfl
    have := (hi' k).symm.trans (hj' k)
    simp at this
    exact hxy this
  · rw [h.elementCoords_eq h0 hi, h.elementCoords_eq h0 hj]
    unfold pointDistance
    rw [Finset.sum_eq_single k]
    · rw [Real.sqrt_sq_eq_abs, h.coords 0 h0 i hi, h.coords 0 h0 j hj]
      have e1 : gridPoint d mesh.grid.value i k = at0 mesh.grid.value x := by
        unfold gridPoint; rw [hi' k]; simp
      have e2 : gridPoint d mesh.grid.value j k = at0 mesh.grid.value y := by
        unfold gridPoint; rw [hj' k]; simp
      rw [e1, e2, show c * at0 mesh.grid.value x + centre n d a c 0 k - (c * at0 mesh.grid.value y + centre n d a c 0 k) =
        c * (at0 mesh.grid.value x - at0 mesh.grid.value y) by ring, abs_mul, abs_of_pos h.width]
    · intro m _ hm
      rw [h.coords 0 h0 i hi, h.coords 0 h0 j hj]
      have : gridPoint d mesh.grid.value i m = gridPoint d mesh.grid.value j m := by
        unfold gridPoint; rw [hi' m, hj' m]; simp [hm]
      rw [this]
      simp
    · simp

/-- Along one axis: two different coordinates of nodes, also of images under the period, are at least as far apart as two nodes of
the line. -/
theorem line_distance {v : ℕ → ℝ} {δ : ℝ} (hp : 1 ≤ p) (first : v 0 = -1) (last : v p = 1) (within : ∀ i < p + 1, -1 ≤ v i ∧ v i ≤ 1)
    (hδ : ∀ x < p + 1, ∀ y < p + 1, x ≠ y → δ ≤ |v x - v y|) {x y : ℕ} (hx : x < p + 1) (hy : y < p + 1) (m : ℤ) 
    (hne : v x - v y + 2 * m ≠ 0) : δ ≤ |v x - v y + 2 * m| := by
  have two : δ ≤ 2 := by
    have := hδ p (by omega) 0 (by omega) (by omega)
    rw [first, last] at this
    norm_num at this
    exact this
  have main : ∀ {x y : ℕ}, x < p + 1 → y < p + 1 → ∀ m : ℤ, 1 ≤ m → v x - v y + 2 * m ≠ 0 → δ ≤ |v x - v y + 2 * m| := by
    intro x y hx hy m hm hne
    have bx := within x hx
    have bY := within y hy
    have hm' : (1 : ℝ) ≤ m := by exact_mod_cast hm
    refine le_trans ?_ (le_abs_self _)
    rcases hm.lt_or_eq with h2 | h1
    · have : (2 : ℝ) ≤ m := by exact_mod_cast h2
      linarith [bx.1, bY.2]
    · have h1' : (m : ℝ) = 1 := by exact_mod_cast h1.symm
      rw [h1'] at hne ⊢
      by_cases hx0 : x = 0
      · have hyp : y ≠ p := by
          rintro rfl
          rw [hx0, first, last] at hne
          norm_num at hne
        have := hδ p (by omega) y hy (by omega)
        rw [last, abs_of_nonneg (by linarith [bY.2])] at this
        linarith [bx.1]
      · have := hδ x hx 0 (by omega) hx0
        rw [first, abs_of_nonneg (by linarith [bx.1])] at this
        linarith [bY.2]
  rcases lt_trichotomy m 0 with h | h | h
  · have := main hy hx (-m) (by omega) (by push_cast; intro h'; apply hne; linarith)
    rw [← abs_neg]
    push_cast at this
    rw [show -(v x - v y + 2 * (m : ℝ)) = v y - v x + 2 * (-(m : ℝ)) by ring]
    exact this
  · subst h
    have hxy : x ≠ y := by rintro rfl; simp at hne
    simpa using hδ x hx y hy hxy
  · exact main hx hy m (by omega) hne

theorem _root_.Verif.Core.CubeCells.dx (h : CubeCells n p a ((b - a) / (2 * n)) mesh node) (hn : 1 ≤ n) : ∃ dx : ℝ, computeDx mesh = dx ∧ 0 < dx ∧
    (∃ i < mesh.numNodes, ∃ j < mesh.numNodes, pointDistance (mesh.coords i) (mesh.coords j) = dx) ∧
    ∀ i < mesh.numNodes, ∀ j < mesh.numNodes, ∀ y, TorusPoint per (b - a) y (mesh.coords j) →
      y = mesh.coords i ∨ dx ≤ pointDistance (mesh.coords i) y := by
  obtain ⟨c, hc⟩ : ∃ c, c = (b - a) / (2 * (n : ℝ)) := ⟨_, rfl⟩
  rw [← hc] at h
  have hn0 : (n : ℝ) ≠ 0 := by exact_mod_cast (by omega : n ≠ 0)
  have hL : b - a = 2 * c * n := by rw [hc]; field_simp
  have hA := h.toAffCells
  have hpt := hA.points
  have hord := hA.order
  have hdim := hA.dim
  have hE : 1 ≤ mesh.numElements := by rw [hA.num]; exact Nat.one_le_pow _ _ hn
  have hN : 2 ≤ mesh.nodesPerElem := by
    unfold Mesh.nodesPerElem
    rw [hpt]
    calc 2 ≤ (p + 1) ^ 1 := by rw [pow_one]; omega
      _ ≤ (p + 1) ^ d := Nat.pow_le_pow_right (by omega) hdim
  obtain ⟨dx, h1, ⟨e, he, i, hi, j, hj, hij, hd⟩, h3⟩ := computeDx_spec mesh hE hN
  have hline : ∀ x < p + 1, ∀ y < p + 1, x ≠ y → dx / c ≤ |at0 mesh.grid.value x - at0 mesh.grid.value y| := by
    intro x hx y hy hxy
    obtain ⟨i, hi, j, hj, hij, hd⟩ := hA.neighbours hn (⟨0, by omega⟩ : Fin d) hx hy hxy
    have := h3 0 (by omega) i hi j hj hij
    rw [hd] at this
    rw [div_le_iff₀ hA.width]
    linarith
  rw [hA.num] at he
  rw [hA.elementCoords_eq he hi, hA.elementCoords_eq he hj] at hd
  have hpos : 0 < dx := by
    obtain ⟨k, hk⟩ : ∃ k : Fin d, digit mesh.grid.numPoints d k i ≠ digit mesh.grid.numPoints d k j := by
      by_contra hcon
      push Not at hcon
      exact hij (digit_ext hi hj fun k hk => hcon ⟨k, hk⟩)
    refine lt_of_lt_of_le ?_ (hd ▸ abs_le_pointDistance _ _ k)
    rw [abs_pos, hA.coords e he i hi, hA.coords e he j hj]
    have hli := digit_lt mesh.grid.numPoints d k i (by omega)
    have hlj := digit_lt mesh.grid.numPoints d k j (by omega)
    intro h0
    have h4 : gridPoint d mesh.grid.value i k = gridPoint d mesh.grid.value j k := by
      have hw := hA.width
      have : c * (gridPoint d mesh.grid.value i k - gridPoint d mesh.grid.value j k) = 0 := by linarith
      rcases mul_eq_zero.mp this with h5 | h5
      · linarith
      · linarith
    unfold gridPoint at0 at h4
    rw [dif_pos hli, dif_pos hlj] at h4
    exact hk (by simpa using hA.nodes h4)
  refine ⟨dx, h1, hpos, ⟨_, hA.lt e he i hi, _, hA.lt e he j hj, hd⟩, ?_⟩
  intro v hv w hw y hy
  by_cases heq : y = mesh.coords v
  · exact Or.inl heq
  refine Or.inr ?_
  obtain ⟨k, hk⟩ : ∃ k, y k ≠ mesh.coords v k := by
    by_contra hcon
    push Not at hcon
    exact heq (funext hcon)
  refine le_trans ?_ (abs_le_pointDistance _ _ k)
  obtain ⟨z, hz⟩ : ∃ z : ℤ, y k = mesh.coords w k + z * (b - a) := by
    rcases hy k with h5 | ⟨_, z, h5⟩
    · exact ⟨0, by simp [h5]⟩
    · exact ⟨z, h5⟩
  obtain ⟨e₁, he₁, i₁, hi₁, rfl⟩ := hA.onto v hv
  obtain ⟨e₂, he₂, i₂, hi₂, rfl⟩ := hA.onto w hw
  have hdiff : mesh.coords (node e₁ i₁) k - y k = c * (at0 mesh.grid.value (digit mesh.grid.numPoints d k i₁) -
      at0 mesh.grid.value (digit mesh.grid.numPoints d k i₂) + 2 * ((digit n d k e₁ - digit n d k e₂ - n * z : ℤ) : ℝ)) := by
    rw [hz, hA.coords e₁ he₁ i₁ hi₁, hA.coords e₂ he₂ i₂ hi₂, hL]
    unfold gridPoint centre
    push_cast
    ring
  have := line_distance (v := at0 mesh.grid.value) (δ := dx / c) hord h.first h.last h.within hline
    (x := digit mesh.grid.numPoints d k i₁) (y := digit mesh.grid.numPoints d k i₂)
    (by rw [← hpt]; exact digit_lt _ _ _ _ (by omega)) (by rw [← hpt]; exact digit_lt _ _ _ _ (by omega))
    (digit n d k e₁ - digit n d k e₂ - n * z : ℤ) (fun h0 => hk (by
      rw [h0, mul_zero] at hdiff
      linarith))
  rw [div_le_iff₀ hA.width] at this
  rw [hdiff, abs_mul, abs_of_pos hA.width]
  linarith

end Verif.Niles
