import Verif.Lemmas.CubeWeak
import Verif.Lemmas.CubeGlobal

/-!
# The mesh of Gauss-Legendre points on the cells of the unit cube
-/

namespace Verif.Core

open Verif.Spec MeasureTheory MvPolynomial Verif.Common

variable {n d p : ℕ} {a b : ℝ} {per : List ℕ}

theorem createNodes_gl (hp : 1 ≤ p) : ∃ grid, createNodes .gaussLegendre p = some grid ∧ grid.nodeType = .gaussLegendre ∧
    grid.numPoints = p ∧ TrueWeights grid.bary grid.value ∧ Function.Injective grid.value ∧
    ∀ i, -1 < grid.value i ∧ grid.value i < 1 := by
  obtain ⟨l, h1, h2, h3, h4, _⟩ := C79_gauss_legendre p hp
  refine ⟨⟨.gaussLegendre, p, vec l p, vec (glBary l (glWeights p l)) p⟩, ?_, rfl, rfl, ?_, ?_, ?_⟩
  · simp only [createNodes, h1]
  · exact C79_barycentric hp h1
  · exact (vec_strictMono h2 h3).injective
  · intro i
    exact h4 _ (vec_mem h2 i)

theorem getElem?_flatMap_const {α β : Type*} (l : List α) (m : ℕ) (f : α → ℕ → β) {e i : ℕ} (hi : i < m) {x : α}
    (hx : l[e]? = some x) : (l.flatMap (fun y => (List.range m).map (f y)))[e * m + i]? = some (f x i) := by
  induction l generalizing e with
  | nil => simp at hx
  | cons y l ih =>
    rw [List.flatMap_cons]
    cases e with
    | zero =>
      simp only [List.getElem?_cons_zero, Option.some.injEq] at hx
      subst hx
      rw [Nat.zero_mul, Nat.zero_add, List.getElem?_append_left (by simpa using hi), List.getElem?_map,
        List.getElem?_range hi]
      rfl
    | succ e =>
      rw [List.getElem?_cons_succ] at hx
      rw [List.getElem?_append_right (by rw [List.length_map, List.length_range, Nat.succ_mul]; omega), List.length_map,
        List.length_range, show (e + 1) * m + i - m = e * m + i by rw [Nat.succ_mul]; omega]
      exact ih hx

/-- `refine_premesh(unit_cube_mesh(..), Nodes1D.create(p + 1, GAUSS_LEGENDRE)).finalize()`: every cell has its own nodes. -/
theorem cubePressure_spec (hn : 1 ≤ n) (hd : 1 ≤ d) (hp : 1 ≤ p) (hab : a < b) (per : List ℕ) :
    ∃ (mesh : Mesh ℝ d) (node : ℕ → ℕ → ℕ), cubeMesh n d p .gaussLegendre a b per = .ok (mesh, []) ∧
      AffCells n p a ((b - a) / (2 * n)) mesh node ∧ mesh.grid.nodeType = .gaussLegendre ∧
      (∀ i j, mesh.nodeIndices i = mesh.nodeIndices j → i = j) ∧ ∀ e i, node e i = e * (p + 1) ^ d + i := by
  obtain ⟨grid, hg, hty, hnum, hw, hinj, hins⟩ := createNodes_gl (p := p + 1) (by omega)
  have hn0 : (0 : ℝ) < n := by exact_mod_cast hn
  have hba : 0 < b - a := by linarith
  obtain ⟨M, A, hM, hA, hcols, hent⟩ := interp_lin (K := ℝ) hd (grid.vector (p + 1))
  have hc : isContinuous (grid.vector (p + 1)) = false := by
    unfold isContinuous
    apply decide_eq_false
    rintro ⟨h0, _⟩
    have h1 : (0 : ℕ) < grid.numPoints := by omega
    have := (hins ⟨0, h1⟩).1
    have h2 : grid.vector (p + 1) 0 = grid.value ⟨0, h1⟩ := by unfold Nodes1D.vector; exact dif_pos h1
    rw [h2] at h0
    linarith
  have hlen : (cubePremesh n d a b per).elements.length = n ^ d := by
    rw [cube_elements]; simp [cartesian_replicate_range]
  let r : Refined (Fin d → ℝ) := ⟨(cubePremesh n d a b per).elements.flatMap (fun el =>
      (List.range ((p + 1) ^ d)).map (fun i => targetCoord A (cubePremesh n d a b per).nodeCoords el i)),
      (List.range (cubePremesh n d a b per).elements.length).map (fun e =>
        (List.range ((p + 1) ^ d)).map (fun i => ((e * (p + 1) ^ d + i : ℕ) : ℤ))), [], none⟩
  have hr : refinePremesh (cubePremesh n d a b per) (grid.vector (p + 1)) = .ok r := by
    unfold refinePremesh
    have hD : (cubePremesh n d a b per).ndim = d := rfl
    rw [if_neg (by simp [cubePremesh]), if_neg (by omega), hM]
    simp only [hD, hA, hc, Bool.false_eq_true, if_false]
    rfl
  have hN : r.nodeCoords.length = n ^ d * (p + 1) ^ d := by
    change (List.flatMap _ _).length = _
    simp [List.length_flatMap, hlen]
  have hnpe : grid.numPoints ^ d = (p + 1) ^ d := by rw [hnum]
  refine ⟨(finalMesh grid r).1, fun e i => e * (p + 1) ^ d + i, ?_, ?_, hty, ?_, fun _ _ => rfl⟩
  · unfold cubeMesh
    rw [hg]
    simp only
    rw [hr]
    rfl
  · refine ⟨by positivity, hp, hd, hnum, hw, hinj, ?_, ?_, ?_, ?_, ?_⟩
    · change (List.map _ _).length = _
      rw [List.length_map, List.length_range, hlen]
    · intro e he i hi
      change i < grid.numPoints ^ d at hi
      change _ < r.nodeCoords.length
      rw [hN]
      rw [hnpe] at hi
      calc e * (p + 1) ^ d + i < e * (p + 1) ^ d + (p + 1) ^ d := by omega
        _ = (e + 1) * (p + 1) ^ d := by ring
        _ ≤ _ := Nat.mul_le_mul_right _ he
    · intro e he i hi
      change i < grid.numPoints ^ d at hi
      rw [hnpe] at hi
      change (((List.range _).map _).getD e []).getD i sentinel = _
      rw [List.getD_eq_getElem?_getD, List.getD_eq_getElem?_getD, List.getElem?_map, List.getElem?_range (by rw [hlen]; exact he)]
      simp only [Option.map_some, Option.getD_some]
      rw [List.getElem?_map, List.getElem?_range hi]
      rfl
    · intro e he i hi k
      change i < grid.numPoints ^ d at hi
      rw [hnpe] at hi
      change r.nodeCoords.getD (e * (p + 1) ^ d + i) 0 k = _
      rw [List.getD_eq_getElem?_getD]
      have h1 := getElem?_flatMap_const (cubePremesh n d a b per).elements ((p + 1) ^ d)
        (fun el i => targetCoord A (cubePremesh n d a b per).nodeCoords el i) hi (cube_element_get a b per he)
      have h2 : r.nodeCoords[e * (p + 1) ^ d + i]? = _ := h1
      rw [h2, Option.getD_some, targetCoord_eq hcols hent _ _ hi, cube_interpolated hn _ a b per hi]
      have hgp : gridPoint d grid.value i k = at0 (grid.vector (p + 1)) (digit (p + 1) d k i) := by
        unfold gridPoint
        rw [Nodes1D.at0_vector hnum]
        have : digit grid.numPoints d k i = digit (p + 1) d k i := by rw [hnum]
        rw [this]
      change _ = (b - a) / (2 * n) * gridPoint d grid.value i k + _
      rw [hgp, centre]
      field_simp
      ring
    · intro v hv
      change v < r.nodeCoords.length at hv
      rw [hN] at hv
      have hpos : 0 < (p + 1) ^ d := by positivity
      refine ⟨v / (p + 1) ^ d, Nat.div_lt_of_lt_mul (by rw [mul_comm]; exact hv), v % (p + 1) ^ d, ?_, ?_⟩
      · change _ < grid.numPoints ^ d
        rw [hnpe]
        exact Nat.mod_lt _ hpos
      · exact Nat.div_add_mod' v _
  · intro i j hij
    change uniqueNodeIndex none (i : ℤ) = uniqueNodeIndex none (j : ℤ) at hij
    simpa [uniqueNodeIndex] using hij

end Verif.Core
