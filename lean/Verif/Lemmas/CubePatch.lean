import Mathlib.Algebra.MvPolynomial.Funext
import Verif.Lemmas.CubeCells
import Verif.Lemmas.FaceSub

/-!
# Integration by parts over the cells of a cube grid
-/

namespace Verif.Core

open Verif.Spec MeasureTheory MvPolynomial

variable {d : ℕ}

/-- Change one digit. -/
theorem digit_update {b : ℕ} (hb : 0 < b) (k : Fin d) (i : ℕ) {r : ℕ} (hr : r < b) : ∃ i' < b ^ d,
    ∀ j : Fin d, digit b d j i' = if j = k then r else digit b d j i := by
  obtain ⟨i', h1, h2⟩ := digit_surj (b := b) (d := d) (fun j => if j = k then ⟨r, hr⟩ else
    ⟨digit b d j i, Verif.Common.digit_lt _ _ _ _ hb⟩)
  refine ⟨i', h1, fun j => ?_⟩
  rw [h2 j]
  split <;> rfl

namespace CubeCells

variable {n p : ℕ} {a c : ℝ} {mesh : Mesh ℝ d} {node : ℕ → ℕ → ℕ}

theorem _root_.Verif.Core.AffCells.npe (h : AffCells n p a c mesh node) : mesh.nodesPerElem = (p + 1) ^ d := by
  rw [Mesh.nodesPerElem, h.points]

theorem _root_.Verif.Core.AffCells.grid (h : AffCells n p a c mesh node) (i : ℕ) (k : Fin d) :
    gridPoint d mesh.grid.value i k = at0 mesh.grid.value (digit (p + 1) d k i) := by
  unfold gridPoint
  have : digit mesh.grid.numPoints d k i = digit (p + 1) d k i := by rw [h.points]
  rw [this]

/-- Polynomials of the degree of the elements that agree at the nodes of a cell are equal. -/
theorem _root_.Verif.Core.AffCells.eq_of_nodes (h : AffCells n p a c mesh node) {P Q : MvPolynomial (Fin d) ℝ} (hP : ∀ k, P.degreeOf k ≤ p)
    (hQ : ∀ k, Q.degreeOf k ≤ p) (s : Fin d → ℝ)
    (hPQ : ∀ i < mesh.nodesPerElem, eval (fun k => c * gridPoint d mesh.grid.value i k + s k) P =
      eval (fun k => c * gridPoint d mesh.grid.value i k + s k) Q) : P = Q := by
  have h1 : affSub c s (P - Q) = 0 := by
    apply eq_zero_of_grid mesh.grid.value h.nodes
    · intro k
      refine h.affDegree (fun k => ?_) s k
      exact le_trans (degreeOf_sub_le k P Q) (max_le (hP k) (hQ k))
    · intro i hi
      rw [eval_affSub, map_sub, hPQ i hi, sub_self]
  apply MvPolynomial.funext
  intro x
  have h2 : eval (fun k => c⁻¹ * (x k - s k)) (affSub c s (P - Q)) = 0 := by rw [h1, map_zero]
  rw [eval_affSub, map_sub, sub_eq_zero] at h2
  have h3 : (fun k => c * (c⁻¹ * (x k - s k)) + s k) = x := by
    funext k
    rw [← mul_assoc, mul_inv_cancel₀ h.width.ne']
    ring
  rw [h3] at h2
  exact h2

/-- Every nodal field has element polynomials. -/
theorem _root_.Verif.Core.AffCells.exists_field (h : AffCells n p a c mesh node) (u : ℕ → ℝ) : ∃ U, CellField mesh p u U := by
  have h1 : ∀ e, ∃ P : MvPolynomial (Fin d) ℝ, (∀ k, P.degreeOf k ≤ p) ∧ (e < n ^ d →
      ∀ i < mesh.nodesPerElem, eval (mesh.coords (node e i)) P = u (node e i)) := by
    intro e
    obtain ⟨P, hP, hPe⟩ := exists_samples (d := d) h.numPos mesh.grid.value h.nodes (fun i => u (node e i))
    refine ⟨affSub c⁻¹ (fun k => - (c⁻¹ * centre n d a c e k)) P, fun k => ?_, fun he i hi => ?_⟩
    · have := hP k
      have := degreeOf_affSub c⁻¹ (fun k => - (c⁻¹ * centre n d a c e k)) P k
      have := h.points
      omega
    · rw [eval_affSub, ← hPe i hi]
      congr 2
      funext k
      rw [h.coords e he i hi k]
      have := h.width.ne'
      field_simp
      ring
  choose U hU using h1
  refine ⟨U, fun e he => ⟨(hU e).1, fun i hi v hv => ?_⟩⟩
  rw [h.num] at he
  have := h.elem e he i hi
  rw [hv] at this
  have hvn : v = node e i := by exact_mod_cast this
  rw [hvn]
  exact (hU e).2 he i hi

/-- They are unique. -/
theorem _root_.Verif.Core.AffCells.field_unique (h : AffCells n p a c mesh node) {u : ℕ → ℝ} {U U' : ℕ → MvPolynomial (Fin d) ℝ}
    (hU : CellField mesh p u U) (hU' : CellField mesh p u U') {e : ℕ} (he : e < n ^ d) : U e = U' e := by
  have he' : e < mesh.numElements := by rw [h.num]; exact he
  apply h.eq_of_nodes (hU e he').1 (hU' e he').1 (centre n d a c e)
  intro i hi
  have h1 : (fun k => c * gridPoint d mesh.grid.value i k + centre n d a c e k) = mesh.coords (node e i) := by
    funext k; rw [h.coords e he i hi]
  rw [h1, (hU e he').2 i hi _ (h.elem e he i hi), (hU' e he').2 i hi _ (h.elem e he i hi)]

/-- The node of a cell on a face above or below a given node. -/
theorem face_node (h : CubeCells n p a c mesh node) {e : ℕ} (he : e < n ^ d) (i : ℕ) (k : Fin d) {r : ℕ} (hr : r < p + 1) :
    ∃ i' < mesh.nodesPerElem, (∀ j : Fin d, digit (p + 1) d j i' = if j = k then r else digit (p + 1) d j i) ∧
      mesh.coords (node e i') = Function.update (fun j => c * gridPoint d mesh.grid.value i j + centre n d a c e j) k
        (c * at0 mesh.grid.value r + centre n d a c e k) := by
  obtain ⟨i', h1, h2⟩ := digit_update (Nat.succ_pos p) k i hr
  rw [← h.npe] at h1
  refine ⟨i', h1, h2, ?_⟩
  funext j
  rw [h.coords e he i' h1, h.grid, h2 j]
  by_cases hj : j = k
  · subst hj; simp
  · rw [if_neg hj, Function.update_of_ne hj, h.grid]

/-- Neighbouring cells agree on their common face. -/
theorem face_match (h : CubeCells n p a c mesh node) {v : ℕ → ℝ} {V : ℕ → MvPolynomial (Fin d) ℝ} (hV : CellField mesh p v V)
    (k : Fin d) {e e' : ℕ} (he : e < n ^ d) (he' : e' < n ^ d) (hk : digit n d k e' = digit n d k e + 1)
    (ho : ∀ j : Fin d, j ≠ k → digit n d j e' = digit n d j e) :
    faceSub k (centre n d a c e k + c) (V e) = faceSub k (centre n d a c e k + c) (V e') := by
  have hE : e < mesh.numElements := by rw [h.num]; exact he
  have hE' : e' < mesh.numElements := by rw [h.num]; exact he'
  apply h.eq_of_nodes (fun j => le_trans (degreeOf_faceSub k _ _ j) ((hV e hE).1 j))
    (fun j => le_trans (degreeOf_faceSub k _ _ j) ((hV e' hE').1 j)) (centre n d a c e)
  intro i hi
  obtain ⟨i1, h1, h2, h3⟩ := h.face_node he i k (show p < p + 1 by omega)
  obtain ⟨i2, h4, h5, h6⟩ := h.face_node he' i k (show 0 < p + 1 by omega)
  rw [h.last] at h3
  rw [h.first] at h6
  have hc : centre n d a c e' k = centre n d a c e k + 2 * c := by
    unfold centre; rw [hk]; push_cast; ring
  have hco : ∀ j, j ≠ k → centre n d a c e' j = centre n d a c e j := by
    intro j hj; unfold centre; rw [ho j hj]
  have hnode : node e i1 = node e' i2 := by
    apply h.shared e he i1 h1 e' he' i2 h4
    intro j hj
    have g2 := h2 ⟨j, hj⟩
    have g5 := h5 ⟨j, hj⟩
    simp only at g2 g5
    rw [g2, g5]
    by_cases hjk : (⟨j, hj⟩ : Fin d) = k
    · subst hjk
      rw [if_pos rfl, if_pos rfl]
      simp only at hk
      rw [hk]
      ring
    · rw [if_neg hjk, if_neg hjk]
      have := ho _ hjk
      simp only at this
      rw [this]
  have e1 : Function.update (fun j => c * gridPoint d mesh.grid.value i j + centre n d a c e j) k (centre n d a c e k + c) =
      mesh.coords (node e i1) := by
    rw [h3]; congr 1; ring
  have e2 : Function.update (fun j => c * gridPoint d mesh.grid.value i j + centre n d a c e j) k (centre n d a c e k + c) =
      mesh.coords (node e' i2) := by rw [e1, hnode]
  rw [eval_faceSub, eval_faceSub]
  conv_lhs => rw [e1]
  conv_rhs => rw [e2]
  rw [(hV e hE).2 i1 h1 _ (h.elem e he i1 h1), (hV e' hE').2 i2 h4 _ (h.elem e' he' i2 h4), hnode]

/-- A field that vanishes at the nodes of a face of a cell vanishes on the face. -/
theorem face_zero (h : CubeCells n p a c mesh node) {v : ℕ → ℝ} {V : ℕ → MvPolynomial (Fin d) ℝ} (hV : CellField mesh p v V)
    (k : Fin d) {e : ℕ} (he : e < n ^ d) {t : ℝ} (ht : t = centre n d a c e k - c ∨ t = centre n d a c e k + c)
    (hz : ∀ j < mesh.numNodes, mesh.coords j k = t → v j = 0) : faceSub k t (V e) = 0 := by
  have hE : e < mesh.numElements := by rw [h.num]; exact he
  apply h.eq_of_nodes (fun j => le_trans (degreeOf_faceSub k _ _ j) ((hV e hE).1 j))
    (fun j => by rw [degreeOf_zero]; exact Nat.zero_le _) (centre n d a c e)
  intro i hi
  obtain ⟨r, hr, hrt⟩ : ∃ r < p + 1, c * at0 mesh.grid.value r + centre n d a c e k = t := by
    rcases ht with ht | ht
    · exact ⟨0, by omega, by rw [h.first, ht]; ring⟩
    · exact ⟨p, by omega, by rw [h.last, ht]; ring⟩
  obtain ⟨i1, h1, h2, h3⟩ := h.face_node he i k hr
  rw [hrt] at h3
  rw [eval_faceSub, ← h3, (hV e hE).2 i1 h1 _ (h.elem e he i1 h1), map_zero]
  refine hz _ (h.lt e he i1 h1) ?_
  rw [h3]
  simp

/-- The fluxes of `W V` through the faces across axis `k` cancel. -/
theorem flux_zero (h : CubeCells n p a c mesh node) (k : Fin d) (W : MvPolynomial (Fin d) ℝ)
    (V : ℕ → MvPolynomial (Fin d) ℝ)
    (hmatch : ∀ e < n ^ d, ∀ e' < n ^ d, digit n d k e' = digit n d k e + 1 →
      (∀ j : Fin d, j ≠ k → digit n d j e' = digit n d j e) →
      faceSub k (centre n d a c e k + c) (V e) = faceSub k (centre n d a c e k + c) (V e'))
    (hlo : ∀ e < n ^ d, digit n d k e = 0 → faceSub k a (W * V e) = 0)
    (hhi : ∀ e < n ^ d, digit n d k e + 1 = n → faceSub k (a + 2 * c * n) (W * V e) = 0) :
    ∑ e ∈ Finset.range (n ^ d), ∫ x in cell n d a c e, eval x (pderiv k (W * V e)) = 0 := by
  have hc := h.width
  have hle : ∀ e, ∀ j : Fin d, centre n d a c e j - c ≤ centre n d a c e j + c := fun e j => by linarith
  rcases Nat.eq_zero_or_pos n with hn0 | hn
  · have hd := h.dim
    rw [hn0, zero_pow (by omega)]; simp
  -- values on the two faces
  have hftc : ∀ e, 2 * c * ∫ x in cell n d a c e, eval x (pderiv k (W * V e)) =
      (∫ x in cell n d a c e, eval x (faceSub k (centre n d a c e k + c) (W * V e))) -
        ∫ x in cell n d a c e, eval x (faceSub k (centre n d a c e k - c) (W * V e)) := by
    intro e
    have := integral_pderiv_box (hle e) k (W * V e)
    rw [show centre n d a c e k + c - (centre n d a c e k - c) = 2 * c by ring] at this
    exact this
  have hsum : 2 * c * ∑ e ∈ Finset.range (n ^ d), ∫ x in cell n d a c e, eval x (pderiv k (W * V e)) = 0 := by
    rw [Finset.mul_sum, Finset.sum_congr rfl fun e _ => hftc e, Finset.sum_sub_distrib, sub_eq_zero]
    rw [← Finset.sum_filter_add_sum_filter_not (Finset.range (n ^ d)) (fun e => digit n d k e + 1 < n)
        (fun e => ∫ x in cell n d a c e, eval x (faceSub k (centre n d a c e k + c) (W * V e))),
      ← Finset.sum_filter_add_sum_filter_not (Finset.range (n ^ d)) (fun e => 0 < digit n d k e)
        (fun e => ∫ x in cell n d a c e, eval x (faceSub k (centre n d a c e k - c) (W * V e)))]
    have z1 : ∑ e ∈ (Finset.range (n ^ d)).filter (fun e => ¬ digit n d k e + 1 < n),
        ∫ x in cell n d a c e, eval x (faceSub k (centre n d a c e k + c) (W * V e)) = 0 := by
      refine Finset.sum_eq_zero fun e he => ?_
      rw [Finset.mem_filter, Finset.mem_range] at he
      have hlt : digit n d k e < n := Verif.Common.digit_lt _ _ _ _ hn
      have heq : digit n d k e + 1 = n := by omega
      have ht : centre n d a c e k + c = a + 2 * c * n := by
        unfold centre
        have : (n : ℝ) = (digit n d k e : ℝ) + 1 := by exact_mod_cast heq.symm
        rw [this]; ring
      rw [ht, hhi e he.1 heq]
      simp
    have z2 : ∑ e ∈ (Finset.range (n ^ d)).filter (fun e => ¬ 0 < digit n d k e),
        ∫ x in cell n d a c e, eval x (faceSub k (centre n d a c e k - c) (W * V e)) = 0 := by
      refine Finset.sum_eq_zero fun e he => ?_
      rw [Finset.mem_filter, Finset.mem_range] at he
      have heq : digit n d k e = 0 := by omega
      have ht : centre n d a c e k - c = a := by
        unfold centre
        rw [heq]; push_cast; ring
      rw [ht, hlo e he.1 heq]
      simp
    rw [z1, z2, add_zero, add_zero]
    -- shift along the axis
    have hnext : ∀ e, digit n d k e + 1 < n → ∃ e' < n ^ d, ∀ j : Fin d, digit n d j e' =
        if j = k then digit n d k e + 1 else digit n d j e := fun e h1 => digit_update hn k e h1
    have hprev : ∀ e, ∃ e' < n ^ d, ∀ j : Fin d, digit n d j e' =
        if j = k then digit n d k e - 1 else digit n d j e := fun e => by
      have hlt : digit n d k e < n := Verif.Common.digit_lt _ _ _ _ hn
      exact digit_update hn k e (by omega)
    classical
    choose! nxt hnxt using hnext
    choose prv hprv using hprev
    refine Finset.sum_nbij' nxt prv ?_ ?_ ?_ ?_ ?_
    · intro e he
      rw [Finset.mem_filter, Finset.mem_range] at he ⊢
      have := hnxt e he.2
      refine ⟨this.1, ?_⟩
      rw [this.2 k, if_pos rfl]; omega
    · intro e he
      rw [Finset.mem_filter, Finset.mem_range] at he ⊢
      have := hprv e
      have hlt : digit n d k e < n := Verif.Common.digit_lt _ _ _ _ hn
      refine ⟨this.1, ?_⟩
      rw [this.2 k, if_pos rfl]; omega
    · intro e he
      rw [Finset.mem_filter, Finset.mem_range] at he
      have h1 := hnxt e he.2
      have h2 := hprv (nxt e)
      apply digit_ext h2.1 he.1
      intro j hj
      have g2 := h2.2 ⟨j, hj⟩
      have g1 := h1.2 ⟨j, hj⟩
      have g0 := h1.2 k
      rw [if_pos rfl] at g0
      simp only at g1 g2
      rw [g2]
      split
      · next hjk => subst hjk; rw [g0]; simp
      · next hjk => rw [g1, if_neg hjk]
    · intro e he
      rw [Finset.mem_filter, Finset.mem_range] at he
      have h1 := hprv e
      have hlt : digit n d k e < n := Verif.Common.digit_lt _ _ _ _ hn
      have g0 := h1.2 k
      rw [if_pos rfl] at g0
      have h2 := hnxt (prv e) (by rw [g0]; omega)
      apply digit_ext h2.1 he.1
      intro j hj
      have g2 := h2.2 ⟨j, hj⟩
      have g1 := h1.2 ⟨j, hj⟩
      simp only at g1 g2
      rw [g2]
      split
      · next hjk => subst hjk; rw [g0]; simp only; have := he.2; simp only at this; omega
      · next hjk => rw [g1, if_neg hjk]
    · intro e he
      rw [Finset.mem_filter, Finset.mem_range] at he
      have h1 := hnxt e he.2
      have hk' := h1.2 k
      rw [if_pos rfl] at hk'
      have ho : ∀ j : Fin d, j ≠ k → digit n d j (nxt e) = digit n d j e := fun j hj => by rw [h1.2 j, if_neg hj]
      have ht : centre n d a c (nxt e) k - c = centre n d a c e k + c := by
        unfold centre; rw [hk']; push_cast; ring
      have hco : ∀ j, j ≠ k → centre n d a c (nxt e) j = centre n d a c e j := by
        intro j hj; unfold centre; rw [ho j hj]
      rw [ht, faceSub_mul, faceSub_mul, ← hmatch e he.1 (nxt e) h1.1 hk' ho, ← faceSub_mul]
      unfold cell
      exact integral_faceSub_congr (hle e) (hle (nxt e)) k (fun j hj => by rw [hco j hj]) (fun j hj => by rw [hco j hj])
        (by ring) _ _
  rcases mul_eq_zero.mp hsum with h0 | h0
  · exact absurd h0 (by positivity)
  · exact h0

/-- Green's formula for a polynomial `U` and the field of nodal values `v`: no boundary terms when on every outer face
either `v` vanishes at the nodes or the normal derivative of `U` does. -/
theorem green (h : CubeCells n p a c mesh node) (U : MvPolynomial (Fin d) ℝ) {v : ℕ → ℝ} {V : ℕ → MvPolynomial (Fin d) ℝ}
    (hV : CellField mesh p v V)
    (hb : ∀ k : Fin d, ∀ t, t = a ∨ t = a + 2 * c * n →
      (∀ j < mesh.numNodes, mesh.coords j k = t → v j = 0) ∨ faceSub k t (pderiv k U) = 0) :
    ∑ e ∈ Finset.range (n ^ d), ∫ x in cell n d a c e, eval x (∑ k, pderiv k U * pderiv k (V e)) =
      ∑ e ∈ Finset.range (n ^ d), ∫ x in cell n d a c e, eval x (-(∑ k, pderiv k (pderiv k U)) * V e) := by
  have hflux : ∀ k : Fin d, ∑ e ∈ Finset.range (n ^ d), ∫ x in cell n d a c e, eval x (pderiv k (pderiv k U * V e)) = 0 := by
    intro k
    apply h.flux_zero k
    · intro e he e' he' hk ho
      exact h.face_match hV k he he' hk ho
    · intro e he hk
      rw [faceSub_mul]
      rcases hb k a (Or.inl rfl) with h1 | h1
      · rw [h.face_zero hV k he (Or.inl (by unfold centre; rw [hk]; push_cast; ring)) h1, mul_zero]
      · rw [h1, zero_mul]
    · intro e he hk
      rw [faceSub_mul]
      rcases hb k _ (Or.inr rfl) with h1 | h1
      · rw [h.face_zero hV k he (Or.inr (by
          unfold centre
          have : (n : ℝ) = (digit n d k e : ℝ) + 1 := by exact_mod_cast hk.symm
          rw [this]; ring)) h1, mul_zero]
      · rw [h1, zero_mul]
  have hint : ∀ e (P : MvPolynomial (Fin d) ℝ), IntegrableOn (fun x => eval x P) (cell n d a c e) :=
    fun e P => integrableOn_eval _ _ P
  have h1 : ∑ k : Fin d, ∑ e ∈ Finset.range (n ^ d), ∫ x in cell n d a c e, eval x (pderiv k (pderiv k U * V e)) = 0 :=
    Finset.sum_eq_zero fun k _ => hflux k
  rw [Finset.sum_comm] at h1
  rw [← sub_eq_zero, ← Finset.sum_sub_distrib, ← h1]
  refine Finset.sum_congr rfl fun e _ => ?_
  rw [← integral_sub (hint e _) (hint e _), ← integral_finsetSum _ (fun k _ => hint e _)]
  congr 1
  funext x
  rw [← map_sub, ← map_sum]
  congr 1
  simp only [pderiv_mul, Finset.sum_add_distrib]
  rw [← Finset.sum_mul]
  ring

end CubeCells

end Verif.Core
