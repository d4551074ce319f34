import Verif.Lemmas.GaussQuad
import Verif.Props.C76
import Mathlib.Order.WellFounded

/-!
# The node tables as vectors
-/

namespace Verif.Core

open Polynomial

/-! ### lists as vectors -/

theorem vec_get {l : List ℝ} {m : ℕ} (h : l.length = m) (i : Fin m) : vec l m i = l[(i : ℕ)]'(by rw [h]; exact i.2) := by
  unfold vec
  rw [List.getD_eq_getElem _ _ (by rw [h]; exact i.2)]

theorem vec_mem {l : List ℝ} {m : ℕ} (h : l.length = m) (i : Fin m) : vec l m i ∈ l := by
  rw [vec_get h]; exact List.getElem_mem _

theorem mem_vec {l : List ℝ} {m : ℕ} (h : l.length = m) {x : ℝ} (hx : x ∈ l) : ∃ i, vec l m i = x := by
  obtain ⟨k, hk, rfl⟩ := List.getElem_of_mem hx
  exact ⟨⟨k, by omega⟩, vec_get h _⟩

theorem vec_strictMono {l : List ℝ} {m : ℕ} (h : l.length = m) (hl : l.Pairwise (· < ·)) : StrictMono (vec l m) := by
  intro i j hij
  rw [vec_get h, vec_get h]
  exact List.pairwise_iff_getElem.mp hl i j _ _ hij

theorem vec_range {l : List ℝ} {m : ℕ} (h : l.length = m) : Set.range (vec l m) = {x | x ∈ l} := by
  ext x
  constructor
  · rintro ⟨i, rfl⟩; exact vec_mem h i
  · intro hx; exact mem_vec h hx

theorem vec_symmetric {l : List ℝ} {m : ℕ} (h : l.length = m) (hl : l.Pairwise (· < ·)) (hs : ∀ x ∈ l, -x ∈ l) (i : Fin m) :
    vec l m (Fin.rev i) = - vec l m i := by
  have hm := vec_strictMono h hl
  have hg : StrictMono (fun i => - vec l m (Fin.rev i)) := by
    intro a b hab
    exact neg_lt_neg (hm (Fin.rev_lt_rev.mpr hab))
  have : Set.range (fun i => - vec l m (Fin.rev i)) = Set.range (vec l m) := by
    rw [vec_range h]
    ext x
    constructor
    · rintro ⟨i, rfl⟩; exact hs _ (vec_mem h _)
    · intro hx
      obtain ⟨i, hi⟩ := mem_vec h (hs x hx)
      exact ⟨Fin.rev i, by simp [hi]⟩
  have e := congrFun ((hg.range_inj hm).mp this) i
  linarith

theorem zip_sum {W l : List ℝ} {m : ℕ} (hW : W.length = m) (hl : l.length = m) (g : ℝ → ℝ → ℝ) :
    (List.zipWith g W l).sum = ∑ i, g (vec W m i) (vec l m i) := by
  have hz : (List.zipWith g W l).length = m := by simp [hW, hl]
  rw [← List.sum_ofFn]
  congr 1
  apply List.ext_getElem
  · simp [hz]
  · intro k h1 h2
    rw [List.getElem_zipWith, List.getElem_ofFn, vec_get hW, vec_get hl]

theorem vec_map {l : List ℝ} {m : ℕ} (h : l.length = m) (g : ℝ → ℝ) (i : Fin m) : vec (l.map g) m i = g (vec l m i) := by
  rw [vec_get h, vec_get (by rw [List.length_map, h]), List.getElem_map]

/-! ### roots -/

theorem sortedRoots_spec {p : ℝ[X]} (hp : p ≠ 0) : (sortedRoots p).length = p.roots.toFinset.card ∧
    (sortedRoots p).Pairwise (· < ·) ∧ ∀ x, x ∈ sortedRoots p ↔ p.eval x = 0 := by
  unfold sortedRoots
  refine ⟨Finset.length_sort _, (Finset.sortedLT_sort _).pairwise, fun x => ?_⟩
  rw [Finset.mem_sort, Multiset.mem_toFinset, mem_roots hp, IsRoot]

theorem jacobi11_eq (m : ℕ) : C ((m : ℝ) + 2) * jacobi11 m = 2 * derivative (legendre (m + 1)) := by
  induction m using Nat.strong_induction_on with
  | _ m ih =>
    match m with
    | 0 => simp [jacobi11, legendre, map_ofNat]
    | 1 =>
      have h := legendre_A 1
      rw [h]
      simp only [jacobi11, legendre, derivative_X, map_ofNat, Nat.cast_one, map_add, map_one]
      ring
    | n + 2 =>
      have h0 := ih n (by omega)
      have h1 := ih (n + 1) (by omega)
      rw [jacobi11]
      have a1 := legendre_A (n + 2)
      have b1 := legendre_B (n + 1)
      have a0 := legendre_A (n + 1)
      have b2 := legendre_B n
      have r := legendre_rec (n + 1)
      push_cast at a1 b1 a0 r
      -- recursion of the derivatives
      have key : ((n : ℝ[X]) + 2) * derivative (legendre (n + 3)) =
          (2 * (n : ℝ[X]) + 5) * X * derivative (legendre (n + 2)) - ((n : ℝ[X]) + 3) * derivative (legendre (n + 1)) := by
        linear_combination ((n : ℝ[X]) + 2) * a1 + ((n : ℝ[X]) + 3) * (-b1)
      have hcan : C (((n : ℝ) + 2) * (n + 4))⁻¹ * (((n : ℝ[X]) + 2) * ((n : ℝ[X]) + 4)) = 1 := by
        have e : ((n : ℝ[X]) + 2) * ((n : ℝ[X]) + 4) = C (((n : ℝ) + 2) * (n + 4)) := by simp [map_ofNat]
        rw [e, ← C_mul, inv_mul_cancel₀ (by positivity), C_1]
      have hC0 : C ((n : ℝ) + 2) = (n : ℝ[X]) + 2 := by simp [map_ofNat]
      have hC1 : C (((n + 1 : ℕ) : ℝ) + 2) = (n : ℝ[X]) + 3 := by
        push_cast; simp [map_ofNat]; ring
      have hC2 : C (((n + 2 : ℕ) : ℝ) + 2) = (n : ℝ[X]) + 4 := by
        push_cast; simp [map_ofNat]; ring
      have hC3 : C ((2 * (n : ℝ) + 5) * (n + 3)) = (2 * (n : ℝ[X]) + 5) * ((n : ℝ[X]) + 3) := by simp [map_ofNat]
      have hC4 : C (((n : ℝ) + 2) * (n + 3)) = ((n : ℝ[X]) + 2) * ((n : ℝ[X]) + 3) := by simp [map_ofNat]
      rw [hC0] at h0
      rw [hC1] at h1
      rw [hC2, hC3, hC4]
      have hpos : ((n : ℝ[X]) + 2) ≠ 0 := by
        rw [← hC0]; exact C_ne_zero.mpr (by positivity)
      apply mul_left_cancel₀ hpos
      change _ = ((n : ℝ[X]) + 2) * (2 * derivative (legendre (n + 3)))
      linear_combination ((2 * (n : ℝ[X]) + 5) * ((n : ℝ[X]) + 3) * X * jacobi11 (n + 1) -
        ((n : ℝ[X]) + 2) * ((n : ℝ[X]) + 3) * jacobi11 n) * hcan + (2 * (n : ℝ[X]) + 5) * X * h1 - ((n : ℝ[X]) + 3) * h0 -
        2 * key

theorem jacobi11_roots (m : ℕ) : (jacobi11 m).roots = (derivative (legendre (m + 1))).roots := by
  have h := congrArg roots (jacobi11_eq m)
  rw [roots_C_mul _ (by positivity : (m : ℝ) + 2 ≠ 0), show (2 : ℝ[X]) = C 2 by simp [map_ofNat], roots_C_mul _ (by norm_num)] at h
  exact h

/-- The list of Gauss-Lobatto-Legendre nodes. -/
theorem gll_list (N : ℕ) : ∃ l, gllNodes (N + 2) = some l ∧ l.length = N + 2 ∧ l.Pairwise (· < ·) ∧
    (∀ x, x ∈ l ↔ (lobatto (N + 1)).eval x = 0) ∧ ∃ t, l = -1 :: (t ++ [1]) := by
  have hs := sortedRoots_spec (derivative_ne_zero N)
  have hj : sortedRoots (jacobi11 N) = sortedRoots (derivative (legendre (N + 1))) := by
    unfold sortedRoots; rw [jacobi11_roots]
  have hif : (if N + 2 = 2 then [] else sortedRoots (jacobi11 (N + 2 - 2))) = sortedRoots (derivative (legendre (N + 1))) := by
    split
    · have : N = 0 := by omega
      subst this
      have h1 := hs.1
      rw [derivative_card] at h1
      exact (List.length_eq_zero_iff.mp h1).symm
    · rw [Nat.add_sub_cancel, hj]
  refine ⟨-1 :: (sortedRoots (derivative (legendre (N + 1))) ++ [1]), ?_, ?_, ?_, ?_, _, rfl⟩
  · unfold gllNodes
    rw [if_neg (by omega), hif]; simp
  · simp [hs.1, derivative_card]
  · rw [List.pairwise_cons]
    constructor
    · intro x hx
      rcases List.mem_append.mp hx with h | h
      · exact (derivative_root_inside ((hs.2.2 x).mp h)).1
      · rw [List.mem_singleton.mp h]; norm_num
    · rw [List.pairwise_append]
      refine ⟨hs.2.1, List.pairwise_singleton _ _, fun x hx y hy => ?_⟩
      rw [List.mem_singleton.mp hy]
      exact (derivative_root_inside ((hs.2.2 x).mp hx)).2
  · intro x
    unfold lobatto
    rw [List.mem_cons, List.mem_append, List.mem_singleton, hs.2.2, eval_mul, mul_eq_zero]
    have : (X ^ 2 - 1 : ℝ[X]).eval x = 0 ↔ x = -1 ∨ x = 1 := by
      rw [eval_sub, eval_pow, eval_X, eval_one]
      constructor
      · intro h
        have : (x + 1) * (x - 1) = 0 := by linear_combination h
        rcases mul_eq_zero.mp this with h | h
        · left; linarith
        · right; linarith
      · rintro (rfl | rfl) <;> norm_num
    rw [this]
    tauto

/-- The Gauss-Lobatto-Legendre nodes are nodes of an element. -/
theorem gll_elementNodes {N : ℕ} {l : List ℝ} (hlen : l.length = N + 2) (hl : l.Pairwise (· < ·))
    (hr : ∀ x, x ∈ l ↔ (lobatto (N + 1)).eval x = 0) (ht : ∃ t, l = -1 :: (t ++ [1])) :
    ElementNodes (p := N + 1) (vec l (N + 2)) := by
  refine ⟨?_, ?_, vec_strictMono hlen hl, fun i => vec_symmetric hlen hl (fun x hx => ?_) i⟩
  · obtain ⟨t, rfl⟩ := ht
    simp [vec]
  · obtain ⟨t, rfl⟩ := ht
    have hN : t.length = N := by simpa using hlen
    rw [vec_get hlen]
    simp [← hN]
  · rw [hr] at hx ⊢
    unfold lobatto at hx ⊢
    rw [eval_mul] at hx ⊢
    rw [derivative_neg]
    rcases mul_eq_zero.mp hx with h | h
    · have : (X ^ 2 - 1 : ℝ[X]).eval (-x) = 0 := by
        simp only [eval_sub, eval_pow, eval_X, eval_one] at h ⊢
        linear_combination h
      rw [this, zero_mul]
    · rw [h]; ring

theorem lobatto_derivative_ne {N : ℕ} {x : ℝ} (h : (lobatto (N + 1)).eval x = 0) : (legendre (N + 1)).eval x ≠ 0 := by
  intro h0
  unfold lobatto at h
  rw [eval_mul] at h
  rcases mul_eq_zero.mp h with h1 | h1
  · have h2 := legendre_root_inside h0
    simp only [eval_sub, eval_pow, eval_X, eval_one] at h1
    nlinarith [h2.1, h2.2]
  · exact legendre_simple h0 h1

theorem lobatto_self (N : ℕ) : integ (lobatto (N + 1) * derivative (legendre (N + 1))) < 0 := by
  have h3 := integ_parts (lobatto (N + 1)) (legendre (N + 1)) (by simp [lobatto]) (by simp [lobatto])
  unfold lobatto at h3
  rw [legendre_ode] at h3
  have e3 : ((N + 1 : ℕ) : ℝ[X]) * (((N + 1 : ℕ) : ℝ[X]) + 1) * legendre (N + 1) * legendre (N + 1) =
      C (((N : ℝ) + 1) * (N + 2)) * (legendre (N + 1) * legendre (N + 1)) := by
    simp [map_ofNat]; ring
  rw [e3, integ_C_mul] at h3
  have hnorm := legendre_norm (N + 1)
  have hp : 0 < integ (legendre (N + 1) * legendre (N + 1)) := by
    by_contra hc
    have : (2 * ((N + 1 : ℕ) : ℝ) + 1) * integ (legendre (N + 1) * legendre (N + 1)) ≤ 0 :=
      mul_nonpos_of_nonneg_of_nonpos (by positivity) (not_lt.mp hc)
    linarith
  have : 0 < ((N : ℝ) + 1) * (N + 2) * integ (legendre (N + 1) * legendre (N + 1)) := by positivity
  unfold lobatto
  linarith

end Verif.Core
