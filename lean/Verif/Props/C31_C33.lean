import Verif.Prelude
import Verif.Model.Interpolation
import Mathlib.LinearAlgebra.Lagrange

/-!
# C31, C32, C33: barycentric interpolation and differentiation
-/

set_option linter.unusedSectionVars false

namespace Verif.Core

open Polynomial

section

variable {K : Type*} [Field K] [LinearOrder K]

/-! ### sums of extended numbers -/

theorem Ext.foldl_add_inf (s : Bool) (l : List (Ext K)) (acc : Ext K)
    (hl : ∀ t ∈ l, (∃ x, t = .fin x) ∨ t = .inf s)
    (hacc : acc = .inf s ∨ ((∃ x, acc = .fin x) ∧ Ext.inf s ∈ l)) : l.foldl Ext.add acc = .inf s := by
  induction l generalizing acc with
  | nil =>
    rcases hacc with h | h
    · exact h
    · simp at h
  | cons t l ih =>
    rw [List.foldl_cons]
    apply ih
    · exact fun u hu => hl u (List.mem_cons_of_mem _ hu)
    · rcases hl t List.mem_cons_self with ⟨x, rfl⟩ | rfl
      · rcases hacc with rfl | ⟨⟨y, rfl⟩, hm⟩
        · left; rfl
        · right
          refine ⟨⟨y + x, rfl⟩, ?_⟩
          simpa using hm
      · left
        rcases hacc with rfl | ⟨⟨y, rfl⟩, _⟩
        · simp [Ext.add]
        · rfl

theorem Ext.foldl_add_fin (l : List K) (acc : K) :
    (l.map Ext.fin).foldl Ext.add (.fin acc) = .fin (acc + l.sum) := by
  induction l generalizing acc with
  | nil => simp
  | cons x l ih =>
    rw [List.map_cons, List.foldl_cons, List.sum_cons]
    change List.foldl Ext.add (.fin (acc + x)) _ = _
    rw [ih, add_assoc]

/-- The value at a grid point: the Kronecker delta, through the infinities. -/
theorem C31_kronecker {n : ℕ} (w nodes : Fin n → K) (hw : ∀ i, w i ≠ 0) (hnodes : Function.Injective nodes)
    (k i : Fin n) : evaluate w nodes (nodes k) i = .fin (if i = k then 1 else 0) := by
  unfold evaluate
  by_cases h : i = k
  · subst h; simp
  · have hne : nodes k ≠ nodes i := fun hc => h (hnodes hc).symm
    rw [if_neg hne, if_neg h]
    have hsum : Ext.sum (baryTerms w nodes (nodes k)) = .inf (decide (w k < 0)) := by
      unfold Ext.sum
      apply Ext.foldl_add_inf
      · intro t ht
        unfold baryTerms at ht
        obtain ⟨j, _, rfl⟩ := List.mem_map.mp ht
        by_cases hj : j = k
        · subst hj
          right
          simp [Ext.div, hw j]
        · left
          refine ⟨w j / (nodes k - nodes j), ?_⟩
          have : nodes k - nodes j ≠ 0 := sub_ne_zero.mpr (fun hc => hj (hnodes hc).symm)
          simp [Ext.div, this]
      · right
        refine ⟨⟨0, rfl⟩, ?_⟩
        unfold baryTerms
        refine List.mem_map.mpr ⟨k, List.mem_finRange k, ?_⟩
        simp [Ext.div, hw k]
    rw [hsum]
    have : nodes k - nodes i ≠ 0 := sub_ne_zero.mpr hne
    simp [Ext.div, this]

/-- Interpolating at a grid point returns the nodal value there. -/
theorem C31_nodal_values {n q : ℕ} (w nodes : Fin n → K) (hw : ∀ i, w i ≠ 0) (hnodes : Function.Injective nodes)
    (evalpoints : Fin q → K) (M : Matrix (Fin q) (Fin n) K) (hM : interpMatrix1d w nodes evalpoints = some M)
    (u : Fin n → K) (a : Fin q) (k : Fin n) (ha : evalpoints a = nodes k) : M.mulVec u a = u k := by
  unfold interpMatrix1d at hM
  split at hM
  · simp only [Option.some.injEq] at hM
    subst hM
    simp only [Matrix.mulVec, dotProduct, Matrix.of_apply, ha, C31_kronecker w nodes hw hnodes]
    simp [Ext.toField?]
  · simp at hM

end

/-! ### exactness -/

section

variable {K : Type*} [Field K] [LinearOrder K]

/-- The weights are a common multiple of the true barycentric weights `1 / ∏_{j≠i} (x_i - x_j)`. -/
def TrueWeights {n : ℕ} (w nodes : Fin n → K) : Prop :=
  ∃ c : K, c ≠ 0 ∧ ∀ i, w i = c * ∏ j ∈ Finset.univ.erase i, (nodes i - nodes j)⁻¹

theorem TrueWeights.ne_zero {n : ℕ} {w nodes : Fin n → K} (h : TrueWeights w nodes)
    (hnodes : Function.Injective nodes) (i : Fin n) : w i ≠ 0 := by
  obtain ⟨c, hc, hw⟩ := h
  rw [hw]
  refine mul_ne_zero hc (Finset.prod_ne_zero_iff.mpr fun j hj => inv_ne_zero (sub_ne_zero.mpr ?_))
  exact fun hij => (Finset.mem_erase.mp hj).1 (hnodes hij).symm

theorem evaluate_eq_basis {n : ℕ} (w nodes : Fin n → K) (hw : TrueWeights w nodes)
    (hnodes : Function.Injective nodes) (x : K) (i : Fin n) :
    evaluate w nodes x i = .fin ((Lagrange.basis Finset.univ nodes i).eval x) := by
  by_cases hx : ∃ k, x = nodes k
  · obtain ⟨k, rfl⟩ := hx
    rw [C31_kronecker w nodes (hw.ne_zero hnodes) hnodes]
    congr 1
    by_cases h : i = k
    · subst h
      rw [if_pos rfl, Lagrange.eval_basis_self hnodes.injOn (Finset.mem_univ i)]
    · rw [if_neg h, Lagrange.eval_basis_of_ne h (Finset.mem_univ k)]
  · have hx' : ∀ k ∈ (Finset.univ : Finset (Fin n)), x ≠ nodes k := fun k _ hc => hx ⟨k, hc⟩
    have hne : ∀ k, x - nodes k ≠ 0 := fun k => sub_ne_zero.mpr (hx' k (Finset.mem_univ k))
    have hterms : baryTerms w nodes x = ((List.finRange n).map (fun j => w j / (x - nodes j))).map Ext.fin := by
      unfold baryTerms
      rw [List.map_map]
      apply List.map_congr_left
      intro j _
      simp [Ext.div, hne j]
    have hsum : Ext.sum (baryTerms w nodes x) = .fin (∑ j, w j / (x - nodes j)) := by
      unfold Ext.sum
      rw [hterms, Ext.foldl_add_fin, zero_add, Fin.sum_univ_def]
    obtain ⟨c, hc, hwc⟩ := hw
    have hS : ∑ j, w j / (x - nodes j) =
        c * ∑ j, Lagrange.nodalWeight Finset.univ nodes j * (x - nodes j)⁻¹ := by
      rw [Finset.mul_sum]
      apply Finset.sum_congr rfl
      intro j _
      rw [hwc j, div_eq_mul_inv, mul_assoc]
      rfl
    have hnz := Lagrange.sum_nodalWeight_mul_inv_sub_ne_zero hnodes.injOn hx' ⟨i, Finset.mem_univ i⟩
    have hS0 : ∑ j, w j / (x - nodes j) ≠ 0 := by rw [hS]; exact mul_ne_zero hc hnz
    unfold evaluate
    rw [if_neg (hx' i (Finset.mem_univ i)), hsum]
    simp only [Ext.div, hne i, if_false, hS0]
    congr 1
    rw [hS, hwc i, Lagrange.eval_basis_not_at_node (Finset.mem_univ i) (hx' i (Finset.mem_univ i))]
    have h1 : Polynomial.eval x (Lagrange.nodal Finset.univ nodes) *
        ∑ j, Lagrange.nodalWeight Finset.univ nodes j * (x - nodes j)⁻¹ = 1 := by
      have := Lagrange.eval_interpolate_not_at_node (s := Finset.univ) (v := nodes) (1 : Fin n → K) hx'
      rw [Lagrange.interpolate_one hnodes.injOn ⟨i, Finset.mem_univ i⟩, eval_one] at this
      simpa using this.symm
    have h2 : Polynomial.eval x (Lagrange.nodal Finset.univ nodes) =
        (∑ j, Lagrange.nodalWeight Finset.univ nodes j * (x - nodes j)⁻¹)⁻¹ := by
      exact eq_inv_of_mul_eq_one_left h1
    rw [h2]
    have : (∏ j ∈ Finset.univ.erase i, (nodes i - nodes j)⁻¹) = Lagrange.nodalWeight Finset.univ nodes i := rfl
    rw [this]
    field_simp

/-- The matrix exists (no infinities or NaN remain) and holds the Lagrange basis. -/
theorem interpMatrix1d_eq {n q : ℕ} (w nodes : Fin n → K) (hw : TrueWeights w nodes)
    (hnodes : Function.Injective nodes) (evalpoints : Fin q → K) :
    interpMatrix1d w nodes evalpoints =
      some (Matrix.of fun a i => (Lagrange.basis Finset.univ nodes i).eval (evalpoints a)) := by
  unfold interpMatrix1d
  rw [if_pos]
  · congr 1
    ext a i
    simp [evaluate_eq_basis w nodes hw hnodes, Ext.toField?]
  · intro a i
    rw [evaluate_eq_basis w nodes hw hnodes]
    simp [Ext.toField?]

theorem lagrange_expand {n : ℕ} {nodes : Fin n → K} (hnodes : Function.Injective nodes) (p : K[X])
    (hp : p.degree < n) : p = ∑ i, C (p.eval (nodes i)) * Lagrange.basis Finset.univ nodes i := by
  have := Lagrange.eq_interpolate (s := Finset.univ) (v := nodes) (f := p) hnodes.injOn (by simpa using hp)
  conv_lhs => rw [this]
  rfl

/-- Interpolation of a polynomial of degree less than the number of nodes is exact at every evaluation point. -/
theorem C32_exact {n q : ℕ} (w nodes : Fin n → K) (hw : TrueWeights w nodes) (hnodes : Function.Injective nodes)
    (evalpoints : Fin q → K) : ∃ M, interpMatrix1d w nodes evalpoints = some M ∧
      ∀ (p : K[X]), p.degree < n → ∀ a, M.mulVec (fun i => p.eval (nodes i)) a = p.eval (evalpoints a) := by
  refine ⟨_, interpMatrix1d_eq w nodes hw hnodes evalpoints, fun p hp a => ?_⟩
  conv_rhs => rw [lagrange_expand hnodes p hp]
  simp only [Matrix.mulVec, dotProduct, Matrix.of_apply, eval_finsetSum, eval_mul, eval_C]
  exact Finset.sum_congr rfl fun i _ => mul_comm _ _

/-- Rows sum to one. -/
theorem C32_rows_sum_one {n q : ℕ} (hn : 0 < n) (w nodes : Fin n → K) (hw : TrueWeights w nodes)
    (hnodes : Function.Injective nodes) (evalpoints : Fin q → K) (M : Matrix (Fin q) (Fin n) K)
    (hM : interpMatrix1d w nodes evalpoints = some M) (a : Fin q) : ∑ i, M a i = 1 := by
  obtain ⟨M', hM', h⟩ := C32_exact w nodes hw hnodes evalpoints
  rw [hM, Option.some.injEq] at hM'
  subst hM'
  have := h 1 (by rw [degree_one]; exact_mod_cast hn) a
  simpa [Matrix.mulVec, dotProduct] using this

/-- The differentiation matrix maps samples of a polynomial to the samples of its derivative. -/
theorem C33_exact {n : ℕ} (w nodes : Fin n → K) (hw : TrueWeights w nodes) (hnodes : Function.Injective nodes)
    (p : K[X]) (hp : p.degree < n) (i : Fin n) :
    (diffMatrix1d w nodes).mulVec (fun j => p.eval (nodes j)) i = (derivative p).eval (nodes i) := by
  have hw0 := hw.ne_zero hnodes
  obtain ⟨c, hc, hwc⟩ := hw
  -- derivatives of the basis at the nodes
  have hoff : ∀ j, i ≠ j →
      (derivative (Lagrange.basis Finset.univ nodes j)).eval (nodes i) = diffOff w nodes i j := by
    intro j hij
    have hb : Lagrange.basis Finset.univ nodes j = C (Lagrange.nodalWeight Finset.univ nodes j) *
        Lagrange.nodal (Finset.univ.erase j) nodes := by
      rw [Lagrange.basis_eq_prod_sub_inv_mul_nodal_div (Finset.mem_univ j),
        Lagrange.nodal_erase_eq_nodal_div (Finset.mem_univ j)]
    have hmem : i ∈ Finset.univ.erase j := Finset.mem_erase.mpr ⟨hij, Finset.mem_univ i⟩
    rw [hb, derivative_C_mul, eval_mul, eval_C, Lagrange.eval_nodal_derivative_eval_node_eq hmem]
    have hwi : w i = c * ((nodes i - nodes j)⁻¹ *
        (Polynomial.eval (nodes i) (Lagrange.nodal ((Finset.univ.erase j).erase i) nodes))⁻¹) := by
      rw [hwc i, Lagrange.eval_nodal, ← Finset.prod_inv_distrib, Finset.erase_right_comm,
        Finset.mul_prod_erase (Finset.univ.erase i) (fun k => (nodes i - nodes k)⁻¹)
          (Finset.mem_erase.mpr ⟨fun h => hij h.symm, Finset.mem_univ j⟩)]
    have hwj : w j = c * Lagrange.nodalWeight Finset.univ nodes j := hwc j
    have hsub : nodes i - nodes j ≠ 0 := sub_ne_zero.mpr (fun h => hij (hnodes h))
    have hE : Polynomial.eval (nodes i) (Lagrange.nodal ((Finset.univ.erase j).erase i) nodes) ≠ 0 := by
      intro h0
      apply hw0 i
      rw [hwi, h0]; simp
    unfold diffOff
    rw [if_pos hij, hwj, hwi]
    field_simp
  have hsum : ∑ j, (derivative (Lagrange.basis Finset.univ nodes j)).eval (nodes i) = 0 := by
    rw [← eval_finsetSum, ← derivative_sum, Lagrange.sum_basis hnodes.injOn ⟨i, Finset.mem_univ i⟩]
    simp
  have hdiag : (derivative (Lagrange.basis Finset.univ nodes i)).eval (nodes i) = - ∑ k, diffOff w nodes i k := by
    rw [← Finset.add_sum_erase _ _ (Finset.mem_univ i)] at hsum
    have h2 : ∑ k, diffOff w nodes i k = ∑ k ∈ Finset.univ.erase i,
        (derivative (Lagrange.basis Finset.univ nodes k)).eval (nodes i) := by
      rw [← Finset.add_sum_erase _ _ (Finset.mem_univ i)]
      have : diffOff w nodes i i = 0 := by simp [diffOff]
      rw [this, zero_add]
      apply Finset.sum_congr rfl
      intro k hk
      exact (hoff k (fun h => (Finset.mem_erase.mp hk).1 h.symm)).symm
    rw [h2]
    exact eq_neg_of_add_eq_zero_left hsum
  have hD : ∀ j, diffMatrix1d w nodes i j = (derivative (Lagrange.basis Finset.univ nodes j)).eval (nodes i) := by
    intro j
    unfold diffMatrix1d
    rw [Matrix.of_apply]
    by_cases hij : i = j
    · subst hij; rw [if_pos rfl, hdiag]
    · rw [if_neg hij, hoff j hij]
  conv_rhs => rw [lagrange_expand hnodes p hp]
  rw [derivative_sum, eval_finsetSum]
  simp only [Matrix.mulVec, dotProduct, hD, derivative_C_mul, eval_mul, eval_C]
  exact Finset.sum_congr rfl fun j _ => mul_comm _ _

/-- Rows of the differentiation matrix sum to zero (for any weights and nodes). -/
theorem C33_rows_sum_zero {n : ℕ} (w nodes : Fin n → K) (i : Fin n) : ∑ j, diffMatrix1d w nodes i j = 0 := by
  rw [← Finset.add_sum_erase _ _ (Finset.mem_univ i)]
  have h1 : diffMatrix1d w nodes i i = - ∑ k, diffOff w nodes i k := by simp [diffMatrix1d]
  have h2 : ∑ j ∈ Finset.univ.erase i, diffMatrix1d w nodes i j = ∑ k, diffOff w nodes i k := by
    rw [← Finset.add_sum_erase _ _ (Finset.mem_univ i)]
    have : diffOff w nodes i i = 0 := by simp [diffOff]
    rw [this, zero_add]
    apply Finset.sum_congr rfl
    intro k hk
    have hik : ¬ i = k := fun h => (Finset.mem_erase.mp hk).1 h.symm
    simp [diffMatrix1d, hik]
  rw [h1, h2, neg_add_cancel]

end

/-! ### the equispaced nodes meet the hypotheses -/

section

variable {K : Type*} [Field K] [LinearOrder K] [IsStrictOrderedRing K]

theorem ncNode_sub {n : ℕ} (i j : Fin n) : (ncNode n i - ncNode n j : K) =
    (((i : ℕ) : K) - ((j : ℕ) : K)) * (2 / ((n - 1 : ℕ) : K)) := by
  unfold ncNode; ring

theorem ncNode_injective (n : ℕ) : Function.Injective (ncNode n : Fin n → K) := by
  intro i j h
  have hn : 0 < n := by have := i.2; omega
  rcases Nat.lt_or_ge 1 n with h1 | h1
  · have h2 : (ncNode n i - ncNode n j : K) = 0 := sub_eq_zero.mpr h
    rw [ncNode_sub] at h2
    have h3 : ((n - 1 : ℕ) : K) ≠ 0 := by
      rw [Nat.cast_ne_zero]; omega
    rcases mul_eq_zero.mp h2 with h4 | h4
    · exact Fin.ext (by exact_mod_cast sub_eq_zero.mp h4)
    · exact absurd h4 (div_ne_zero two_ne_zero h3)
  · exact Fin.ext (by have := i.2; have := j.2; omega)

theorem prod_int_diffs (n : ℕ) (i : Fin (n + 1)) :
    ∏ j ∈ Finset.univ.erase i, (((i : ℕ) : K) - ((j : ℕ) : K)) =
      (-1) ^ (n - i) * ((i : ℕ).factorial : K) * ((n - i).factorial : K) := by
  have hi := i.2
  have h1 : ∏ j ∈ Finset.univ.erase i, (((i : ℕ) : K) - ((j : ℕ) : K)) =
      ∏ j ∈ (Finset.range (n + 1)).erase i, (((i : ℕ) : K) - (j : K)) := by
    refine Finset.prod_bij (fun j _ => (j : ℕ)) ?_ ?_ ?_ ?_
    · intro j hj
      rw [Finset.mem_erase] at hj ⊢
      exact ⟨fun h => hj.1 (Fin.ext h), Finset.mem_range.mpr j.2⟩
    · intro a _ b _ h; exact Fin.ext h
    · intro b hb
      rw [Finset.mem_erase, Finset.mem_range] at hb
      exact ⟨⟨b, hb.2⟩, Finset.mem_erase.mpr ⟨fun h => hb.1 (by rw [← h]), Finset.mem_univ _⟩, rfl⟩
    · intro a _; rfl
  rw [h1]
  generalize hiv : (i : ℕ) = m at hi ⊢
  clear h1 hiv
  -- split at `m`
  have hsplit : (Finset.range (n + 1)).erase m = Finset.range m ∪ Finset.Ico (m + 1) (n + 1) := by
    ext x
    simp only [Finset.mem_erase, Finset.mem_range, Finset.mem_union, Finset.mem_Ico]
    omega
  have hdis : Disjoint (Finset.range m) (Finset.Ico (m + 1) (n + 1)) := by
    rw [Finset.disjoint_left]
    intro x h1 h2
    rw [Finset.mem_range] at h1
    rw [Finset.mem_Ico] at h2
    omega
  rw [hsplit, Finset.prod_union hdis]
  have hA : ∏ j ∈ Finset.range m, ((m : K) - (j : K)) = (m.factorial : K) := by
    rw [← Finset.prod_range_reflect, ← Finset.prod_range_add_one_eq_factorial, Nat.cast_prod]
    apply Finset.prod_congr rfl
    intro x hx
    rw [Finset.mem_range] at hx
    have : ((m - 1 - x : ℕ) : K) = (m : K) - 1 - (x : K) := by
      rw [Nat.cast_sub (by omega), Nat.cast_sub (by omega)]; simp
    rw [this]; push_cast; ring
  have hB : ∏ j ∈ Finset.Ico (m + 1) (n + 1), ((m : K) - (j : K)) = (-1) ^ (n - m) * ((n - m).factorial : K) := by
    rw [Finset.prod_Ico_eq_prod_range, ← Finset.prod_range_add_one_eq_factorial, Nat.cast_prod]
    have : n + 1 - (m + 1) = n - m := by omega
    rw [this]
    have hc : ((-1 : K)) ^ (n - m) = ∏ _x ∈ Finset.range (n - m), (-1 : K) := by simp
    rw [hc, ← Finset.prod_mul_distrib]
    apply Finset.prod_congr rfl
    intro x _
    push_cast; ring
  rw [hA, hB]; ring

/-- The alternating binomial weights are the true weights of the equispaced nodes. -/
theorem C32_newton_cotes_weights (n : ℕ) : TrueWeights (ncWeight n : Fin n → K) (ncNode n) := by
  cases n with
  | zero => exact ⟨1, one_ne_zero, fun i => i.elim0⟩
  | succ n =>
    rcases Nat.eq_zero_or_pos n with rfl | hn
    · refine ⟨1, one_ne_zero, fun i => ?_⟩
      have : i = 0 := Fin.ext (by have := i.2; omega)
      subst this
      simp [ncWeight]
    · have hnK : (n : K) ≠ 0 := by rw [Nat.cast_ne_zero]; omega
      have hh : (2 / (n : K)) ≠ 0 := div_ne_zero two_ne_zero hnK
      have hfac : (n.factorial : K) ≠ 0 := by rw [Nat.cast_ne_zero]; exact Nat.factorial_ne_zero n
      refine ⟨(-1) ^ n * (n.factorial : K) * (2 / (n : K)) ^ n,
        mul_ne_zero (mul_ne_zero (pow_ne_zero _ (by norm_num)) hfac) (pow_ne_zero _ hh), fun i => ?_⟩
      have hi := i.2
      rw [Finset.prod_inv_distrib]
      have hprod : ∏ j ∈ Finset.univ.erase i, (ncNode (n + 1) i - ncNode (n + 1) j : K) =
          ((-1) ^ (n - i) * ((i : ℕ).factorial : K) * ((n - i).factorial : K)) * (2 / (n : K)) ^ n := by
        have : ∀ j ∈ Finset.univ.erase i, (ncNode (n + 1) i - ncNode (n + 1) j : K) =
            (((i : ℕ) : K) - ((j : ℕ) : K)) * (2 / (n : K)) := fun j _ => ncNode_sub i j
        rw [Finset.prod_congr rfl this, Finset.prod_mul_distrib, prod_int_diffs]
        congr 1
        rw [Finset.prod_const, Finset.card_erase_of_mem (Finset.mem_univ i), Finset.card_univ, Fintype.card_fin]
        rfl
      rw [hprod]
      unfold ncWeight
      have hch : ((n.choose i : ℕ) : K) * ((i : ℕ).factorial : K) * ((n - i).factorial : K) = (n.factorial : K) := by
        exact_mod_cast Nat.choose_mul_factorial_mul_factorial (by omega : (i : ℕ) ≤ n)
      have hf1 : ((i : ℕ).factorial : K) ≠ 0 := by rw [Nat.cast_ne_zero]; exact Nat.factorial_ne_zero _
      have hf2 : ((n - i).factorial : K) ≠ 0 := by rw [Nat.cast_ne_zero]; exact Nat.factorial_ne_zero _
      have hs : ((-1 : K)) ^ (n - i) * (-1) ^ (i : ℕ) = (-1) ^ n := by
        rw [← pow_add]; congr 1; omega
      have hsq : ((-1 : K)) ^ (n - (i : ℕ)) * (-1) ^ (n - (i : ℕ)) = 1 := by
        rw [← mul_pow]; norm_num
      have hs0 : ((-1 : K)) ^ (n - (i : ℕ)) ≠ 0 := pow_ne_zero _ (by norm_num)
      rw [Nat.add_sub_cancel]
      rw [eq_comm, mul_inv_eq_iff_eq_mul₀
        (mul_ne_zero (mul_ne_zero (mul_ne_zero hs0 hf1) hf2) (pow_ne_zero _ hh)), ← hch, ← hs]
      ring

/-- Exactness for the equispaced nodes with the binomial weights of the code: no hypotheses left. -/
theorem C32_newton_cotes {q : ℕ} (n : ℕ) (evalpoints : Fin q → K) :
    ∃ M, interpMatrix1d (ncWeight n) (ncNode n) evalpoints = some M ∧
      ∀ (p : K[X]), p.degree < n → ∀ a, M.mulVec (fun i => p.eval (ncNode n i)) a = p.eval (evalpoints a) :=
  C32_exact _ _ (C32_newton_cotes_weights n) (ncNode_injective n) evalpoints

theorem C33_newton_cotes (n : ℕ) (p : K[X]) (hp : p.degree < n) (i : Fin n) :
    (diffMatrix1d (ncWeight n) (ncNode n)).mulVec (fun j => p.eval (ncNode n j)) i =
      (derivative p).eval (ncNode n i) :=
  C33_exact _ _ (C32_newton_cotes_weights n) (ncNode_injective n) p hp i

end

/-- Three equispaced nodes: the hypotheses hold and the entry at a node goes through an infinity. -/
example : Function.Injective (ncNode 3 : Fin 3 → ℚ) ∧ TrueWeights (ncWeight 3 : Fin 3 → ℚ) (ncNode 3) ∧
    Ext.sum (baryTerms (ncWeight 3) (ncNode 3 : Fin 3 → ℚ) 0) = .inf true ∧
    evaluate (ncWeight 3) (ncNode 3 : Fin 3 → ℚ) 0 2 = .fin 0 := by
  refine ⟨ncNode_injective 3, C32_newton_cotes_weights 3, ?_, ?_⟩
  · decide +kernel
  · decide +kernel

end Verif.Core
