import Verif.Lemmas.CubeMesh

/-! Helper lemmas: positions of the nodes of a refined unit cube. -/

set_option linter.unusedSectionVars false

namespace Verif.Core

open Verif.Common Verif.Spec

/-! ### Interpolating an affine function -/

section
variable {K V : Type*} [Field K] [AddCommGroup V] [Module K V]

theorem ml_congr (w : ℕ → ℕ → K) : ∀ {I : List ℕ} {F G : List ℕ → V},
    (∀ cs : List ℕ, cs.length = I.length → (∀ x ∈ cs, x < 2) → F cs = G cs) → ml w I F = ml w I G
  | [], _, _, h => h [] rfl (by simp)
  | _ :: I, F, G, h => by
    have h0 : ml w I (fun cs => F (0 :: cs)) = ml w I (fun cs => G (0 :: cs)) := ml_congr w (fun cs hl hx =>
      h _ (by simp [hl]) (by simpa using hx))
    have h1 : ml w I (fun cs => F (1 :: cs)) = ml w I (fun cs => G (1 :: cs)) := ml_congr w (fun cs hl hx =>
      h _ (by simp [hl]) (by simpa using hx))
    simp only [ml, h0, h1]

theorem ml_apply {d : ℕ} (w : ℕ → ℕ → K) (k : Fin d) : ∀ (I : List ℕ) (F : List ℕ → Fin d → K),
    ml w I F k = ml w I (fun cs => F cs k)
  | [], _ => rfl
  | i :: I, F => by
    simp only [ml, Pi.add_apply, Pi.smul_apply]
    rw [ml_apply w k I, ml_apply w k I]

theorem ml_const (w : ℕ → ℕ → K) (hw : ∀ i, w i 0 + w i 1 = 1) (A : K) : ∀ I : List ℕ, ml w I (fun _ => A) = A
  | [] => rfl
  | i :: I => by
    simp only [ml, ml_const w hw A I, smul_eq_mul]
    rw [← add_mul, hw, one_mul]

theorem ml_affine (w : ℕ → ℕ → K) (hw : ∀ i, w i 0 + w i 1 = 1) (A h : K) : ∀ (I : List ℕ) (j : ℕ), j < I.length →
    ml w I (fun cs => A + (cs.getD j 0 : K) * h) = A + w (I.getD j 0) 1 * h
  | [], j, hj => by simp at hj
  | i :: I, 0, _ => by
    simp only [ml, List.getD_cons_zero, Nat.cast_zero, zero_mul, add_zero, Nat.cast_one, one_mul]
    rw [ml_const w hw, ml_const w hw, smul_eq_mul, smul_eq_mul]
    have := hw i
    linear_combination A * this
  | i :: I, j + 1, hj => by
    simp only [ml, List.getD_cons_succ]
    rw [ml_affine w hw A h I j (by simpa using hj), smul_eq_mul, smul_eq_mul, ← add_mul, hw, one_mul]

end

/-! ### Facets and positions inside elements -/

/-- The facet type of a point of an element with `p + 1` points per axis. -/
def fty (p : ℕ) (I : List ℕ) : List FacetDim := I.map (fun x => if x = 0 then .first else if x = p then .last else .inner)

/-- The indices of the point along the free axes of its facet, counted from the first interior point. -/
def inn (p : ℕ) : List ℕ → List ℕ
  | [] => []
  | x :: I => if x = 0 then inn p I else if x = p then inn p I else (x - 1) :: inn p I

theorem fty_length (p : ℕ) (I : List ℕ) : (fty p I).length = I.length := by simp [fty]

theorem inn_length (p : ℕ) (I : List ℕ) : (inn p I).length = (fty p I).count .inner := by
  induction I with
  | nil => rfl
  | cons x I ih =>
    unfold fty at ih ⊢
    rw [List.map_cons]
    by_cases h0 : x = 0
    · rw [if_pos h0, List.count_cons_of_ne (by decide)]
      simp only [inn, if_pos h0]; exact ih
    · by_cases h1 : x = p
      · rw [if_neg h0, if_pos h1, List.count_cons_of_ne (by decide)]
        simp only [inn, if_neg h0, if_pos h1]; exact ih
      · rw [if_neg h0, if_neg h1, List.count_cons_self]
        simp only [inn, if_neg h0, if_neg h1, List.length_cons, ih]

theorem inn_lt {p : ℕ} {I : List ℕ} (h : ∀ x ∈ I, x < p + 1) : ∀ x ∈ inn p I, x < p - 1 := by
  induction I with
  | nil => simp [inn]
  | cons x I ih =>
    have ih := ih (fun y hy => h y (List.mem_cons_of_mem _ hy))
    have hx := h x List.mem_cons_self
    by_cases h0 : x = 0
    · simp only [inn, if_pos h0]; exact ih
    · by_cases h1 : x = p
      · simp only [inn, if_neg h0, if_pos h1]; exact ih
      · simp only [inn, if_neg h0, if_neg h1]
        intro y hy
        rcases List.mem_cons.mp hy with rfl | hy
        · omega
        · exact ih y hy

theorem expand_fty {p : ℕ} {I : List ℕ} (h : ∀ x ∈ I, x < p + 1) : expand (p + 1) 1 (fty p I) (inn p I) = I := by
  induction I with
  | nil => rfl
  | cons x I ih =>
    have ih := ih (fun y hy => h y (List.mem_cons_of_mem _ hy))
    have hx := h x List.mem_cons_self
    unfold fty at ih ⊢
    rw [List.map_cons]
    by_cases h0 : x = 0
    · rw [if_pos h0]
      simp only [inn, if_pos h0, expand, ih]
      rw [h0]
    · by_cases h1 : x = p
      · rw [if_neg h0, if_pos h1]
        simp only [inn, if_neg h0, if_pos h1, expand, ih]
        rw [h1]; simp
      · rw [if_neg h0, if_neg h1]
        simp only [inn, if_neg h0, if_neg h1, expand, ih]
        congr 1; omega

/-- The point is at place `ravel (p - 1) (inn p I)` of the slice of its facet. -/
theorem slice_fty {p : ℕ} (hp : 1 ≤ p) {I : List ℕ} (h : ∀ x ∈ I, x < p + 1) :
    ravel (p - 1) (inn p I) < (p - 1) ^ (fty p I).count .inner ∧
    (facetSlice (p + 1) true (fty p I))[ravel (p - 1) (inn p I)]? = some I := by
  have hlt := inn_lt h
  have hr := ravel_lt hlt
  rw [inn_length] at hr
  refine ⟨hr, ?_⟩
  have hm : p + 1 - 2 = p - 1 := by omega
  rw [slice_true, hm, List.getElem?_map, List.getElem?_range hr, Option.map_some, ← inn_length, digits_ravel hlt,
    expand_fty h]

theorem axis_cases {p e x e' x' : ℕ} (hp : 1 ≤ p) (hx : x < p + 1) (hx' : x' < p + 1) (h : e * p + x = e' * p + x') :
    (e = e' ∧ x = x') ∨ (e' = e + 1 ∧ x = p ∧ x' = 0) ∨ (e = e' + 1 ∧ x = 0 ∧ x' = p) := by
  rcases lt_trichotomy e e' with hlt | rfl | hlt
  · obtain ⟨t, rfl⟩ := Nat.exists_eq_add_of_lt hlt
    right; left
    have : (e + t + 1) * p = e * p + t * p + p := by ring
    have ht : t * p = 0 := by omega
    have ht0 : t = 0 := by
      rcases Nat.mul_eq_zero.mp ht with h | h
      · exact h
      · omega
    subst ht0
    refine ⟨by omega, by omega, by omega⟩
  · left; exact ⟨rfl, by omega⟩
  · obtain ⟨t, rfl⟩ := Nat.exists_eq_add_of_lt hlt
    right; right
    have : (e' + t + 1) * p = e' * p + t * p + p := by ring
    have ht : t * p = 0 := by omega
    have ht0 : t = 0 := by
      rcases Nat.mul_eq_zero.mp ht with h | h
      · exact h
      · omega
    subst ht0
    refine ⟨by omega, by omega, by omega⟩

/-- Index of a point of the refined grid along each axis. -/
def gidx (p : ℕ) (E I : List ℕ) : List ℕ := List.zipWith (fun e i => e * p + i) E I

/-- Equal positions on the refined grid lie on the same facet of the coarse grid. -/
theorem same_facet {p : ℕ} (hp : 1 ≤ p) : ∀ {E I E' I' : List ℕ}, E.length = I.length → E'.length = I'.length →
    E.length = E'.length → (∀ x ∈ I, x < p + 1) → (∀ x ∈ I', x < p + 1) → gidx p E I = gidx p E' I' →
    inn p I = inn p I' ∧ sub (E.map cellPair) (fty p I) = sub (E'.map cellPair) (fty p I') ∧
      ((E = E' ∧ I = I') ∨ (fty p I).count .inner < I.length)
  | [], [], [], [], _, _, _, _, _, _ => ⟨rfl, rfl, Or.inl ⟨rfl, rfl⟩⟩
  | e :: E, x :: I, e' :: E', x' :: I', h1, h2, h3, hI, hI', hg => by
    unfold gidx at hg
    rw [List.zipWith_cons_cons, List.zipWith_cons_cons] at hg
    obtain ⟨hg1, hg2⟩ := List.cons.inj hg
    have hx := hI x List.mem_cons_self
    have hx' := hI' x' List.mem_cons_self
    obtain ⟨i1, i2, i3⟩ := same_facet hp (E := E) (I := I) (E' := E') (I' := I') (by simpa using h1) (by simpa using h2)
      (by simpa using h3) (fun y hy => hI y (List.mem_cons_of_mem _ hy)) (fun y hy => hI' y (List.mem_cons_of_mem _ hy)) hg2
    have hcl : ∀ (f : FacetDim), f ≠ .inner → (f :: fty p I).count .inner < (x :: I).length := by
      intro f hf
      rw [List.count_cons_of_ne hf, List.length_cons, ← fty_length p I]
      exact Nat.lt_succ_of_le List.count_le_length
    have hp0 : p ≠ 0 := by omega
    have hp0' : ¬ 0 = p := by omega
    rcases axis_cases hp hx hx' hg1 with ⟨rfl, rfl⟩ | ⟨rfl, rfl, rfl⟩ | ⟨rfl, rfl, rfl⟩
    · refine ⟨?_, ?_, ?_⟩
      · simp only [inn, i1]
      · unfold fty at i2 ⊢
        simp only [List.map_cons, sub, List.headD_cons, List.tail_cons, i2]
        have : (cellPair e).length = 2 := rfl
        simp only [if_pos this]
      · rcases i3 with ⟨rfl, rfl⟩ | h
        · left; exact ⟨rfl, rfl⟩
        · right
          unfold fty at h ⊢
          rw [List.map_cons, List.count_cons, List.length_cons]
          have : ∀ c : Prop, ∀ _ : Decidable c, (if c then 1 else 0) ≤ 1 := fun c _ => by split <;> omega
          exact Nat.lt_of_le_of_lt (Nat.add_le_add_left (this _ _) _) (by omega)
    · refine ⟨?_, ?_, ?_⟩
      · simp only [inn, hp0, if_false, if_true, i1]
      · unfold fty at i2 ⊢
        simp [sub, cellPair, axisSlice, hp0, i2]
      · right
        unfold fty at hcl ⊢
        rw [List.map_cons, if_neg hp0, if_pos rfl]
        exact hcl _ (by decide)
    · refine ⟨?_, ?_, ?_⟩
      · simp only [inn, hp0, if_false, if_true, i1]
      · unfold fty at i2 ⊢
        simp [sub, cellPair, axisSlice, hp0, i2]
      · right
        unfold fty at hcl ⊢
        rw [List.map_cons, if_pos rfl]
        exact hcl _ (by decide)

end Verif.Core
