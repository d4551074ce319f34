import Verif.Lemmas.Cartesian

/-!
# C22: `unit_cube_mesh` is the complete grid
-/

namespace Verif.Common

open Verif.Spec

theorem facetElements_inner (n d : ℕ) : facetElements n (List.replicate d .inner) =
    (cartesian (List.replicate d ((List.range n).map (fun i => [i, i + 1])))).map
      (fun et => (cartesian et).map (ravel (n + 1))) := by
  unfold facetElements
  rw [List.map_replicate]
  simp only [dimToElem, elements1d_eq]

theorem zipWith_add_lt {n : ℕ} {I b : List ℕ} (hI : ∀ x ∈ I, x < n) (hb : ∀ x ∈ b, x < 2) :
    ∀ x ∈ List.zipWith (· + ·) I b, x < n + 1 := by
  induction I generalizing b with
  | nil => simp
  | cons i I ih =>
    cases b with
    | nil => simp
    | cons c b =>
      intro x hx
      rw [List.zipWith_cons_cons, List.mem_cons] at hx
      rcases hx with rfl | hx
      · have := hI i List.mem_cons_self
        have := hb c List.mem_cons_self
        omega
      · exact ih (fun y hy => hI y (List.mem_cons_of_mem _ hy))
          (fun y hy => hb y (List.mem_cons_of_mem _ hy)) x hx

/-- There are `(n+1)^d` nodes; node `k` sits at `a + i_j (b - a) / n` where `i` is the multi index of `k`. -/
theorem C22_nodes {K : Type*} [Field K] (n d : ℕ) (a b : K) (per : List ℕ) :
    (unitCubeMesh n d a b per).nodeCoords.length = (n + 1) ^ d ∧
    ∀ k < (n + 1) ^ d, (unitCubeMesh n d a b per).nodeCoords[k]? =
      some ((digits (n + 1) d k).map (fun i : ℕ => a + (i : K) * ((b - a) / (n : K)))) := by
  constructor
  · simp [unitCubeMesh, gridCoords, linspace, cartesian_length]
  · intro k hk
    exact getElem?_cartesian_replicate (n + 1) d _ hk

/-- There are `n^d` elements; corner `c` of element `e` is the node whose multi index is that of `e` plus the
binary digits of `c`; the corners of an element are distinct. -/
theorem C22_elements {K : Type*} [Field K] (n d : ℕ) (a b : K) (per : List ℕ) :
    (unitCubeMesh n d a b per).elements.length = n ^ d ∧
    ∀ e < n ^ d, ∃ el, (unitCubeMesh n d a b per).elements[e]? = some el ∧ el.length = 2 ^ d ∧ el.Nodup ∧
      ∀ c < 2 ^ d, ∃ x, el[c]? = some x ∧ x < (n + 1) ^ d ∧
        digits (n + 1) d x = List.zipWith (· + ·) (digits n d e) (digits 2 d c) := by
  have hE : (unitCubeMesh n d a b per).elements = facetElements n (List.replicate d .inner) := rfl
  rw [hE, facetElements_inner]
  refine ⟨by simp [cartesian_length], fun e he => ?_⟩
  have hn : 0 < n ∨ d = 0 := by
    rcases Nat.eq_zero_or_pos n with h | h
    · right
      by_contra hd
      rw [h, zero_pow hd] at he
      omega
    · exact Or.inl h
  have hdl := digits_length n d e
  have hdlt : ∀ x ∈ digits n d e, x < n := by
    intro x hx
    rcases hn with h | h
    · exact mem_digits_lt h hx
    · subst h; simp [digits] at hx
  have hcorner : ∀ c < 2 ^ d, (cartesian ((digits n d e).map (fun i => [i, i + 1])))[c]? =
      some (List.zipWith (· + ·) (digits n d e) (digits 2 d c)) := by
    intro c hc
    have := getElem?_cartesian_pairs (digits n d e) (c := c) (by rw [hdl]; exact hc)
    rw [hdl] at this
    exact this
  refine ⟨(cartesian ((digits n d e).map (fun i => [i, i + 1]))).map (ravel (n + 1)), ?_, ?_, ?_, ?_⟩
  · rw [List.getElem?_map, getElem?_cartesian_replicate n d _ he]
    rfl
  · rw [List.length_map, cartesian_length, List.map_map]
    simp [Function.comp_def, digits_length]
  · have hlt : ∀ t ∈ cartesian ((digits n d e).map (fun i => [i, i + 1])), t.length = d ∧ ∀ x ∈ t, x < n + 1 := by
      intro t ht
      obtain ⟨c, hc⟩ := List.mem_iff_getElem?.mp ht
      have hcl : c < 2 ^ d := by
        have := (List.getElem?_eq_some_iff.mp hc).1
        rw [cartesian_length, List.map_map] at this
        simpa [Function.comp_def, digits_length] using this
      rw [hcorner c hcl, Option.some.injEq] at hc
      rw [← hc]
      exact ⟨by simp [digits_length], zipWith_add_lt hdlt (fun x hx => mem_digits_lt (by norm_num) hx)⟩
    refine List.Nodup.map_on ?_ (cartesian_nodup ?_)
    · intro s hs t ht hst
      exact ravel_inj (hlt s hs).2 (hlt t ht).2 ((hlt s hs).1.trans (hlt t ht).1.symm) hst
    · intro l hl
      obtain ⟨i, _, rfl⟩ := List.mem_map.mp hl
      simp
  · intro c hc
    have hz := zipWith_add_lt hdlt (b := digits 2 d c) (fun x hx => mem_digits_lt (by norm_num) hx)
    have hzl : (List.zipWith (· + ·) (digits n d e) (digits 2 d c)).length = d := by
      simp [digits_length]
    refine ⟨ravel (n + 1) (List.zipWith (· + ·) (digits n d e) (digits 2 d c)), ?_, ?_, ?_⟩
    · rw [List.getElem?_map, hcorner c hc]; rfl
    · have := ravel_lt hz
      rw [hzl] at this
      exact this
    · have := digits_ravel hz
      rw [hzl] at this
      exact this

/-- Every node belongs to an element. -/
theorem C22_every_node_used {K : Type*} [Field K] (n d : ℕ) (hn : 1 ≤ n) (a b : K) (per : List ℕ) :
    ∀ k < (n + 1) ^ d, ∃ el ∈ (unitCubeMesh n d a b per).elements, k ∈ el := by
  intro k hk
  have hE : (unitCubeMesh n d a b per).elements = facetElements n (List.replicate d .inner) := rfl
  rw [hE, facetElements_inner]
  set I := digits (n + 1) d k with hI
  have hIlt : ∀ x ∈ I, x < n + 1 := fun x hx => mem_digits_lt (by omega) hx
  have hIlen : I.length = d := digits_length _ _ _
  -- the element with lower corner `min i (n - 1)`
  refine ⟨(cartesian (I.map (fun i => [min i (n - 1), min i (n - 1) + 1]))).map (ravel (n + 1)), ?_, ?_⟩
  · refine List.mem_map.mpr ⟨I.map (fun i => [min i (n - 1), min i (n - 1) + 1]), ?_, rfl⟩
    rw [mem_cartesian, ← hIlen]
    clear_value I
    clear hIlen hI hIlt
    induction I with
    | nil => exact List.Forall₂.nil
    | cons i I ih =>
      rw [List.map_cons, List.length_cons, List.replicate_succ]
      refine List.Forall₂.cons (List.mem_map.mpr ⟨min i (n - 1), List.mem_range.mpr (by omega), rfl⟩) ih
  · refine List.mem_map.mpr ⟨I, ?_, by rw [hI]; exact ravel_digits hk⟩
    rw [mem_cartesian]
    clear_value I
    clear hIlen hI
    induction I with
    | nil => exact List.Forall₂.nil
    | cons i I ih =>
      rw [List.map_cons]
      refine List.Forall₂.cons ?_ (ih (fun x hx => hIlt x (List.mem_cons_of_mem _ hx)))
      have := hIlt i List.mem_cons_self
      simp only [List.mem_cons, List.not_mem_nil, or_false]
      omega

example : (unitCubeMesh (K := ℚ) 2 2 0 1 []).elements =
    [[0, 1, 3, 4], [1, 2, 4, 5], [3, 4, 6, 7], [4, 5, 7, 8]] := by decide

end Verif.Common
