import Verif.Lemmas.CubeSym

/-!
How many elements share a node of a periodic cube.
-/

namespace Verif.NS

open Verif.Core Verif.Common Verif.Spec Finset

variable {n d p over : ℕ} {a b c L : ℝ} {per : List ℕ} {bcs : List (String × BCType)} {cs : CubeStokes d} {vnode pnode : ℕ → ℕ → ℕ} {l : List ℝ}

namespace CubeSEM

theorem scatter_nodes (h : CubeSEM n d p a b per bcs cs vnode pnode l) (ul : ℕ → ℕ → ℝ) (j : ℕ) :
    cs.vmesh.scatter ul j = ∑ e ∈ range (n ^ d), ∑ i ∈ range cs.vmesh.nodesPerElem, if vnode e i = j then ul e i else 0 := by
  have hC := h.vcube.cells
  rw [Mesh.scatter_apply, hC.num]
  refine sum_congr rfl fun e he => sum_congr rfl fun i hi => ?_
  rw [mem_range] at he hi
  rw [hC.elem e he i hi, writePos_nat (hC.lt e he i hi), maskOf_natCast, one_mul]
  simp only [Option.some.injEq]

/-- A node that only one element holds. -/
theorem scatter_unique (h : CubeSEM n d p a b per bcs cs vnode pnode l) (ul : ℕ → ℕ → ℝ) {e i : ℕ} (he : e < n ^ d)
    (hi : i < cs.vmesh.nodesPerElem)
    (hu : ∀ e' < n ^ d, ∀ i' < cs.vmesh.nodesPerElem, vnode e' i' = vnode e i → e' = e ∧ i' = i) :
    cs.vmesh.scatter ul (vnode e i) = ul e i := by
  rw [h.scatter_nodes, sum_eq_single e, sum_eq_single i, if_pos rfl]
  · intro i' hi' hne
    rw [if_neg fun e1 => hne (hu e he i' (mem_range.mp hi') e1).2]
  · intro h1; exact absurd (mem_range.mpr hi) h1
  · intro e' he' hne
    refine sum_eq_zero fun i' hi' => ?_
    rw [if_neg fun e1 => hne (hu e' (mem_range.mp he') i' (mem_range.mp hi') e1).1]
  · intro h1; exact absurd (mem_range.mpr he) h1

theorem count_ge_one (h : CubeSEM n d p a b per bcs cs vnode pnode l) {j : ℕ} (hj : j < cs.vmesh.numNodes) :
    1 ≤ cs.vmesh.scatter (fun _ _ => 1) j := by
  obtain ⟨e, he, i, hi, rfl⟩ := h.vcube.cells.onto j hj
  rw [h.scatter_nodes]
  have h1 := single_le_sum (f := fun i' => if vnode e i' = vnode e i then (1 : ℝ) else 0)
    (fun i' _ => by split_ifs <;> norm_num) (mem_range.mpr hi)
  rw [if_pos rfl] at h1
  refine h1.trans ?_
  exact single_le_sum (f := fun e' => ∑ i' ∈ range cs.vmesh.nodesPerElem, if vnode e' i' = vnode e i then (1 : ℝ) else 0)
    (fun e' _ => sum_nonneg fun i' _ => by split_ifs <;> norm_num) (mem_range.mpr he)

theorem count_ge_two (h : CubeSEM n d p a b per bcs cs vnode pnode l) {e i e' i' : ℕ} (he : e < n ^ d) (hi : i < cs.vmesh.nodesPerElem)
    (he' : e' < n ^ d) (hi' : i' < cs.vmesh.nodesPerElem) (hne : e ≠ e') (hsame : vnode e i = vnode e' i') :
    2 ≤ cs.vmesh.scatter (fun _ _ => 1) (vnode e i) := by
  rw [h.scatter_nodes]
  have h1 : ∀ E ∈ ({e, e'} : Finset ℕ), (1 : ℝ) ≤ ∑ I ∈ range cs.vmesh.nodesPerElem, if vnode E I = vnode e i then (1 : ℝ) else 0 := by
    intro E hE
    obtain ⟨I, hI, hv⟩ : ∃ I < cs.vmesh.nodesPerElem, vnode E I = vnode e i := by
      rcases mem_insert.mp hE with rfl | hE
      · exact ⟨i, hi, rfl⟩
      · obtain rfl := mem_singleton.mp hE
        exact ⟨i', hi', hsame.symm⟩
    have := single_le_sum (f := fun I => if vnode E I = vnode e i then (1 : ℝ) else 0)
      (fun i' _ => by split_ifs <;> norm_num) (mem_range.mpr hI)
    rw [if_pos hv] at this
    exact this
  have h2 := sum_le_sum h1
  rw [sum_const, card_pair hne, nsmul_eq_mul] at h2
  have h3 : (2 : ℝ) = ((2 : ℕ) : ℝ) * 1 := by norm_num
  rw [h3]
  refine h2.trans (sum_le_sum_of_subset_of_nonneg
    (f := fun E => ∑ I ∈ range cs.vmesh.nodesPerElem, if vnode E I = vnode e i then (1 : ℝ) else 0) ?_
    fun E _ _ => sum_nonneg fun I _ => by split_ifs <;> norm_num)
  intro E hE
  rcases mem_insert.mp hE with rfl | hE
  · exact mem_range.mpr he
  · obtain rfl := mem_singleton.mp hE
    exact mem_range.mpr he'

/-- Positions in the elements of copies of a node: the same, or both on the surface. -/
theorem same_digits (h : CubeSEM n d p a b per bcs cs vnode pnode l) (hn : 1 ≤ n) (hab : a < b) {e i e' i' : ℕ} (he : e < n ^ d)
    (hi : i < cs.vmesh.nodesPerElem) (he' : e' < n ^ d) (hi' : i' < cs.vmesh.nodesPerElem)
    (hs : SameNode cs.vmesh (vnode e i) (vnode e' i')) (k : Fin d) :
    (digit n d k e = digit n d k e' ∧ digit (p + 1) d k i = digit (p + 1) d k i') ∨
      ((digit (p + 1) d k i = 0 ∨ digit (p + 1) d k i = p) ∧ (digit (p + 1) d k i' = 0 ∨ digit (p + 1) d k i' = p)) := by
  have hC := h.vcube.cells
  have hn0 : (0 : ℝ) < n := by exact_mod_cast hn
  have hw : 0 < (b - a) / (2 * (n : ℝ)) := by
    have : 0 < b - a := by linarith
    positivity
  obtain ⟨x, hx, hx1, hx2, hx3⟩ := h.axis hn he hi k
  obtain ⟨y, hy, hy1, hy2, hy3⟩ := h.axis hn he' hi' k
  have hlt : digit (p + 1) d k i < p + 1 := digit_lt _ _ _ _ (by omega)
  have hlt' : digit (p + 1) d k i' < p + 1 := digit_lt _ _ _ _ (by omega)
  have hval : ∀ r < p + 1, ∀ r' < p + 1, at0 cs.vmesh.grid.value r = at0 cs.vmesh.grid.value r' → r = r' := by
    intro r hr r' hr' hrr
    have e1 : r < cs.vmesh.grid.numPoints := by rw [hC.points]; exact hr
    have e2 : r' < cs.vmesh.grid.numPoints := by rw [hC.points]; exact hr'
    unfold at0 at hrr
    rw [dif_pos e1, dif_pos e2] at hrr
    simpa using hC.nodes hrr
  have hend : ∀ r < p + 1, (at0 cs.vmesh.grid.value r = -1 ∨ at0 cs.vmesh.grid.value r = 1) → r = 0 ∨ r = p := by
    rintro r hr (h1 | h1)
    · exact Or.inl (hval r hr 0 (by omega) (h1.trans hC.first.symm))
    · exact Or.inr (hval r hr p (by omega) (h1.trans hC.last.symm))
  have hor : cs.vmesh.coords (vnode e i) k = cs.vmesh.coords (vnode e' i') k ∨
      (cs.vmesh.coords (vnode e i) k = a ∧ cs.vmesh.coords (vnode e' i') k = b) ∨
      (cs.vmesh.coords (vnode e i) k = b ∧ cs.vmesh.coords (vnode e' i') k = a) := by
    rcases (h.same_iff (hC.lt e he i hi) (hC.lt e' he' i' hi')).mp hs k with h1 | ⟨_, h1⟩
    · exact Or.inl h1
    · exact Or.inr h1
  rcases axis_cases hw (digit_lt n d k e (by omega)) (digit_lt n d k e' (by omega)) ⟨hx1, hx2⟩ ⟨hy1, hy2⟩ a b
    (by field_simp; ring) hx3 hy3 hor with ⟨h1, h2⟩ | ⟨h1, h2⟩
  · exact Or.inl ⟨h1, hval _ hlt _ hlt' (by rw [← hx, ← hy, h2])⟩
  · exact Or.inr ⟨hend _ hlt (by rw [← hx]; exact h1), hend _ hlt' (by rw [← hy]; exact h2)⟩

/-- Elements at the two ends of an axis. -/
theorem end_digits (h : CubeSEM n d p a b per bcs cs vnode pnode l) (hn : 1 ≤ n) (hab : a < b) {e i : ℕ} (he : e < n ^ d)
    (hi : i < cs.vmesh.nodesPerElem) (k : Fin d) :
    (cs.vmesh.coords (vnode e i) k = a → digit n d k e = 0 ∧ digit (p + 1) d k i = 0) ∧
      (cs.vmesh.coords (vnode e i) k = b → digit n d k e + 1 = n ∧ digit (p + 1) d k i = p) := by
  have hC := h.vcube.cells
  have hn0 : (0 : ℝ) < n := by exact_mod_cast hn
  have hw : 0 < (b - a) / (2 * (n : ℝ)) := by
    have : 0 < b - a := by linarith
    positivity
  obtain ⟨x, hx, hx1, hx2, hx3⟩ := h.axis hn he hi k
  have hlt : digit (p + 1) d k i < p + 1 := digit_lt _ _ _ _ (by omega)
  have hE := digit_lt n d k e (by omega)
  have hE1 : ((digit n d k e : ℕ) : ℝ) + 1 ≤ n := by exact_mod_cast hE
  have hE0 : (0 : ℝ) ≤ (digit n d k e : ℕ) := Nat.cast_nonneg _
  have hval : ∀ r < p + 1, ∀ r' < p + 1, at0 cs.vmesh.grid.value r = at0 cs.vmesh.grid.value r' → r = r' := by
    intro r hr r' hr' hrr
    have e1 : r < cs.vmesh.grid.numPoints := by rw [hC.points]; exact hr
    have e2 : r' < cs.vmesh.grid.numPoints := by rw [hC.points]; exact hr'
    unfold at0 at hrr
    rw [dif_pos e1, dif_pos e2] at hrr
    simpa using hC.nodes hrr
  constructor
  · intro h1
    rw [hx3] at h1
    have h2 : 2 * ((digit n d k e : ℕ) : ℝ) + 1 + x = 0 := by
      have : (b - a) / (2 * (n : ℝ)) * (2 * ((digit n d k e : ℕ) : ℝ) + 1 + x) = 0 := by linarith
      exact (mul_eq_zero.mp this).resolve_left hw.ne'
    have h3 : ((digit n d k e : ℕ) : ℝ) = 0 := by linarith
    exact ⟨by exact_mod_cast h3, hval _ hlt 0 (by omega) (by rw [← hx, hC.first]; linarith)⟩
  · intro h1
    rw [hx3] at h1
    have hb : b - a = (b - a) / (2 * (n : ℝ)) * (2 * n) := by field_simp
    have h2 : 2 * ((digit n d k e : ℕ) : ℝ) + 1 + x = 2 * n := by
      have : (b - a) / (2 * (n : ℝ)) * (2 * ((digit n d k e : ℕ) : ℝ) + 1 + x) = (b - a) / (2 * (n : ℝ)) * (2 * n) := by linarith
      exact mul_left_cancel₀ hw.ne' this
    have h3 : ((digit n d k e : ℕ) : ℝ) + 1 = n := by linarith
    exact ⟨by exact_mod_cast h3, hval _ hlt p (by omega) (by rw [← hx, hC.last]; linarith)⟩

end CubeSEM

namespace CubeSEM

variable {cs : CubeStokes 2}

/-- Every copy of a node on the face `x = a`, between two corners, belongs to one element. -/
theorem count_seam (h : CubeSEM n 2 p a b per bcs cs vnode pnode l) (hn : 1 ≤ n) (hp : 2 ≤ p) (hab : a < b) {e i : ℕ} (he : e < n ^ 2)
    (hi : i < cs.vmesh.nodesPerElem) (he0 : digit n 2 0 e = 0) (hi0 : digit (p + 1) 2 0 i = 0) (hi1 : digit (p + 1) 2 1 i = 1) {j : ℕ}
    (hj : j < cs.vmesh.numNodes) (hs : SameNode cs.vmesh (vnode e i) j) : cs.vmesh.scatter (fun _ _ => 1) j = 1 := by
  have hC := h.vcube.cells
  have hnpe : cs.vmesh.nodesPerElem = (p + 1) ^ 2 := by unfold Mesh.nodesPerElem; rw [hC.points]
  obtain ⟨e1, he1, i1, hi1', rfl⟩ := hC.onto j hj
  refine h.scatter_unique (fun _ _ => 1) he1 hi1' fun e' he' i' hi' hv => ?_
  have hcoord : cs.vmesh.coords (vnode e i) 0 = a := by
    obtain ⟨x, hx, _, _, hx3⟩ := h.axis hn he hi (0 : Fin 2)
    have e1 : digit (p + 1) 2 ((0 : Fin 2) : ℕ) i = 0 := hi0
    have e2 : digit n 2 ((0 : Fin 2) : ℕ) e = 0 := he0
    rw [e1, hC.first] at hx
    rw [hx3, hx, e2]
    push_cast
    ring
  have hy : ∀ E < n ^ 2, ∀ I < cs.vmesh.nodesPerElem, SameNode cs.vmesh (vnode e i) (vnode E I) →
      digit n 2 1 E = digit n 2 1 e ∧ digit (p + 1) 2 1 I = 1 := by
    intro E hE I hI hsE
    rcases h.same_digits hn hab he hi hE hI hsE (1 : Fin 2) with ⟨h1, h2⟩ | ⟨h1, _⟩
    · exact ⟨h1.symm, h2.symm.trans hi1⟩
    · have e1 : digit (p + 1) 2 ((1 : Fin 2) : ℕ) i = 1 := hi1
      rw [e1] at h1
      omega
  obtain ⟨y1, y2⟩ := hy e1 he1 i1 hi1' hs
  obtain ⟨y3, y4⟩ := hy e' he' i' hi' (by rw [hv]; exact hs)
  have hx : cs.vmesh.coords (vnode e1 i1) 0 = a ∨ cs.vmesh.coords (vnode e1 i1) 0 = b := by
    rcases (h.same_iff (hC.lt e he i hi) hj).mp hs 0 with h1 | ⟨_, ⟨_, h1⟩ | ⟨_, h1⟩⟩
    · exact Or.inl (h1.symm.trans hcoord)
    · exact Or.inr h1
    · exact Or.inl h1
  have hends : digit n 2 0 e' = digit n 2 0 e1 ∧ digit (p + 1) 2 0 i' = digit (p + 1) 2 0 i1 := by
    have hd1 := h.end_digits hn hab he1 hi1' (0 : Fin 2)
    have hd2 := h.end_digits hn hab he' hi' (0 : Fin 2)
    rw [hv] at hd2
    rcases hx with hx | hx
    · have z1 := hd1.1 hx
      have z2 := hd2.1 hx
      exact ⟨z2.1.trans z1.1.symm, z2.2.trans z1.2.symm⟩
    · have z1 := hd1.2 hx
      have z2 := hd2.2 hx
      have : digit n 2 ((0 : Fin 2) : ℕ) e' = digit n 2 ((0 : Fin 2) : ℕ) e1 := by omega
      exact ⟨this, z2.2.trans z1.2.symm⟩
  constructor
  · refine digit_ext he' he1 fun k hk => ?_
    obtain rfl | rfl : k = 0 ∨ k = 1 := by omega
    · exact hends.1
    · rw [y3, y1]
  · refine digit_ext (by rw [hnpe] at hi'; exact hi') (by rw [hnpe] at hi1'; exact hi1') fun k hk => ?_
    obtain rfl | rfl : k = 0 ∨ k = 1 := by omega
    · exact hends.2
    · rw [y4, y2]

/-- The sum over elements of a constant, times the mass, does not have the symmetry of a periodic square. -/
theorem seam_not_sym (h : CubeSEM n 2 p a b per bcs cs vnode pnode l) (hn : 2 ≤ n) (hp : 3 ≤ p) (hab : a < b) (hb : CubeBCs 2 per bcs)
    (h0 : 0 ∈ per) (m : ℕ → ℝ) (hm : ∀ j < cs.vmesh.numNodes, 0 < m j) (hms : SymDual cs.vmesh (shiftElem n 2 ![1, 0]) m m) :
    ¬ SymDual cs.vmesh (shiftElem n 2 ![1, 0]) (fun j => cs.vmesh.scatter (fun _ _ => 1) j * m j)
      (fun j => cs.vmesh.scatter (fun _ _ => 1) j * m j) := by
  intro H
  have hn1 : 1 ≤ n := by omega
  have hC := h.vcube.cells
  have hnpe : cs.vmesh.nodesPerElem = (p + 1) ^ 2 := by unfold Mesh.nodesPerElem; rw [hC.points]
  obtain ⟨e, he, hed⟩ := digit_surj (fun _ : Fin 2 => (⟨0, by omega⟩ : Fin n))
  obtain ⟨i, hi, hid⟩ := digit_surj (![⟨0, by omega⟩, ⟨1, by omega⟩] : Fin 2 → Fin (p + 1))
  obtain ⟨i', hi', hid'⟩ := digit_surj (![⟨p, by omega⟩, ⟨1, by omega⟩] : Fin 2 → Fin (p + 1))
  rw [← hnpe] at hi hi'
  have hed0 : digit n 2 0 e = 0 := hed 0
  have hed1 : digit n 2 1 e = 0 := hed 1
  have hid0 : digit (p + 1) 2 0 i = 0 := hid 0
  have hid1 : digit (p + 1) 2 1 i = 1 := hid 1
  have hid0' : digit (p + 1) 2 0 i' = p := hid' 0
  have hid1' : digit (p + 1) 2 1 i' = 1 := hid' 1
  obtain ⟨τ, hτ⟩ : ∃ τ, τ = shiftElem n 2 ![1, 0] := ⟨_, rfl⟩
  have hl : τ e < n ^ 2 := by rw [hτ]; exact shiftElem_lt hn1 _ e
  have hτ0 : digit n 2 0 (τ e) = 1 := by
    have := shiftElem_digit hn1 (![1, 0] : Fin 2 → ℕ) e 0
    rw [hτ]
    refine this.trans ?_
    have e1 : digit n 2 ((0 : Fin 2) : ℕ) e = 0 := hed0
    rw [e1]
    exact Nat.mod_eq_of_lt (show 0 + 1 < n by omega)
  have hτ1 : digit n 2 1 (τ e) = 0 := by
    have := shiftElem_digit hn1 (![1, 0] : Fin 2 → ℕ) e 1
    rw [hτ]
    refine this.trans ?_
    have e1 : digit n 2 ((1 : Fin 2) : ℕ) e = 0 := hed1
    rw [e1]
    exact Nat.mod_eq_of_lt (show 0 + 0 < n by omega)
  have hshare : vnode (τ e) i = vnode e i' := by
    refine hC.shared _ hl _ hi _ he _ hi' fun k hk => ?_
    obtain rfl | rfl : k = 0 ∨ k = 1 := by omega
    · rw [hτ0, hid0, hed0, hid0']; ring
    · rw [hτ1, hid1, hed1, hid1']
  have hne : τ e ≠ e := fun e1 => by rw [e1, hed0] at hτ0; omega
  have hD2 := h.count_ge_two hl hi he hi' hne hshare
  have hjA := hC.lt e he i hi
  have hjB := hC.lt (τ e) hl i hi
  -- the values at the face inside
  have hA : cs.vmesh.exchange (fun j => cs.vmesh.scatter (fun _ _ => 1) j * m j) (vnode e i) = cs.vmesh.exchange m (vnode e i) := by
    rw [exchange_sum _ _ _ hjA, exchange_sum _ _ _ hjA]
    refine sum_congr rfl fun j hj => ?_
    split_ifs with hs
    · rw [h.count_seam hn1 (by omega) hab he hi hed0 hid0 hid1 (mem_range.mp hj) hs, one_mul]
    · rfl
  have hB : cs.vmesh.exchange m (vnode (τ e) i) + m (vnode (τ e) i) ≤
      cs.vmesh.exchange (fun j => cs.vmesh.scatter (fun _ _ => 1) j * m j) (vnode (τ e) i) := by
    rw [exchange_sum _ _ _ hjB, exchange_sum _ _ _ hjB]
    rw [← add_sum_erase _ _ (mem_range.mpr hjB), ← add_sum_erase _ _ (mem_range.mpr hjB)]
    rw [if_pos (SameNode.refl _ _), if_pos (SameNode.refl _ _)]
    have h1 : ∑ x ∈ (range cs.vmesh.numNodes).erase (vnode (τ e) i), (if SameNode cs.vmesh (vnode (τ e) i) x then m x else 0) ≤
        ∑ x ∈ (range cs.vmesh.numNodes).erase (vnode (τ e) i),
          if SameNode cs.vmesh (vnode (τ e) i) x then cs.vmesh.scatter (fun _ _ => 1) x * m x else 0 := by
      refine sum_le_sum fun x hx => ?_
      have hx' := mem_range.mp (mem_of_mem_erase hx)
      split_ifs
      · have := h.count_ge_one hx'
        have := mul_le_mul_of_nonneg_right this (hm x hx').le
        linarith
      · exact le_rfl
    have h2 := mul_le_mul_of_nonneg_right hD2 (hm _ hjB).le
    linarith
  have hmv := hms.moved e (by rw [hC.num]; exact he) i hi
  have hMv := H.moved e (by rw [hC.num]; exact he) i hi
  rw [← hτ, h.vnodeAt hl hi, h.vnodeAt he hi] at hmv hMv
  have := hm _ hjB
  linarith

end CubeSEM

end Verif.NS
