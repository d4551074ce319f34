import Verif.Model.Groups

/-! Invariants of the recursive subdivision of the devices. -/

namespace Verif.Comm

/-- The groups are intervals of devices that partition `[0, P)`. -/
structure GroupInv (P : ℕ) (n base : ℕ → ℕ) : Prop where
  base_le : ∀ i < P, base i ≤ i
  lt_end : ∀ i < P, i < base i + n i
  end_le : ∀ i < P, base i + n i ≤ P
  same : ∀ i < P, ∀ j, base i ≤ j → j < base i + n i → base j = base i ∧ n j = n i

theorem GroupInv.init (P : ℕ) : GroupInv P (fun _ => P) (fun _ => 0) where
  base_le := by simp
  lt_end := by simp
  end_le := by simp
  same := by simp

theorem GroupInv.next {P : ℕ} {n base : ℕ → ℕ} (h : GroupInv P n base) :
    GroupInv P (nextN n base) (nextBase n base) := by
  refine ⟨?_, ?_, ?_, ?_⟩
  · intro i hi
    have := h.base_le i hi
    unfold nextBase; split <;> omega
  · intro i hi
    have := h.lt_end i hi
    unfold nextBase nextN baseHi nLo at *; split <;> omega
  · intro i hi
    have := h.end_le i hi
    unfold nextBase nextN baseHi nLo at *; split <;> omega
  · intro i hi j hj1 hj2
    have h1 := h.base_le i hi
    have h2 := h.lt_end i hi
    have h3 := h.end_le i hi
    have hj : base i ≤ j ∧ j < base i + n i := by
      unfold nextBase nextN baseHi nLo at *
      split_ifs at hj1 hj2 <;> omega
    obtain ⟨e1, e2⟩ := h.same i hi j hj.1 hj.2
    unfold nextBase nextN baseHi nLo at *
    rw [e1, e2]
    split_ifs at * <;> constructor <;> omega

theorem GroupInv.n_pos {P : ℕ} {n base : ℕ → ℕ} (h : GroupInv P n base) {i : ℕ} (hi : i < P) :
    0 < n i := by
  have := h.base_le i hi
  have := h.lt_end i hi
  omega

theorem le_maxGlobal {P : ℕ} (n : ℕ → ℕ) {i : ℕ} (hi : i < P) : n i ≤ maxGlobal P n :=
  Finset.le_sup (f := n) (Finset.mem_range.2 hi)

/-- Group sizes of one level differ by at most one. -/
def Balanced (P : ℕ) (n : ℕ → ℕ) : Prop := ∀ i < P, ∀ j < P, n i ≤ n j + 1

theorem Balanced.next {P : ℕ} {n base : ℕ → ℕ} (h : Balanced P n) : Balanced P (nextN n base) := by
  intro i hi j hj
  have h1 := h i hi j hj
  have h2 := h j hj i hi
  unfold nextN nLo
  split <;> split <;> omega

/-- A self inverse map of `[0, P)` is accepted by `pshuffle`. -/
theorem pshuffle_ok {α : Type*} {P : ℕ} {perm : ℕ → ℕ} (x : ℕ → α)
    (h1 : ∀ i < P, perm i < P) (h2 : ∀ i < P, perm (perm i) = i) :
    pshuffle P perm x = .ok (fun i => x (perm i)) := by
  unfold pshuffle
  rw [if_pos]
  exact ⟨h1, fun j hj => ⟨perm j, h1 j hj, h2 j hj⟩⟩

end Verif.Comm
