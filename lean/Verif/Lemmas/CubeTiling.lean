import Mathlib.MeasureTheory.Constructions.Pi
import Verif.Lemmas.CubeWeak

/-!
# The elements of a cube grid tile the cube, fields are continuous
-/

namespace Verif.Core

open Verif.Spec MeasureTheory MvPolynomial

variable {n d p : ℕ} {a c : ℝ} {mesh : Mesh ℝ d} {node : ℕ → ℕ → ℕ}

/-- The box between the first and the last node of an element. -/
def elementBox (mesh : Mesh ℝ d) (e : ℕ) : Set (Fin d → ℝ) :=
  Set.Icc (mesh.coords (mesh.elements e 0).toNat) (mesh.coords (mesh.elements e (mesh.nodesPerElem - 1)).toNat)

theorem digit_at_zero (b : ℕ) (k : ℕ) : digit b d k 0 = 0 := by simp [digit]

theorem digit_at_last {b : ℕ} (hb : 0 < b) (k : Fin d) : digit b d k (b ^ d - 1) = b - 1 := by
  have hk := k.2
  unfold digit
  have h1 : b ^ d = b ^ (d - 1 - (k : ℕ)) * (b * b ^ (k : ℕ)) := by
    rw [← pow_succ', ← pow_add]; congr 1; omega
  have hA : 0 < b ^ (d - 1 - (k : ℕ)) := Nat.pow_pos hb
  have hB : 0 < b ^ (k : ℕ) := Nat.pow_pos hb
  have hAB : 0 < b * b ^ (k : ℕ) := Nat.mul_pos hb hB
  have h2 : b ^ d - 1 = (b ^ (d - 1 - (k : ℕ)) - 1) + b ^ (d - 1 - (k : ℕ)) * (b * b ^ (k : ℕ) - 1) := by
    rw [h1, Nat.mul_sub, Nat.mul_one]
    have : b ^ (d - 1 - (k : ℕ)) ≤ b ^ (d - 1 - (k : ℕ)) * (b * b ^ (k : ℕ)) := Nat.le_mul_of_pos_right _ hAB
    omega
  rw [h2, Nat.add_mul_div_left _ _ hA, Nat.div_eq_of_lt (by omega), Nat.zero_add]
  have h3 : b * b ^ (k : ℕ) - 1 = (b - 1) + b * (b ^ (k : ℕ) - 1) := by
    rw [Nat.mul_sub, Nat.mul_one]
    have : b ≤ b * b ^ (k : ℕ) := Nat.le_mul_of_pos_right _ hB
    omega
  rw [h3, Nat.add_mul_mod_self_left, Nat.mod_eq_of_lt (by omega)]

namespace CubeCells

theorem box (h : CubeCells n p a c mesh node) {e : ℕ} (he : e < n ^ d) : elementBox mesh e = cell n d a c e := by
  have hpos : 0 < mesh.nodesPerElem := by rw [h.npe]; positivity
  have h0 := h.coords e he 0 hpos
  have h1 := h.coords e he (mesh.nodesPerElem - 1) (by omega)
  unfold elementBox cell
  rw [h.elem e he 0 hpos, h.elem e he (mesh.nodesPerElem - 1) (by omega), Int.toNat_natCast, Int.toNat_natCast]
  congr 1
  · funext k
    rw [h0 k, h.grid, digit_at_zero, h.first]; ring
  · funext k
    rw [h1 k, h.grid, h.npe, digit_at_last (by omega), show p + 1 - 1 = p by omega, h.last]; ring

/-- The cells cover the cube. -/
theorem cover (hn : 1 ≤ n) (hc : 0 < c) : ⋃ e : Fin (n ^ d), cell n d a c (e : ℕ) =
    Set.Icc (fun _ : Fin d => a) (fun _ => a + 2 * c * n) := by
  ext x
  simp only [Set.mem_iUnion, Set.mem_Icc, Pi.le_def, cell]
  constructor
  · rintro ⟨e, h1, h2⟩
    constructor
    · intro k
      have := h1 k
      simp only [centre] at this
      have h3 : (0 : ℝ) ≤ digit n d k e := by positivity
      have h4 := mul_nonneg hc.le h3
      linarith
    · intro k
      have := h2 k
      simp only [centre] at this
      have hlt : digit n d k e < n := Verif.Common.digit_lt _ _ _ _ hn
      have h3 : (digit n d k e : ℝ) + 1 ≤ n := by exact_mod_cast hlt
      have h4 := mul_le_mul_of_nonneg_left h3 hc.le
      linarith
  · rintro ⟨h1, h2⟩
    have hex : ∀ k, ∃ g < n, a + 2 * c * g ≤ x k ∧ x k ≤ a + 2 * c * (g + 1) := by
      intro k
      have hx0 : 0 ≤ (x k - a) / (2 * c) := div_nonneg (by have := h1 k; linarith) (by linarith)
      have hxn : (x k - a) / (2 * c) ≤ n := by
        rw [div_le_iff₀ (by linarith)]; have := h2 k; linarith
      have hxe : x k = a + 2 * c * ((x k - a) / (2 * c)) := by field_simp; ring
      generalize (x k - a) / (2 * c) = y at hx0 hxn hxe
      rcases lt_or_ge y n with hy | hy
      · refine ⟨⌊y⌋₊, (Nat.floor_lt hx0).mpr hy, ?_, ?_⟩
        · have := mul_le_mul_of_nonneg_left (Nat.floor_le hx0) hc.le
          rw [hxe]; linarith
        · have := mul_le_mul_of_nonneg_left (Nat.lt_floor_add_one y).le hc.le
          rw [hxe]; linarith
      · have hyn : y = n := le_antisymm hxn hy
        refine ⟨n - 1, by omega, ?_, ?_⟩
        · rw [hxe, hyn]
          have : ((n - 1 : ℕ) : ℝ) ≤ n := by exact_mod_cast Nat.sub_le n 1
          have := mul_le_mul_of_nonneg_left this hc.le
          linarith
        · rw [hxe, hyn]
          have : ((n - 1 : ℕ) : ℝ) + 1 = n := by exact_mod_cast Nat.sub_add_cancel hn
          rw [this]
    choose g hg hlo hhi using hex
    obtain ⟨e, he, hde⟩ := digit_surj (b := n) (d := d) (fun k => ⟨g k, hg k⟩)
    refine ⟨⟨e, he⟩, fun k => ?_, fun k => ?_⟩
    · have := hlo k
      simp only [centre, hde k]; linarith
    · have := hhi k
      simp only [centre, hde k]; linarith

/-- Points common to two cells. -/
theorem common {e e' : ℕ} (hc : 0 < c) {x : Fin d → ℝ} (hx : x ∈ cell n d a c e) (hx' : x ∈ cell n d a c e') (k : Fin d)
    (hne : digit n d k e < digit n d k e') : digit n d k e' = digit n d k e + 1 ∧ x k = centre n d a c e k + c := by
  have h1 := hx.2 k
  have h2 := hx'.1 k
  simp only [centre] at h1 h2 ⊢
  have h3 : (digit n d k e' : ℝ) ≤ digit n d k e + 1 := by
    by_contra h3
    rw [not_le] at h3
    have := mul_lt_mul_of_pos_left h3 hc
    linarith
  have h4 : digit n d k e' = digit n d k e + 1 := by
    have : digit n d k e' ≤ digit n d k e + 1 := by exact_mod_cast h3
    omega
  refine ⟨h4, le_antisymm h1 ?_⟩
  rw [h4] at h2
  push_cast at h2
  linarith

/-- Different cells overlap in a null set. -/
theorem overlap (hc : 0 < c) {e e' : ℕ} (he : e < n ^ d) (he' : e' < n ^ d) (hne : e ≠ e') :
    volume (cell n d a c e ∩ cell n d a c e') = 0 := by
  obtain ⟨k, hk⟩ : ∃ k : Fin d, digit n d k e ≠ digit n d k e' := by
    by_contra hall
    push Not at hall
    exact hne (digit_ext he he' (fun k hk => hall ⟨k, hk⟩))
  have hplane : ∀ t : ℝ, volume {x : Fin d → ℝ | x k = t} = 0 := fun t => by
    rw [volume_pi]; exact Measure.pi_hyperplane (fun _ : Fin d => (volume : Measure ℝ)) k t
  rcases Nat.lt_or_gt_of_ne hk with h1 | h1
  · exact measure_mono_null (fun x hx => (common hc hx.1 hx.2 k h1).2) (hplane (centre n d a c e k + c))
  · exact measure_mono_null (fun x hx => (common hc hx.2 hx.1 k h1).2) (hplane (centre n d a c e' k + c))

/-- Integrals over the cube are sums of integrals over the cells. -/
theorem tile (hn : 1 ≤ n) (hc : 0 < c) (f : (Fin d → ℝ) → ℝ)
    (hf : IntegrableOn f (Set.Icc (fun _ : Fin d => a) (fun _ => a + 2 * c * n))) :
    ∑ e ∈ Finset.range (n ^ d), ∫ x in cell n d a c e, f x =
      ∫ x in Set.Icc (fun _ : Fin d => a) (fun _ => a + 2 * c * n), f x := by
  rw [← cover hn hc] at hf ⊢
  rw [integral_iUnion_ae (s := fun e : Fin (n ^ d) => cell n d a c (e : ℕ)) (fun e => (measurableSet_Icc).nullMeasurableSet) ?_ hf,
    tsum_fintype, Finset.sum_range]
  intro e e' hne
  exact overlap hc e.2 e'.2 (fun h => hne (Fin.ext h))

/-- The element polynomials of a nodal field agree where elements meet. -/
theorem continuous (h : CubeCells n p a c mesh node) {v : ℕ → ℝ} {V : ℕ → MvPolynomial (Fin d) ℝ} (hV : CellField mesh p v V)
    {e' : ℕ} (he' : e' < n ^ d) {x : Fin d → ℝ} (hx' : x ∈ cell n d a c e') : ∀ (m : ℕ) (e : ℕ), e < n ^ d →
    x ∈ cell n d a c e → (Finset.univ.filter (fun k : Fin d => digit n d k e ≠ digit n d k e')).card = m →
    eval x (V e) = eval x (V e') := by
  intro m
  induction m with
  | zero =>
    intro e he hx hm
    rw [Finset.card_eq_zero, Finset.filter_eq_empty_iff] at hm
    have : e = e' := digit_ext he he' (fun k hk => by simpa using hm (Finset.mem_univ ⟨k, hk⟩))
    rw [this]
  | succ m ih =>
    intro e he hx hm
    have hpos : 0 < (Finset.univ.filter (fun k : Fin d => digit n d k e ≠ digit n d k e')).card := by omega
    obtain ⟨k, hk⟩ := Finset.card_pos.mp hpos
    have hkne : digit n d k e ≠ digit n d k e' := (Finset.mem_filter.mp hk).2
    have hn : 0 < n := by
      rcases Nat.eq_zero_or_pos n with h0 | h0
      · rw [h0, zero_pow (by have := h.dim; omega)] at he; omega
      · exact h0
    obtain ⟨e1, he1, hd1⟩ := digit_update hn k e (show digit n d k e' < n from Verif.Common.digit_lt _ _ _ _ hn)
    have hk1 := hd1 k
    rw [if_pos rfl] at hk1
    have ho : ∀ j : Fin d, j ≠ k → digit n d j e1 = digit n d j e := fun j hj => by rw [hd1 j, if_neg hj]
    have hx1 : x ∈ cell n d a c e1 := by
      constructor
      · intro j
        by_cases hj : j = k
        · subst hj
          have := hx'.1 j
          simp only [centre] at this ⊢
          rw [hk1]; exact this
        · have := hx.1 j
          simp only [centre] at this ⊢
          rw [ho j hj]; exact this
      · intro j
        by_cases hj : j = k
        · subst hj
          have := hx'.2 j
          simp only [centre] at this ⊢
          rw [hk1]; exact this
        · have := hx.2 j
          simp only [centre] at this ⊢
          rw [ho j hj]; exact this
    have hcard : (Finset.univ.filter (fun j : Fin d => digit n d j e1 ≠ digit n d j e')).card = m := by
      have : Finset.univ.filter (fun j : Fin d => digit n d j e1 ≠ digit n d j e') =
          (Finset.univ.filter (fun j : Fin d => digit n d j e ≠ digit n d j e')).erase k := by
        ext j
        simp only [Finset.mem_filter, Finset.mem_univ, true_and, Finset.mem_erase]
        by_cases hj : j = k
        · subst hj; simp [hk1]
        · rw [ho j hj]; simp [hj]
      rw [this, Finset.card_erase_of_mem hk]; omega
    rw [← ih e1 he1 hx1 hcard]
    have hface : ∀ (t : ℝ) (P Q : MvPolynomial (Fin d) ℝ), x k = t → faceSub k t P = faceSub k t Q → eval x P = eval x Q := by
      intro t P Q ht hPQ
      have h1 := congrArg (eval x) hPQ
      rw [eval_faceSub, eval_faceSub, ← ht, Function.update_eq_self] at h1
      exact h1
    rcases Nat.lt_or_gt_of_ne hkne with h1 | h1
    · rw [← hk1] at h1
      obtain ⟨g1, g2⟩ := common h.width hx hx1 k h1
      exact hface _ _ _ g2 (h.face_match hV k he he1 g1 ho)
    · rw [← hk1] at h1
      obtain ⟨g1, g2⟩ := common h.width hx1 hx k h1
      exact (hface _ _ _ g2 (h.face_match hV k he1 he g1 (fun j hj => (ho j hj).symm))).symm

end CubeCells

end Verif.Core
