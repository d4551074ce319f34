import Verif.Lemmas.SpectrumSym
import Mathlib.Analysis.SpecialFunctions.Trigonometric.Bounds

/-!
# C152: the energy spectrum of a flow that is moved, turned or mirrored

Full statement: `get_energy_spectrum(get_tke(u))` (train.py 62-93) is the same for a flow and for the flow moved along the periodic
domain, mirrored, turned by a right angle, or reversed. Mirroring, exchange of the axes (and so turning) and reversal do not change
it. Moving does (`C152_violated`): the `n = R + 1` samples along an axis contain both ends of the period, so what is at the end is
counted twice. With `n = R` samples it would not change (`C152_shift_partial`).
-/

namespace Verif.Niles

open Finset

/-- **C152.** The flow mirrored at the line `x = 1 / 2`, the flow with the axes exchanged and the flow in the opposite direction
have the spectrum of the flow. Sample `n - 1 - x` is the mirror image of sample `x`. -/
theorem C152_symmetries {n : ℕ} (hn : 2 ≤ n) (v : ℕ → ℕ → Fin 2 → ℝ) :
    energySpectrum n (getTke n (onGrid n fun x y => ![-v (n - 1 - x) y 0, v (n - 1 - x) y 1])) =
        energySpectrum n (getTke n (onGrid n v)) ∧
      energySpectrum n (getTke n (onGrid n fun x y => ![v y x 1, v y x 0])) = energySpectrum n (getTke n (onGrid n v)) ∧
      energySpectrum n (getTke n (onGrid n fun x y => -v x y)) = energySpectrum n (getTke n (onGrid n v)) := by
  have hn1 : 1 ≤ n := by omega
  have hneg : ∀ (f : ℕ → ℕ → ℂ) a b, ‖dft2 n (fun x y => -f x y) a b‖ = ‖dft2 n f a b‖ := by
    intro f a b
    have : dft2 n (fun x y => -f x y) a b = -dft2 n f a b := by
      unfold dft2
      simp only [neg_mul, sum_neg_distrib]
    rw [this, norm_neg]
  refine ⟨spectrum_ext fun i hi => ?_, spectrum_ext fun i hi => ?_, ?_⟩
  · rw [C86_bins hn _ hi, C86_bins hn _ hi, Option.some.injEq]
    rw [← sum_opposite n fun a => ∑ b ∈ range n,
      if i * binWidth n ≤ wave n a b ∧ wave n a b < (i + 1) * binWidth n then getTke n (onGrid n v) a b else 0]
    refine sum_congr rfl fun a ha => sum_congr rfl fun b _ => ?_
    have ha := mem_range.1 ha
    have hw : wave n (opposite n a) b = wave n a b := by
      unfold wave
      rw [opposite_freq ha]
    have ht : getTke n (onGrid n fun x y => ![-v (n - 1 - x) y 0, v (n - 1 - x) y 1]) a b =
        getTke n (onGrid n v) (opposite n a) b := by
      rw [getTke_onGrid, getTke_onGrid, Fin.sum_univ_two, Fin.sum_univ_two]
      have e0 := dft2_rev hn1 (opposite_dvd ha) (unshift n b) fun x y => (v x y 0 : ℂ)
      have e1 := dft2_rev hn1 (opposite_dvd ha) (unshift n b) fun x y => (v x y 1 : ℂ)
      have e2 := hneg (fun x y => (v (n - 1 - x) y 0 : ℂ)) (unshift n a) (unshift n b)
      simp only [Matrix.cons_val_zero, Matrix.cons_val_one, Complex.ofReal_neg]
      rw [e2, e0, e1]
    rw [hw, ht]
  · rw [C86_bins hn _ hi, C86_bins hn _ hi, Option.some.injEq, sum_comm]
    refine sum_congr rfl fun a _ => sum_congr rfl fun b _ => ?_
    have hw : wave n b a = wave n a b := by
      unfold wave
      rw [add_comm]
    have ht : getTke n (onGrid n fun x y => ![v y x 1, v y x 0]) b a = getTke n (onGrid n v) a b := by
      rw [getTke_onGrid, getTke_onGrid, Fin.sum_univ_two, Fin.sum_univ_two]
      have e0 := dft2_transpose n (fun x y => (v x y 0 : ℂ)) (unshift n b) (unshift n a)
      have e1 := dft2_transpose n (fun x y => (v x y 1 : ℂ)) (unshift n b) (unshift n a)
      simp only [Matrix.cons_val_zero, Matrix.cons_val_one]
      rw [e0, e1, add_comm]
    rw [hw, ht]
  · congr 1
    funext a b
    rw [getTke_onGrid, getTke_onGrid]
    congr 1
    refine sum_congr rfl fun k _ => ?_
    have := hneg (fun x y => (v x y k : ℂ)) (unshift n a) (unshift n b)
    simp only [Pi.neg_apply, Complex.ofReal_neg]
    rw [this]

/-- **C152, partial.** If the samples were taken at `n` points of a period of `n` points, that is without repeating the first one,
moving the flow would not change the spectrum. Missing: the samples of the code. -/
theorem C152_shift_partial {n : ℕ} (hn : 1 ≤ n) (v : ℕ → ℕ → Fin 2 → ℝ) (hx : ∀ x y, v (x + n) y = v x y)
    (hy : ∀ x y, v x (y + n) = v x y) (r s : ℕ) :
    energySpectrum n (getTke n (onGrid n fun x y => v (x + r) (y + s))) = energySpectrum n (getTke n (onGrid n v)) := by
  have px : ∀ q x y, v (x + n * q) y = v x y := by
    intro q
    induction q with
    | zero => intro x y; simp
    | succ q ih => intro x y; rw [show x + n * (q + 1) = (x + n * q) + n by ring, hx, ih]
  have py : ∀ q x y, v x (y + n * q) = v x y := by
    intro q
    induction q with
    | zero => intro x y; simp
    | succ q ih => intro x y; rw [show y + n * (q + 1) = (y + n * q) + n by ring, hy, ih]
  have hmod : ∀ x y, v x y = v (x % n) (y % n) := by
    intro x y
    conv_lhs => rw [← Nat.mod_add_div x n, ← Nat.mod_add_div y n, px, py]
  congr 1
  funext a b
  rw [getTke_onGrid, getTke_onGrid]
  congr 1
  refine sum_congr rfl fun k _ => ?_
  rw [← dft2_roll hn r s (unshift n a) (unshift n b) fun x y => (v x y k : ℂ)]
  have e : (fun x y => ((v (x + r) (y + s) k : ℝ) : ℂ)) = fun x y => ((v ((x + r) % n) ((y + s) % n) k : ℝ) : ℂ) := by
    funext x y
    rw [hmod]
  rw [e]

/-- A jet along a line: the velocity `(0, 1)` at one of `R` grid lines, zero elsewhere. -/
def jetLine (R : ℕ) (x _y : ℕ) : Fin 2 → ℝ := ![0, if x % R = 0 then 1 else 0]

theorem sum_chi_line {n : ℕ} (hn : 1 ≤ n) {b : ℕ} (hb : b < n) :
    ∑ y ∈ range n, chi n (-(b * y : ℕ)) = if b = 0 then (n : ℂ) else 0 := by
  have := chi_sum hn (-(b : ℤ))
  simp only [Int.dvd_neg] at this
  have hdv : (n : ℤ) ∣ (b : ℤ) ↔ b = 0 := by
    have := dvd_sub_iff hb (show 0 < n by omega)
    simpa using this
  simp only [hdv] at this
  rw [← this]
  refine sum_congr rfl fun x _ => ?_
  congr 1
  push_cast
  ring

theorem dft2_line {n : ℕ} (hn : 1 ≤ n) (g : ℕ → ℂ) (a : ℕ) {b : ℕ} (hb : b < n) :
    dft2 n (fun x _ => g x) a b = (∑ x ∈ range n, g x * chi n (-(a * x : ℕ))) * if b = 0 then (n : ℂ) else 0 := by
  rw [dft2_eq]
  simp only [← mul_sum, sum_chi_line hn hb]
  rw [sum_mul]
  exact sum_congr rfl fun x _ => by ring

/-- The turbulent kinetic energy of the jet at the end of the period and of the jet moved by one point. -/
theorem jet_tke {R : ℕ} (hR : 2 ≤ R) {a b : ℕ} (ha : a < R + 1) (hb : b < R + 1) :
    getTke (R + 1) (onGrid (R + 1) (jetLine R)) a b =
        (if b = (R + 1) / 2 then (1 / 2) * ((R + 1 : ℝ) ^ 2 * (2 + 2 * Real.cos (2 * Real.pi * ((a : ℝ) - ((R + 1) / 2 : ℕ)) / (R + 1))))
          else 0) ∧
      getTke (R + 1) (onGrid (R + 1) fun x y => jetLine R (x + 1) y) a b =
        if b = (R + 1) / 2 then (1 / 2) * (R + 1 : ℝ) ^ 2 else 0 := by
  have hn : 1 ≤ R + 1 := by omega
  obtain ⟨A, hA⟩ : ∃ A, A = unshift (R + 1) a := ⟨_, rfl⟩
  obtain ⟨B, hB⟩ : ∃ B, B = unshift (R + 1) b := ⟨_, rfl⟩
  have hBlt : B < R + 1 := hB ▸ unshift_lt hn b
  have hB0 : B = 0 ↔ b = (R + 1) / 2 := by
    rw [hB, unshift_eq hb]
    split_ifs <;> omega
  have hn2 : ‖((R + 1 : ℕ) : ℂ)‖ ^ 2 = (R + 1 : ℝ) ^ 2 := by
    rw [Complex.norm_natCast]
    push_cast
    ring
  have hzero : dft2 (R + 1) (fun _ _ => (0 : ℂ)) A B = 0 := by simp [dft2]
  have s1 : ∑ x ∈ range (R + 1), (if x % R = 0 then (1 : ℂ) else 0) * chi (R + 1) (-(A * x : ℕ)) = 1 + chi (R + 1) (A : ℤ) := by
    rw [sum_range_succ, Nat.mod_self, if_pos rfl, one_mul]
    congr 1
    · rw [sum_eq_single 0]
      · simp [chi_zero]
      · intro x hx h0
        rw [Nat.mod_eq_of_lt (mem_range.1 hx), if_neg h0, zero_mul]
      · intro h
        exact absurd (mem_range.2 (by omega)) h
    · refine chi_congr hn ⟨-A, ?_⟩
      push_cast
      ring
  have s2 : ∑ x ∈ range (R + 1), (if (x + 1) % R = 0 then (1 : ℂ) else 0) * chi (R + 1) (-(A * x : ℕ)) =
      chi (R + 1) (-(A * (R - 1) : ℕ)) := by
    rw [sum_eq_single (R - 1)]
    · rw [Nat.sub_add_cancel (by omega), Nat.mod_self, if_pos rfl, one_mul]
    · intro x hx h0
      have hx := mem_range.1 hx
      rw [if_neg, zero_mul]
      intro h
      obtain ⟨q, hq⟩ := Nat.dvd_of_mod_eq_zero h
      have h1 : q = 1 := by
        rcases Nat.lt_or_ge q 1 with g | g
        · have : q = 0 := by omega
          rw [this] at hq
          omega
        · rcases Nat.lt_or_ge q 2 with g2 | g2
          · omega
          · have := Nat.mul_le_mul_left R g2
            omega
      rw [h1, mul_one] at hq
      omega
    · intro h
      exact absurd (mem_range.2 (by omega)) h
  have hcos : ‖1 + chi (R + 1) (A : ℤ)‖ ^ 2 = 2 + 2 * Real.cos (2 * Real.pi * ((a : ℝ) - ((R + 1) / 2 : ℕ)) / (R + 1)) := by
    have hc : chi (R + 1) (A : ℤ) = chi (R + 1) ((a : ℤ) - ((R + 1) / 2 : ℕ)) := by
      refine chi_congr hn ?_
      rw [hA, unshift_eq ha]
      split_ifs with h
      · exact ⟨1, by push_cast; omega⟩
      · exact ⟨0, by push_cast; omega⟩
    obtain ⟨θ, hθ⟩ : ∃ θ : ℝ, θ = 2 * Real.pi * ((a : ℝ) - ((R + 1) / 2 : ℕ)) / (R + 1) := ⟨_, rfl⟩
    have he : chi (R + 1) ((a : ℤ) - ((R + 1) / 2 : ℕ)) = Complex.exp (θ * Complex.I) := by
      unfold chi
      congr 1
      rw [hθ]
      obtain ⟨H, hH⟩ : ∃ H : ℕ, H = (R + 1) / 2 := ⟨_, rfl⟩
      rw [← hH]
      push_cast
      ring
    rw [hc, he, ← hθ, ← Complex.normSq_eq_norm_sq, Complex.normSq_apply, Complex.exp_mul_I, ← Complex.ofReal_cos,
      ← Complex.ofReal_sin]
    have h1 : (1 + ((Real.cos θ : ℝ) + (Real.sin θ : ℝ) * Complex.I) : ℂ).re = 1 + Real.cos θ := by simp [Complex.cos_ofReal_re]
    have h2 : (1 + ((Real.cos θ : ℝ) + (Real.sin θ : ℝ) * Complex.I) : ℂ).im = Real.sin θ := by simp [Complex.sin_ofReal_re]
    rw [h1, h2]
    nlinarith [Real.sin_sq_add_cos_sq θ]
  constructor
  · rw [getTke_onGrid, Fin.sum_univ_two, ← hA, ← hB]
    have e1 : (fun x y => ((jetLine R x y 1 : ℝ) : ℂ)) = fun x _ => if x % R = 0 then (1 : ℂ) else 0 := by
      funext x y
      simp only [jetLine, Matrix.cons_val_one]
      split_ifs <;> simp
    have e0 : (fun x y => ((jetLine R x y 0 : ℝ) : ℂ)) = fun _ _ => (0 : ℂ) := by
      funext x y
      simp [jetLine]
    rw [e0, e1, hzero, dft2_line hn _ _ hBlt, s1, norm_mul, mul_pow, hcos]
    simp only [hB0]
    split_ifs
    · rw [hn2]
      simp
      ring
    · simp
  · rw [getTke_onGrid, Fin.sum_univ_two, ← hA, ← hB]
    have e1 : (fun x y => ((jetLine R (x + 1) y 1 : ℝ) : ℂ)) = fun x _ => if (x + 1) % R = 0 then (1 : ℂ) else 0 := by
      funext x y
      simp only [jetLine, Matrix.cons_val_one]
      split_ifs <;> simp
    have e0 : (fun x y => ((jetLine R (x + 1) y 0 : ℝ) : ℂ)) = fun _ _ => (0 : ℂ) := by
      funext x y
      simp [jetLine]
    rw [e0, e1, hzero, dft2_line hn _ _ hBlt, s2, norm_mul, mul_pow, chi_norm]
    simp only [hB0]
    split_ifs
    · rw [hn2]
      simp
    · simp

/-- **C152, violated.** For every number `R` of points of a period there is a flow whose spectrum changes when it is moved by one
point: the energy of its first band becomes smaller. -/
theorem C152_violated {R : ℕ} (hR : 2 ≤ R) : ∃ v : ℕ → ℕ → Fin 2 → ℝ, (∀ x y, v (x + R) y = v x y ∧ v x (y + R) = v x y) ∧
    ∃ e e', (energySpectrum (R + 1) (getTke (R + 1) (onGrid (R + 1) v)))[0]? = some e ∧
      (energySpectrum (R + 1) (getTke (R + 1) (onGrid (R + 1) fun x y => v (x + 1) y)))[0]? = some e' ∧ e' < e := by
  refine ⟨jetLine R, fun x y => ⟨by simp [jetLine], rfl⟩, ?_⟩
  have hn : 2 ≤ R + 1 := by omega
  have hw := binWidth_pos hn
  refine ⟨_, _, C86_bins hn _ (by omega), C86_bins hn _ (by omega), ?_⟩
  simp only [Nat.cast_zero, zero_mul, zero_add, one_mul]
  have hR1 : (0 : ℝ) < R + 1 := by positivity
  have hmid : (R + 1) / 2 < R + 1 := by omega
  -- every entry is at most the one before
  have hle : ∀ a ∈ range (R + 1), ∀ b ∈ range (R + 1),
      (if 0 ≤ wave (R + 1) a b ∧ wave (R + 1) a b < binWidth (R + 1) then
        getTke (R + 1) (onGrid (R + 1) fun x y => jetLine R (x + 1) y) a b else 0) ≤
      if 0 ≤ wave (R + 1) a b ∧ wave (R + 1) a b < binWidth (R + 1) then
        getTke (R + 1) (onGrid (R + 1) (jetLine R)) a b else 0 := by
    intro a ha b hb
    obtain ⟨h1, h2⟩ := jet_tke hR (mem_range.1 ha) (mem_range.1 hb)
    split_ifs with hin
    · rw [h1, h2]
      split_ifs with hbm
      · have hcos : 0 ≤ Real.cos (2 * Real.pi * ((a : ℝ) - ((R + 1) / 2 : ℕ)) / (R + 1)) := by
          have hp : |(a : ℝ) - ((R + 1) / 2 : ℕ)| ≤ (R + 1) / 19 := by
            have h3 : |(a : ℝ) - ((R + 1) / 2 : ℕ)| ≤ wave (R + 1) a b := by
              unfold wave
              refine Real.abs_le_sqrt ?_
              have := sq_nonneg ((b : ℝ) - ((R + 1) / 2 : ℕ))
              linarith
            have h4 : binWidth (R + 1) ≤ (R + 1) / 19 := by
              unfold binWidth
              have h5 : Real.sqrt 2 ≤ 2 := by
                rw [show (2 : ℝ) = Real.sqrt 4 by rw [show (4 : ℝ) = 2 ^ 2 by norm_num, Real.sqrt_sq (by norm_num)]]
                exact Real.sqrt_le_sqrt (by rw [show Real.sqrt 4 = 2 by
                  rw [show (4 : ℝ) = 2 ^ 2 by norm_num, Real.sqrt_sq (by norm_num)]]; norm_num)
              have h6 : (((R + 1) / 2 : ℕ) : ℝ) * 2 ≤ R + 1 := by
                exact_mod_cast Nat.div_mul_le_self (R + 1) 2
              have h7 : (0 : ℝ) ≤ ((R + 1) / 2 : ℕ) := Nat.cast_nonneg _
              have h8 := mul_le_mul_of_nonneg_right h5 h7
              rw [div_le_div_iff_of_pos_right (by norm_num)]
              linarith
            linarith [hin.2]
          have hpi := Real.pi_pos
          have hb' : |2 * Real.pi * ((a : ℝ) - ((R + 1) / 2 : ℕ)) / (R + 1)| ≤ Real.pi / 2 := by
            rw [abs_div, abs_mul, abs_of_pos (by positivity : 0 < 2 * Real.pi), abs_of_pos hR1, div_le_iff₀ hR1]
            have := mul_le_mul_of_nonneg_left hp (by positivity : 0 ≤ 2 * Real.pi)
            nlinarith
          exact Real.cos_nonneg_of_mem_Icc (abs_le.1 hb' |> fun h => ⟨by linarith [h.1], h.2⟩)
        have : (R + 1 : ℝ) ^ 2 * 1 ≤ (R + 1 : ℝ) ^ 2 * (2 + 2 * Real.cos (2 * Real.pi * ((a : ℝ) - ((R + 1) / 2 : ℕ)) / (R + 1))) :=
          mul_le_mul_of_nonneg_left (by linarith) (by positivity)
        linarith
      · exact le_rfl
    · exact le_rfl
  refine sum_lt_sum (fun a ha => sum_le_sum fun b hb => hle a ha b hb) ⟨(R + 1) / 2, mem_range.2 hmid, ?_⟩
  refine sum_lt_sum (fun b hb => hle _ (mem_range.2 hmid) b hb) ⟨(R + 1) / 2, mem_range.2 hmid, ?_⟩
  have hwave : wave (R + 1) ((R + 1) / 2) ((R + 1) / 2) = 0 := by simp [wave]
  obtain ⟨h1, h2⟩ := jet_tke hR hmid hmid
  rw [hwave, if_pos ⟨le_rfl, hw⟩, if_pos ⟨le_rfl, hw⟩, h1, h2, if_pos rfl, if_pos rfl, sub_self, mul_zero, zero_div, Real.cos_zero]
  have : (0 : ℝ) < (R + 1) ^ 2 := by positivity
  linarith

/-- A flow with the period of `C152_shift_partial`. -/
example : ∀ x y, jetLine 5 (x + 5) y = jetLine 5 x y ∧ jetLine 5 x (y + 5) = jetLine 5 x y :=
  fun x y => ⟨by simp [jetLine], rfl⟩

end Verif.Niles
