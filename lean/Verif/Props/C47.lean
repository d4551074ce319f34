import Verif.Lemmas.SDE

/-!
# C47: `sdeint` composes over output times and reduces to Euler

`C47_segments`: output `j` is reached from output `j - 1` (from `y0` for the first) by `n` Euler-Heun steps of size
`(t[j+1] - t[j]) / n` with the noise entries `j n, ..., j n + n - 1`, at times `t[j] + k dt`, all of them executed when
`t[j] < t[j+1]`, and none otherwise. `C47_euler`: with zero diffusion the steps are explicit Euler. `C47_uniform`: with
equally spaced output times the outputs are states of one integration over the whole interval, so the result does not
depend on the number of intermediate outputs. `C47_shapes`: the calls that succeed.
-/

namespace Verif.SDE

set_option linter.unusedSectionVars false

variable {K E W : Type*} [Field K] [LinearOrder K] [IsStrictOrderedRing K] [AddCommGroup E] [Module K E]

theorem C47_segments (f : E → K → W → E × E) (y0 : E) (t0 : K) (touts : List K) (dw : List W) (n : ℕ) (hn : 0 < n)
    (hm : 0 < touts.length) (hl : dw.length = touts.length * n) :
    ∃ ys : List E, sdeint f y0 (t0 :: touts) dw = .ok ys ∧ ∃ hlen : ys.length = touts.length,
      ∀ (j : ℕ) (hj : j < touts.length),
        let a := (t0 :: touts)[j]'(by simp; omega)
        let b := touts[j]
        let y := (y0 :: ys)[j]'(by simp; omega)
        let dt := (b - a) / n
        (a < b → ∃ X : ℕ → E, X 0 = y ∧
          (∀ (k : ℕ) (hk : k < n),
            let w := dw[j * n + k]'(by rw [hl]; nlinarith)
            X (k + 1) = X k + dt • (f (X k) (a + k * dt) w).1 +
              (1 / 2 : K) • ((f (X k) (a + k * dt) w).2 +
                (f (X k + (f (X k) (a + k * dt) w).2) (a + k * dt + dt) w).2)) ∧
          ys[j] = X n) ∧
        (b ≤ a → ys[j] = y) := by
  have hsl := segments_length n touts.length dw
  refine ⟨_, sdeint_ok f y0 t0 touts dw n hn hm hl, segScan_length f _ _ _ _ hsl, ?_⟩
  intro j hj a b y dt
  have hget := segScan_getElem f _ touts t0 y0 j hsl hj
  have hjn : j * n + n ≤ dw.length := by rw [hl]; nlinarith
  have hseg : (segments n touts.length dw)[j]'(by omega) = (dw.drop (j * n)).take n := segments_getElem ..
  have hslen : ((dw.drop (j * n)).take n).length = n := by rw [List.length_take, List.length_drop]; omega
  rw [hget, hseg]
  constructor
  · intro hab
    have hpos : 0 < dw.length := by omega
    refine ⟨iter f dt a y (fun k => dw.getD (j * n + k) (dw[0])), rfl, ?_, ?_⟩
    · intro k hk w
      have hw : dw.getD (j * n + k) (dw[0]) = w := by
        rw [List.getD_eq_getElem _ _ (by omega)]
      simp only [iter, heun, hw]
    · rw [sdeintSeg_forward f y a b hab _ (fun k => dw.getD (j * n + k) (dw[0]))]
      · rw [hslen]
      · intro k hk
        rw [hslen] at hk
        rw [List.getElem_take, List.getElem_drop, List.getD_eq_getElem _ _ (by omega)]
  · intro hab
    rw [sdeintSeg_still f false y a b hab]

/-- With zero diffusion every step is an explicit Euler step. -/
theorem C47_euler (f : E → K → W → E × E) (hf : ∀ x t w, (f x t w).2 = 0) (y0 : E) (t0 : K) (touts : List K)
    (dw : List W) (n : ℕ) (hn : 0 < n) (hm : 0 < touts.length) (hl : dw.length = touts.length * n) :
    ∃ ys : List E, sdeint f y0 (t0 :: touts) dw = .ok ys ∧ ∃ hlen : ys.length = touts.length,
      ∀ (j : ℕ) (hj : j < touts.length),
        let a := (t0 :: touts)[j]'(by simp; omega)
        let b := touts[j]
        let dt := (b - a) / n
        a < b → ∃ X : ℕ → E, X 0 = (y0 :: ys)[j]'(by simp; omega) ∧
          (∀ (k : ℕ) (hk : k < n),
            X (k + 1) = X k + dt • (f (X k) (a + k * dt) (dw[j * n + k]'(by rw [hl]; nlinarith))).1) ∧
          ys[j] = X n := by
  obtain ⟨ys, h1, h2, h3⟩ := C47_segments f y0 t0 touts dw n hn hm hl
  refine ⟨ys, h1, h2, ?_⟩
  intro j hj a b dt hab
  obtain ⟨X, hX0, hX, hXn⟩ := (h3 j hj).1 hab
  refine ⟨X, hX0, ?_, hXn⟩
  intro k hk
  have := hX k hk
  simp only [hf, add_zero, smul_zero] at this
  exact this

/-- The calls that succeed: at least one output time, and a positive number of noise entries for each. -/
theorem C47_shapes (f : E → K → W → E × E) (y0 : E) (ts : List K) (dw : List W) :
    (∃ ys, sdeint f y0 ts dw = .ok ys) ↔
      2 ≤ ts.length ∧ 0 < dw.length ∧ (ts.length - 1) ∣ dw.length := by
  constructor
  · rintro ⟨ys, h⟩
    unfold sdeint at h
    cases hA : sdeintArgs ts dw with
    | error e => rw [hA] at h; cases h
    | ok r =>
      obtain ⟨t0, touts, n, rfl, hn, hm, hl⟩ := sdeintArgs_inv hA
      refine ⟨by simp; omega, by rw [hl]; positivity, ?_⟩
      simp only [List.length_cons, Nat.add_sub_cancel]
      exact ⟨n, hl⟩
  · rintro ⟨h1, h2, n, hn⟩
    cases ts with
    | nil => simp at h1
    | cons t0 touts =>
      simp only [List.length_cons, Nat.add_sub_cancel] at hn h1
      refine ⟨_, sdeint_ok f y0 t0 touts dw n ?_ (by omega) hn⟩
      rcases Nat.eq_zero_or_pos n with h | h
      · rw [h] at hn; omega
      · exact h

/-- With output times `t0 + h, t0 + 2 h, ..., t0 + m h` the outputs are the states, after every `n` steps, of one
integration with step `h / n` over the whole noise sequence. -/
theorem C47_uniform (f : E → K → W → E × E) (y0 : E) (t0 h : K) (hh : 0 < h) (m n : ℕ) (hn : 0 < n) (hm : 0 < m)
    (dw : List W) (hl : dw.length = m * n) :
    ∃ X : ℕ → E, X 0 = y0 ∧
      (∀ (k : ℕ) (hk : k < m * n),
        let w := dw[k]
        let t := t0 + k * (h / n)
        X (k + 1) = X k + (h / n) • (f (X k) t w).1 +
          (1 / 2 : K) • ((f (X k) t w).2 + (f (X k + (f (X k) t w).2) (t + h / n) w).2)) ∧
      sdeint f y0 ((List.range (m + 1)).map (fun i : ℕ => t0 + i * h)) dw =
        .ok ((List.range m).map (fun j => X ((j + 1) * n))) := by
  have hpos : 0 < dw.length := by rw [hl]; positivity
  set w : ℕ → W := fun k => dw.getD k (dw[0]) with hw
  refine ⟨iter f (h / n) t0 y0 w, rfl, ?_, ?_⟩
  · intro k hk w' t
    have : w k = w' := by
      simp only [hw]
      rw [List.getD_eq_getElem _ _ (by omega)]
    simp only [iter, heun, this]
    rfl
  · have hts : (List.range (m + 1)).map (fun i : ℕ => t0 + i * h) =
        t0 :: (List.range m).map (fun i : ℕ => t0 + (i + 1 : ℕ) * h) := by
      rw [List.range_succ_eq_map]
      simp
    rw [hts]
    obtain ⟨ys, h1, h2, h3⟩ := C47_segments f y0 t0 ((List.range m).map (fun i : ℕ => t0 + (i + 1 : ℕ) * h)) dw n hn
      (by simpa using hm) (by simpa using hl)
    rw [h1]
    congr 1
    have h2' : ys.length = m := by simpa using h2
    have key : ∀ j (hj : j < m), ys[j]'(by omega) = iter f (h / n) t0 y0 w ((j + 1) * n) := by
      intro j
      induction j with
      | zero =>
        intro hj
        obtain ⟨X, hX0, hX, hXn⟩ := (h3 0 (by simpa using hj)).1 (by simp [hh])
        rw [hXn]
        have : ∀ k ≤ n, X k = iter f (h / n) t0 y0 w k := by
          intro k
          induction k with
          | zero => intro _; rw [hX0]; rfl
          | succ k ih =>
            intro hk
            have e := hX k (by omega)
            rw [e, ih (by omega)]
            have hwk : w k = dw[k]'(by rw [hl]; nlinarith) := by
              simp only [hw]
              rw [List.getD_eq_getElem _ _ (by rw [hl]; nlinarith)]
            simp [iter, heun, hwk]
        simpa using this n le_rfl
      | succ j ihj =>
        intro hj
        obtain ⟨X, hX0, hX, hXn⟩ := (h3 (j + 1) (by simpa using hj)).1 (by
          simp only [List.getElem_cons_succ, List.getElem_map, List.getElem_range]
          push_cast
          linarith)
        rw [hXn]
        have hdt : ∀ a b : K, t0 + ((j : K) + 1 + 1) * h - (t0 + ((j : K) + 1) * h) = h := by
          intro _ _; ring
        have : ∀ k ≤ n, X k = iter f (h / n) t0 y0 w ((j + 1) * n + k) := by
          intro k
          induction k with
          | zero =>
            intro _
            rw [hX0]
            simpa using ihj (by omega)
          | succ k ih =>
            intro hk
            have e := hX k (by omega)
            have hlt : (j + 1) * n + k < dw.length := by rw [hl]; nlinarith
            have hwk : w ((j + 1) * n + k) = dw[(j + 1) * n + k] := by
              simp only [hw]
              rw [List.getD_eq_getElem _ _ hlt]
            have htime : t0 + (((j + 1) * n + k : ℕ) : K) * (h / n) =
                t0 + ((j : K) + 1) * h + k * (h / n) := by
              have : (n : K) ≠ 0 := by exact_mod_cast hn.ne'
              push_cast
              field_simp
              ring
            rw [e, ih (by omega), ← Nat.add_assoc]
            simp only [List.getElem_cons_succ, List.getElem_map, List.getElem_range, Nat.cast_add, Nat.cast_one,
              hdt 0 0]
            simp only [iter, heun, hwk, htime]
        have e := this n le_rfl
        rw [e]
        congr 1
        ring
    apply List.ext_getElem (by simpa using h2')
    intro j hj1 hj2
    rw [key j (by omega)]
    simp

/-- Witness: two outputs, two steps each, a nonlinear drift and a state dependent diffusion over `ℚ`. -/
example : ∃ ys : List ℚ, sdeint (fun (y t w : ℚ) => (y ^ 2 + t, y * w)) 1 [0, 1 / 2, 1] [1, -1, 2, 0] = .ok ys ∧
    ys.length = 2 := by
  obtain ⟨ys, h1, h2, _⟩ := C47_segments (fun (y t w : ℚ) => (y ^ 2 + t, y * w)) (1 : ℚ) 0 [1 / 2, 1] [1, -1, 2, 0] 2
    (by norm_num) (by simp) (by simp)
  exact ⟨ys, h1, h2⟩

end Verif.SDE
