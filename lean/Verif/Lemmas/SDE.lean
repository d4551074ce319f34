import Verif.Prelude
import Verif.Model.SDE

/-! Lemmas on the scans of `sdeint`. -/

namespace Verif.SDE

section lists
variable {α : Type*}

theorem segments_length (n : ℕ) : ∀ (m : ℕ) (l : List α), (segments n m l).length = m
  | 0, _ => rfl
  | m + 1, l => by simp [segments, segments_length n m]

theorem segments_getElem (n : ℕ) : ∀ (m : ℕ) (l : List α) (j : ℕ) (h : j < (segments n m l).length),
    (segments n m l)[j] = (l.drop (j * n)).take n
  | 0, _, j, h => absurd h (by simp [segments])
  | m + 1, l, 0, _ => by simp [segments]
  | m + 1, l, j + 1, h => by
      have h' : j < (segments n m (l.drop n)).length := by simpa [segments] using h
      have := segments_getElem n m (l.drop n) j h'
      simp only [segments, List.getElem_cons_succ]
      rw [this, List.drop_drop]
      congr 2
      ring

theorem segments_append (n : ℕ) : ∀ (m : ℕ) (l : List α), l.length = m * n → (segments n m l).flatten = l
  | 0, l, h => by
      have : l = [] := List.length_eq_zero_iff.mp (by simpa using h)
      simp [segments, this]
  | m + 1, l, h => by
      have hd : (l.drop n).length = m * n := by rw [List.length_drop, h]; ring_nf; omega
      simp only [segments, List.flatten_cons, segments_append n m _ hd, List.take_append_drop]

theorem segments_mem_length (n m : ℕ) (l : List α) (h : l.length = m * n) :
    ∀ s ∈ segments n m l, s.length = n := by
  intro s hs
  obtain ⟨j, hj, rfl⟩ := List.getElem_of_mem hs
  rw [segments_getElem]
  rw [segments_length] at hj
  have : (j + 1) * n ≤ m * n := Nat.mul_le_mul_right n hj
  rw [List.length_take, List.length_drop, h]
  rw [Nat.add_mul, Nat.one_mul] at this
  omega

end lists

set_option linter.unusedSectionVars false

variable {K E W : Type*} [Field K] [LinearOrder K] [IsStrictOrderedRing K] [AddCommGroup E] [Module K E]

/-- `k` unmasked steps from time `t` and state `x` with noise `w 0`, `w 1`, .... -/
def iter (f : E → K → W → E × E) (dt t : K) (x : E) (w : ℕ → W) : ℕ → E
  | 0 => x
  | k + 1 => heun f dt (t + k * dt) (iter f dt t x w k) (w k)

theorem foldl_active (f : E → K → W → E × E) (ts : K × K) (dt t : K) (x : E) (w : ℕ → W) :
    ∀ (l : List W), (∀ k (h : k < l.length), l[k] = w k) →
      (∀ k : ℕ, k < l.length → ts.1 ≤ t + k * dt ∧ t + k * dt < ts.2) →
      l.foldl (stepFn f ts dt) (t, x) = (t + l.length * dt, iter f dt t x w l.length) := by
  intro l
  induction l using List.reverseRecOn with
  | nil => intro _ _; simp [iter]
  | append_singleton l a ih =>
    intro hw hact
    have h1 := ih (fun k h => by
        have := hw k (by simp; omega)
        rwa [List.getElem_append_left h] at this)
      (fun k h => hact k (by simp; omega))
    have ha : a = w l.length := by
      have := hw l.length (by simp)
      simpa using this
    have h2 := hact l.length (by simp)
    rw [List.foldl_append, h1]
    simp only [List.foldl_cons, List.foldl_nil, stepFn, ge_iff_le]
    rw [if_pos h2]
    simp only [List.length_append, List.length_cons, List.length_nil, iter, ← ha]
    congr 1
    push_cast
    ring

theorem foldl_inactive (f : E → K → W → E × E) (ts : K × K) (dt : K) (hts : ts.2 ≤ ts.1) :
    ∀ (l : List W) (s : K × E), (l.foldl (stepFn f ts dt) s).2 = s.2 := by
  intro l
  induction l with
  | nil => intro s; rfl
  | cons a l ih =>
    intro s
    rw [List.foldl_cons, ih]
    unfold stepFn
    rw [if_neg]
    rintro ⟨h1, h2⟩
    exact absurd (lt_of_lt_of_le h2 hts) (not_lt.mpr h1)

theorem foldr_inactive (f : E → K → W → E × E) (ts : K × K) (dt : K) (hts : ts.2 ≤ ts.1) :
    ∀ (l : List W) (s : K × E), (l.foldr (fun w s => stepFn f ts dt s w) s).2 = s.2 := by
  intro l
  induction l with
  | nil => intro s; rfl
  | cons a l ih =>
    intro s
    rw [List.foldr_cons]
    unfold stepFn
    rw [if_neg]
    · exact ih s
    · rintro ⟨h1, h2⟩
      exact absurd (lt_of_lt_of_le h2 hts) (not_lt.mpr h1)

/-- The times of all `n` steps of a segment lie in it. -/
theorem active_times {a b : K} (hab : a < b) {n : ℕ} (k : ℕ) (hk : k < n) :
    a ≤ a + k * ((b - a) / n) ∧ a + k * ((b - a) / n) < b := by
  have hn : (0 : K) < n := by exact_mod_cast (by omega : 0 < n)
  have hba : 0 < b - a := sub_pos.mpr hab
  have hk' : (k : K) < n := by exact_mod_cast hk
  have hk0 : (0 : K) ≤ k := Nat.cast_nonneg k
  constructor
  · have : 0 ≤ (k : K) * ((b - a) / n) := mul_nonneg hk0 (div_pos hba hn).le
    linarith
  · have : (k : K) * ((b - a) / n) < n * ((b - a) / n) := by
      exact mul_lt_mul_of_pos_right hk' (div_pos hba hn)
    have h2 : (n : K) * ((b - a) / n) = b - a := by field_simp
    linarith

theorem sdeintSeg_forward (f : E → K → W → E × E) (y : E) (a b : K) (hab : a < b) (l : List W) (w : ℕ → W)
    (hw : ∀ k (h : k < l.length), l[k] = w k) :
    sdeintSeg f false y (a, b) l = iter f ((b - a) / l.length) a y w l.length := by
  unfold sdeintSeg
  simp only [Bool.false_eq_true, if_false]
  rw [foldl_active f (a, b) _ a y w l hw (fun k hk => active_times hab k hk)]

theorem sdeintSeg_still (f : E → K → W → E × E) (r : Bool) (y : E) (a b : K) (hab : b ≤ a) (l : List W) :
    sdeintSeg f r y (a, b) l = y := by
  unfold sdeintSeg
  cases r
  · simpa using foldl_inactive f (a, b) _ hab l (a, y)
  · simpa using foldr_inactive f (a, b) _ hab l (a, y)

theorem segScan_length (f : E → K → W → E × E) : ∀ (dws : List (List W)) (ts : List K) (t : K) (y : E),
    dws.length = ts.length → (segScan f t y dws ts).length = ts.length
  | [], [], _, _, _ => rfl
  | [], _ :: _, _, _, h => absurd h (by simp)
  | _ :: _, [], _, _, h => absurd h (by simp)
  | dw :: dws, t' :: ts, t, y, h => by
      simp only [segScan, List.length_cons]
      rw [segScan_length f dws ts]
      simpa using h

theorem segScan_getElem (f : E → K → W → E × E) : ∀ (dws : List (List W)) (ts : List K) (t : K) (y : E)
    (j : ℕ) (hl : dws.length = ts.length) (hj : j < ts.length),
    (segScan f t y dws ts)[j]'(by rw [segScan_length f _ _ _ _ hl]; exact hj) =
      sdeintSeg f false
        ((y :: segScan f t y dws ts)[j]'(by rw [List.length_cons, segScan_length f _ _ _ _ hl]; omega))
        ((t :: ts)[j]'(by rw [List.length_cons]; omega), ts[j]) (dws[j]'(by omega))
  | [], [], _, _, _, _, hj => absurd hj (by simp)
  | [], _ :: _, _, _, _, h, _ => absurd h (by simp)
  | _ :: _, [], _, _, _, h, _ => absurd h (by simp)
  | dw :: dws, t' :: ts, t, y, 0, h, hj => by simp [segScan]
  | dw :: dws, t' :: ts, t, y, j + 1, h, hj => by
      have := segScan_getElem f dws ts t' (sdeintSeg f false y (t, t') dw) j (by simpa using h) (by simpa using hj)
      simpa [segScan] using this

theorem sdeintArgs_ok (t0 : K) (touts : List K) (dw : List W) (n : ℕ) (hn : 0 < n) (hm : 0 < touts.length)
    (hl : dw.length = touts.length * n) :
    sdeintArgs (t0 :: touts) dw = .ok (t0, touts, segments n touts.length dw) := by
  unfold sdeintArgs
  have h1 : dw.length / touts.length = n := by rw [hl]; exact Nat.mul_div_cancel_left n hm
  have h2 : dw.length % touts.length = 0 := by rw [hl]; exact Nat.mul_mod_right _ _
  simp only [h1, h2]
  rw [if_neg (by omega), if_neg (by omega)]

theorem sdeint_ok (f : E → K → W → E × E) (y0 : E) (t0 : K) (touts : List K) (dw : List W) (n : ℕ) (hn : 0 < n)
    (hm : 0 < touts.length) (hl : dw.length = touts.length * n) :
    sdeint f y0 (t0 :: touts) dw = .ok (segScan f t0 y0 (segments n touts.length dw) touts) := by
  unfold sdeint
  rw [sdeintArgs_ok t0 touts dw n hn hm hl]

/-- `sdeint` succeeds only on these shapes. -/
theorem sdeintArgs_inv {ts : List K} {dw : List W} {r} (h : sdeintArgs ts dw = .ok r) :
    ∃ t0 touts n, ts = t0 :: touts ∧ 0 < n ∧ 0 < touts.length ∧ dw.length = touts.length * n := by
  cases ts with
  | nil => simp [sdeintArgs] at h
  | cons t0 touts =>
    unfold sdeintArgs at h
    simp only at h
    split at h
    · cases h
    · rename_i h1
      split at h
      · cases h
      · rename_i h2
        push Not at h1
        refine ⟨t0, touts, dw.length / touts.length, rfl, Nat.pos_of_ne_zero h2, by omega, ?_⟩
        exact (Nat.mul_div_cancel' (Nat.dvd_of_mod_eq_zero h1.2)).symm

theorem iter_add (f : E → K → W → E × E) (dt t : K) (x : E) (w : ℕ → W) (a : ℕ) : ∀ b : ℕ,
    iter f dt t x w (a + b) = iter f dt (t + a * dt) (iter f dt t x w a) (fun k => w (a + k)) b
  | 0 => rfl
  | b + 1 => by
      have := iter_add f dt t x w a b
      rw [← Nat.add_assoc]
      simp only [iter]
      rw [this]
      congr 1
      push_cast
      ring

end Verif.SDE
