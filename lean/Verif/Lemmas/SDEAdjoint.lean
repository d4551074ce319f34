import Verif.Lemmas.SDE
import Mathlib.Data.Matrix.Mul
import Mathlib.Tactic.Module

/-! Duality between the forward steps and the steps of the augmented system, for coefficients affine in the state and
the arguments. -/

namespace Verif.SDE

open Matrix

set_option linter.unusedSectionVars false

variable {K W : Type*} [Field K] [LinearOrder K] [IsStrictOrderedRing K] {d q : ℕ}

/-- The coefficients of an equation affine in state and arguments:
drift `A y + C θ + c`, diffusion `B y + D θ + e`. -/
structure Coeffs (K W : Type*) (d q : ℕ) where
  A : K → W → Matrix (Fin d) (Fin d) K
  C : K → W → Matrix (Fin d) (Fin q) K
  c : K → W → Fin d → K
  B : K → W → Matrix (Fin d) (Fin d) K
  D : K → W → Matrix (Fin d) (Fin q) K
  e : K → W → Fin d → K

/-- `F` is the affine equation with these coefficients, and its vector-Jacobian products are the transposed
derivatives. -/
structure Coeffs.Is (a : Coeffs K W d q) (F : SDEFun K (Fin d → K) W (Fin q → K)) : Prop where
  drift : ∀ θ y t w, (F.f θ y t w).1 = a.A t w *ᵥ y + a.C t w *ᵥ θ + a.c t w
  diff : ∀ θ y t w, (F.f θ y t w).2 = a.B t w *ᵥ y + a.D t w *ᵥ θ + a.e t w
  driftVjp : ∀ θ y t w v, F.driftVjp θ y t w v = (v ᵥ* a.A t w, v ᵥ* a.C t w)
  diffVjp : ∀ θ y t w v, F.diffVjp θ y t w v = (v ᵥ* a.B t w, v ᵥ* a.D t w)

section unmasked
variable {E : Type*} [AddCommGroup E] [Module K E]

/-- Unmasked forward steps. -/
def fwdU (f : E → K → W → E × E) (dt : K) : K → E → List W → E
  | _, x, [] => x
  | t, x, w :: l => fwdU f dt (t + dt) (heun f dt t x w) l

/-- Unmasked steps from the last entry to the first. -/
def revU (f : E → K → W → E × E) (dt : K) (s : K × E) (l : List W) : K × E :=
  l.foldr (fun w s => (s.1 + dt, heun f dt s.1 s.2 w)) s

theorem revU_time (f : E → K → W → E × E) (dt : K) (s : K × E) : ∀ l : List W,
    (revU f dt s l).1 = s.1 + l.length * dt
  | [] => by simp [revU]
  | w :: l => by
      have := revU_time f dt s l
      simp only [revU, List.foldr_cons] at this ⊢
      rw [this]
      push_cast [List.length_cons]
      ring

theorem foldl_fwdU (f : E → K → W → E × E) (ts : K × K) (dt : K) : ∀ (l : List W) (t : K) (x : E),
    (∀ k : ℕ, k < l.length → ts.1 ≤ t + k * dt ∧ t + k * dt < ts.2) →
      (l.foldl (stepFn f ts dt) (t, x)).2 = fwdU f dt t x l
  | [], _, _, _ => rfl
  | w :: l, t, x, h => by
      have h0 := h 0 (by simp)
      simp only [Nat.cast_zero, zero_mul, add_zero] at h0
      have hs : stepFn f ts dt (t, x) w = (t + dt, heun f dt t x w) := if_pos h0
      rw [List.foldl_cons, hs, foldl_fwdU f ts dt l]
      · rfl
      · intro k hk
        have := h (k + 1) (by simpa using hk)
        push_cast at this
        have e : t + dt + k * dt = t + (k + 1) * dt := by ring
        rw [e]
        exact this

theorem foldr_revU (f : E → K → W → E × E) (ts : K × K) (dt : K) (s : K × E) : ∀ (l : List W),
    (∀ k : ℕ, k < l.length → ts.1 ≤ s.1 + k * dt ∧ s.1 + k * dt < ts.2) →
      l.foldr (fun w s => stepFn f ts dt s w) s = revU f dt s l
  | [], _ => rfl
  | w :: l, h => by
      have h1 := foldr_revU f ts dt s l (fun k hk => h k (by simp; omega))
      rw [List.foldr_cons, h1]
      have h2 := h l.length (by simp)
      have ht := revU_time f dt s l
      rw [← ht] at h2
      exact if_pos h2

end unmasked

/-- One step of the augmented system is the transposed step, if the drift does not depend on time. -/
theorem step_adjoint (a : Coeffs K W d q) (F : SDEFun K (Fin d → K) W (Fin q → K)) (hF : a.Is F)
    (hA : ∀ t t' w, a.A t w = a.A t' w) (hC : ∀ t t' w, a.C t w = a.C t' w)
    (θ θ' x x' y lam : _) (g : Fin q → K) (dt t : K) (w : W) :
    lam ⬝ᵥ (heun (F.f θ') dt t x' w - heun (F.f θ) dt t x w) =
      (heun (augF F θ) dt (-(t + dt)) (y, lam, g) w).2.1 ⬝ᵥ (x' - x) +
        ((heun (augF F θ) dt (-(t + dt)) (y, lam, g) w).2.2 - g) ⬝ᵥ (θ' - θ) := by
  have e1 : - -(t + dt) = t + dt := neg_neg _
  have e2 : -(-(t + dt) + dt) = t := by ring
  simp only [heun, augF, Prod.snd_add, Prod.fst_add, Prod.smul_snd, Prod.smul_fst, hF.drift, hF.diff, hF.driftVjp,
    hF.diffVjp, e1, e2, hA (t + dt) t, hC (t + dt) t]
  simp only [mulVec_add, add_vecMul, dotProduct_add, dotProduct_sub, add_dotProduct, sub_dotProduct, smul_dotProduct,
    dotProduct_smul, dotProduct_mulVec, vecMul_vecMul, smul_eq_mul]
  ring

/-- The reverse pass over one segment gives the transposed derivative of the forward pass. -/
theorem revU_adjoint (a : Coeffs K W d q) (F : SDEFun K (Fin d → K) W (Fin q → K)) (hF : a.Is F)
    (hA : ∀ t t' w, a.A t w = a.A t' w) (hC : ∀ t t' w, a.C t w = a.C t' w)
    (θ θ' y lam : _) (g : Fin q → K) (dt : K) : ∀ (l : List W) (t : K) (x x' : Fin d → K),
    lam ⬝ᵥ (fwdU (F.f θ') dt t x' l - fwdU (F.f θ) dt t x l) =
      (revU (augF F θ) dt (-(t + l.length * dt), (y, lam, g)) l).2.2.1 ⬝ᵥ (x' - x) +
        ((revU (augF F θ) dt (-(t + l.length * dt), (y, lam, g)) l).2.2.2 - g) ⬝ᵥ (θ' - θ)
  | [], t, x, x' => by simp [fwdU, revU]
  | w :: l, t, x, x' => by
      have ih := revU_adjoint a F hF hA hC θ θ' y lam g dt l (t + dt) (heun (F.f θ) dt t x w)
        (heun (F.f θ') dt t x' w)
      have et : t + ((w :: l).length : K) * dt = t + dt + l.length * dt := by
        push_cast [List.length_cons]; ring
      rw [et]
      set s := revU (augF F θ) dt (-(t + dt + l.length * dt), (y, lam, g)) l with hs
      have htime : s.1 = -(t + dt) := by
        rw [hs, revU_time]; ring
      have hcons : revU (augF F θ) dt (-(t + dt + l.length * dt), (y, lam, g)) (w :: l) =
          (s.1 + dt, heun (augF F θ) dt s.1 s.2 w) := rfl
      rw [hcons]
      simp only [fwdU]
      rw [ih, step_adjoint a F hF hA hC θ θ' x x' s.2.1 s.2.2.1 s.2.2.2 dt t w, htime]
      simp only [sub_dotProduct]
      ring

theorem segVjp_adjoint (a : Coeffs K W d q) (F : SDEFun K (Fin d → K) W (Fin q → K)) (hF : a.Is F)
    (hA : ∀ t t' w, a.A t w = a.A t' w) (hC : ∀ t t' w, a.C t w = a.C t' w)
    (θ θ' y x x' lam : _) (t0 t1 : K) (l : List W) (hl : l ≠ []) :
    lam ⬝ᵥ (sdeintSeg (F.f θ') false x' (t0, t1) l - sdeintSeg (F.f θ) false x (t0, t1) l) =
      (sdeintSegVjp F θ y (t0, t1) l lam).1 ⬝ᵥ (x' - x) +
        (sdeintSegVjp F θ y (t0, t1) l lam).2 ⬝ᵥ (θ' - θ) := by
  unfold sdeintSegVjp
  by_cases h : t0 < t1
  · have hn : (l.length : K) ≠ 0 := by
      have := List.length_pos_iff.mpr hl
      exact_mod_cast this.ne'
    have edt : (-t0 - -t1) / (l.length : K) = (t1 - t0) / l.length := by ring
    unfold sdeintSeg
    simp only [Bool.false_eq_true, if_false, if_true, edt]
    rw [foldl_fwdU _ _ _ l _ _ (fun k hk => active_times h k hk),
      foldl_fwdU _ _ _ l _ _ (fun k hk => active_times h k hk),
      foldr_revU _ (-t1, -t0) _ _ l (fun k hk => by
        have := active_times (a := -t1) (b := -t0) (by linarith) k hk
        rwa [edt] at this)]
    have := revU_adjoint a F hF hA hC θ θ' y lam 0 ((t1 - t0) / l.length) l t0 x x'
    have e : t0 + (l.length : K) * ((t1 - t0) / l.length) = t1 := by field_simp; ring
    rw [e] at this
    simpa using this
  · have h' := not_lt.mp h
    rw [sdeintSeg_still _ _ _ _ _ h', sdeintSeg_still _ _ _ _ _ h', sdeintSeg_still _ _ _ _ _ (by simpa using h')]
    simp

/-- `F` is linear in the state for the arguments `θ` (up to a shift), and the state parts of its vector-Jacobian products
are the transposed derivatives. The dependence on `θ` is arbitrary. -/
structure LinearAt {P : Type*} (F : SDEFun K (Fin d → K) W P) (θ : P) (A B : K → W → Matrix (Fin d) (Fin d) K)
    (c e : K → W → Fin d → K) : Prop where
  drift : ∀ y t w, (F.f θ y t w).1 = A t w *ᵥ y + c t w
  diff : ∀ y t w, (F.f θ y t w).2 = B t w *ᵥ y + e t w
  driftVjp : ∀ y t w v, (F.driftVjp θ y t w v).1 = v ᵥ* A t w
  diffVjp : ∀ y t w v, (F.diffVjp θ y t w v).1 = v ᵥ* B t w

section state
variable {P : Type*} [AddCommGroup P] [Module K P] {F : SDEFun K (Fin d → K) W P} {θ : P}
  {A B : K → W → Matrix (Fin d) (Fin d) K} {c e : K → W → Fin d → K}

theorem step_adjoint_state (hF : LinearAt F θ A B c e) (hA : ∀ t t' w, A t w = A t' w)
    (x x' y lam : _) (g : P) (dt t : K) (w : W) :
    lam ⬝ᵥ (heun (F.f θ) dt t x' w - heun (F.f θ) dt t x w) =
      (heun (augF F θ) dt (-(t + dt)) (y, lam, g) w).2.1 ⬝ᵥ (x' - x) := by
  have e1 : - -(t + dt) = t + dt := neg_neg _
  have e2 : -(-(t + dt) + dt) = t := by ring
  simp only [heun, augF, Prod.snd_add, Prod.fst_add, Prod.smul_snd, Prod.smul_fst, hF.drift, hF.diff, hF.driftVjp,
    hF.diffVjp, e1, e2, hA (t + dt) t]
  simp only [mulVec_add, add_vecMul, dotProduct_add, dotProduct_sub, add_dotProduct, smul_dotProduct,
    dotProduct_smul, dotProduct_mulVec, vecMul_vecMul, smul_eq_mul]
  ring

theorem revU_adjoint_state (hF : LinearAt F θ A B c e) (hA : ∀ t t' w, A t w = A t' w)
    (y lam : _) (g : P) (dt : K) : ∀ (l : List W) (t : K) (x x' : Fin d → K),
    lam ⬝ᵥ (fwdU (F.f θ) dt t x' l - fwdU (F.f θ) dt t x l) =
      (revU (augF F θ) dt (-(t + l.length * dt), (y, lam, g)) l).2.2.1 ⬝ᵥ (x' - x)
  | [], t, x, x' => by simp [fwdU, revU]
  | w :: l, t, x, x' => by
      have ih := revU_adjoint_state hF hA y lam g dt l (t + dt) (heun (F.f θ) dt t x w) (heun (F.f θ) dt t x' w)
      have et : t + ((w :: l).length : K) * dt = t + dt + l.length * dt := by
        push_cast [List.length_cons]; ring
      rw [et]
      set s := revU (augF F θ) dt (-(t + dt + l.length * dt), (y, lam, g)) l with hs
      have htime : s.1 = -(t + dt) := by
        rw [hs, revU_time]; ring
      have hcons : revU (augF F θ) dt (-(t + dt + l.length * dt), (y, lam, g)) (w :: l) =
          (s.1 + dt, heun (augF F θ) dt s.1 s.2 w) := rfl
      rw [hcons]
      simp only [fwdU]
      rw [ih, step_adjoint_state hF hA x x' s.2.1 s.2.2.1 s.2.2.2 dt t w, htime]

theorem segVjp_adjoint_state (hF : LinearAt F θ A B c e) (hA : ∀ t t' w, A t w = A t' w)
    (y x x' lam : _) (t0 t1 : K) (l : List W) (hl : l ≠ []) :
    lam ⬝ᵥ (sdeintSeg (F.f θ) false x' (t0, t1) l - sdeintSeg (F.f θ) false x (t0, t1) l) =
      (sdeintSegVjp F θ y (t0, t1) l lam).1 ⬝ᵥ (x' - x) := by
  unfold sdeintSegVjp
  by_cases h : t0 < t1
  · have hn : (l.length : K) ≠ 0 := by
      have := List.length_pos_iff.mpr hl
      exact_mod_cast this.ne'
    have edt : (-t0 - -t1) / (l.length : K) = (t1 - t0) / l.length := by ring
    unfold sdeintSeg
    simp only [Bool.false_eq_true, if_false, if_true, edt]
    rw [foldl_fwdU _ _ _ l _ _ (fun k hk => active_times h k hk),
      foldl_fwdU _ _ _ l _ _ (fun k hk => active_times h k hk),
      foldr_revU _ (-t1, -t0) _ _ l (fun k hk => by
        have := active_times (a := -t1) (b := -t0) (by linarith) k hk
        rwa [edt] at this)]
    have := revU_adjoint_state hF hA y lam 0 ((t1 - t0) / l.length) l t0 x x'
    have e : t0 + (l.length : K) * ((t1 - t0) / l.length) = t1 := by field_simp; ring
    rw [e] at this
    simpa using this
  · have h' := not_lt.mp h
    rw [sdeintSeg_still _ _ _ _ _ h', sdeintSeg_still _ _ _ _ _ h', sdeintSeg_still _ _ _ _ _ (by simpa using h')]

end state

/-- Pairing of cotangents with outputs. -/
def pairing (ybars ys : List (Fin d → K)) : K := (List.zipWith (· ⬝ᵥ ·) ybars ys).sum

section scan
variable {P : Type*} [AddCommGroup P] [Module K P] {F : SDEFun K (Fin d → K) W P} {θ θ' : P}

/-- If the reverse rule is exact on every segment, it is exact on the scan; `pairP` is the pairing of the cotangent of the
arguments with their change. -/
theorem segScan_adjoint (pairP : P → K) (h0 : pairP 0 = 0) (hadd : ∀ u v, pairP (u + v) = pairP u + pairP v)
    (hseg : ∀ (y x x' lam : _) (t0 t1 : K) (l : List W), l ≠ [] →
      lam ⬝ᵥ (sdeintSeg (F.f θ') false x' (t0, t1) l - sdeintSeg (F.f θ) false x (t0, t1) l) =
        (sdeintSegVjp F θ y (t0, t1) l lam).1 ⬝ᵥ (x' - x) + pairP (sdeintSegVjp F θ y (t0, t1) l lam).2) :
    ∀ (dws : List (List W)) (ts : List K) (ybars : List (Fin d → K)) (t : K) (x x' : Fin d → K),
      dws.length = ts.length → ybars.length = ts.length → (∀ l ∈ dws, l ≠ []) →
      pairing ybars (segScan (F.f θ') t x' dws ts) - pairing ybars (segScan (F.f θ) t x dws ts) =
        (segScanVjp F θ t x dws ts ybars).1 ⬝ᵥ (x' - x) + pairP (segScanVjp F θ t x dws ts ybars).2
  | [], [], [], t, x, x', _, _, _ => by simp [pairing, segScan, segScanVjp, h0]
  | [], _ :: _, _, _, _, _, h, _, _ => absurd h (by simp)
  | _ :: _, [], _, _, _, _, h, _, _ => absurd h (by simp)
  | _, [], _ :: _, _, _, _, _, h, _ => absurd h (by simp)
  | _, _ :: _, [], _, _, _, _, h, _ => absurd h (by simp)
  | dw :: dws, t1 :: ts, yb :: ybs, t, x, x', h1, h2, h3 => by
      have ih := segScan_adjoint pairP h0 hadd hseg dws ts ybs t1 (sdeintSeg (F.f θ) false x (t, t1) dw)
        (sdeintSeg (F.f θ') false x' (t, t1) dw) (by simpa using h1) (by simpa using h2)
        (fun l hl => h3 l (List.mem_cons_of_mem _ hl))
      simp only [pairing, segScan, segScanVjp, List.zipWith_cons_cons, List.sum_cons] at ih ⊢
      have hs := hseg (sdeintSeg (F.f θ) false x (t, t1) dw) x x'
        (yb + (segScanVjp F θ t1 (sdeintSeg (F.f θ) false x (t, t1) dw) dws ts ybs).1) t t1 dw (h3 dw (by simp))
      rw [hadd]
      simp only [add_dotProduct, dotProduct_sub] at hs ih ⊢
      linear_combination ih + hs

end scan

end Verif.SDE
