import Verif.Prelude
import Mathlib.Algebra.Module.LinearMap.Defs
import Verif.Model.CG

/-! Lemmas about the loop of `cg`. -/

namespace Verif.Linalg

variable {K V : Type*} [Field K] [LinearOrder K] [AddCommGroup V] [Module K V]
variable {dot : V → V → K} {A M : V → V} {atol2 : K} {maxiter : ℕ}

/-- One performed turn of the loop. -/
def Turn (dot : V → V → K) (A M : V → V) (atol2 : K) (maxiter : ℕ) (s s' : CGState K V) : Prop :=
  cgCond atol2 maxiter s ∧ cgBody dot A M s = some s'

/-- Any invariant of the turns holds at the end of the loop. -/
theorem cgLoop_inv (P : CGState K V → Prop) (hstep : ∀ s s', P s → Turn dot A M atol2 maxiter s s' → P s') :
    ∀ (fuel : ℕ) (s t : CGState K V), P s → cgLoop dot A M atol2 maxiter fuel s = some t → P t := by
  intro fuel
  induction fuel with
  | zero => intro s t hs h; simp only [cgLoop, Option.some.injEq] at h; exact h ▸ hs
  | succ fuel ih =>
    intro s t hs h
    rw [cgLoop] at h
    split at h
    · rename_i hc
      split at h
      · exact absurd h (by simp)
      · rename_i s' hb
        exact ih s' t (hstep s s' hs ⟨hc, hb⟩) h
    · simp only [Option.some.injEq] at h
      exact h ▸ hs

/-- The loop fails only when a body with a true condition, reached under the invariant, fails. -/
theorem cgLoop_some (P : CGState K V → Prop) (hstep : ∀ s s', P s → Turn dot A M atol2 maxiter s s' → P s')
    (hok : ∀ s, P s → cgCond atol2 maxiter s → ∃ s', cgBody dot A M s = some s') :
    ∀ (fuel : ℕ) (s : CGState K V), P s → ∃ t, cgLoop dot A M atol2 maxiter fuel s = some t := by
  intro fuel
  induction fuel with
  | zero => intro s _; exact ⟨s, rfl⟩
  | succ fuel ih =>
    intro s hs
    rw [cgLoop]
    split
    · rename_i hc
      obtain ⟨s', hb⟩ := hok s hs hc
      rw [hb]
      exact ih s' (hstep s s' hs ⟨hc, hb⟩)
    · exact ⟨s, rfl⟩

theorem cgBody_eq {s s' : CGState K V} (h : cgBody dot A M s = some s') :
    dot s.p (A s.p) ≠ 0 ∧ s.gamma ≠ 0 ∧
    s'.x = s.x + (s.gamma / dot s.p (A s.p)) • s.p ∧
    s'.r = s.r - (s.gamma / dot s.p (A s.p)) • A s.p ∧
    s'.gamma = dot s'.r (M s'.r) ∧
    s'.p = M s'.r + (s'.gamma / s.gamma) • s.p ∧ s'.k = s.k + 1 := by
  unfold cgBody at h
  simp only at h
  split at h
  · exact absurd h (by simp)
  · rename_i h1
    split at h
    · exact absurd h (by simp)
    · rename_i h2
      simp only [Option.some.injEq] at h
      subst h
      exact ⟨h1, h2, rfl, rfl, rfl, rfl, rfl⟩

theorem cgBody_some {s : CGState K V} (h1 : dot s.p (A s.p) ≠ 0) (h2 : s.gamma ≠ 0) :
    ∃ s', cgBody dot A M s = some s' := by
  unfold cgBody
  simp only
  rw [if_neg h1, if_neg h2]
  exact ⟨_, rfl⟩

/-- After `maxiter` turns at most, the condition of the loop is false. -/
theorem cgLoop_done : ∀ (fuel : ℕ) (s t : CGState K V), maxiter ≤ s.k + fuel →
    cgLoop dot A M atol2 maxiter fuel s = some t → ¬ cgCond atol2 maxiter t := by
  intro fuel
  induction fuel with
  | zero =>
    intro s t hk h
    simp only [cgLoop, Option.some.injEq] at h
    subst h
    intro hc
    have := hc.2
    omega
  | succ fuel ih =>
    intro s t hk h
    rw [cgLoop] at h
    split at h
    · split at h
      · exact absurd h (by simp)
      · rename_i s' hb
        refine ih s' t ?_ h
        rw [(cgBody_eq hb).2.2.2.2.2.2]
        omega
    · rename_i hc
      simp only [Option.some.injEq] at h
      exact h ▸ hc

/-- More turns than `maxiter` change nothing: the bound stands for an unbounded `while`. -/
theorem cgLoop_stop {fuel : ℕ} {s : CGState K V} (h : ¬ cgCond atol2 maxiter s) :
    cgLoop dot A M atol2 maxiter fuel s = some s := by
  cases fuel with
  | zero => rfl
  | succ fuel => rw [cgLoop, if_neg h]

/-! ### `cg` commutes with an embedding of a smaller problem -/

section map

variable {W : Type*} [AddCommGroup W] [Module K W] (emb : W →ₗ[K] V) (dotW : W → W → K) (A' M' : W → W)

/-- The image of a loop state. -/
def mapState (s : CGState K W) : CGState K V := ⟨emb s.x, emb s.r, s.gamma, emb s.p, s.k⟩

variable {emb dotW A' M'}

theorem cgBody_map (hdot : ∀ x y, dot (emb x) (emb y) = dotW x y) (hA : ∀ x, A (emb x) = emb (A' x))
    (hM : ∀ x, M (emb x) = emb (M' x)) (s : CGState K W) :
    cgBody dot A M (mapState emb s) = (cgBody dotW A' M' s).map (mapState emb) := by
  unfold cgBody
  simp only [mapState, hA, hdot]
  split
  · rfl
  · split
    · rfl
    · simp only [← map_smul, ← map_sub, ← map_add, hM, hdot]
      rfl

theorem cgLoop_map (hdot : ∀ x y, dot (emb x) (emb y) = dotW x y) (hA : ∀ x, A (emb x) = emb (A' x))
    (hM : ∀ x, M (emb x) = emb (M' x)) (fuel : ℕ) (s : CGState K W) :
    cgLoop dot A M atol2 maxiter fuel (mapState emb s) = (cgLoop dotW A' M' atol2 maxiter fuel s).map (mapState emb) := by
  induction fuel generalizing s with
  | zero => rfl
  | succ fuel ih =>
    rw [cgLoop, cgLoop]
    have hc : cgCond atol2 maxiter (mapState emb s) ↔ cgCond atol2 maxiter s := Iff.rfl
    by_cases h : cgCond atol2 maxiter s
    · rw [if_pos (hc.mpr h), if_pos h, cgBody_map hdot hA hM]
      cases cgBody dotW A' M' s with
      | none => rfl
      | some s' => exact ih s'
    · rw [if_neg (fun h' => h (hc.mp h')), if_neg h]
      rfl

/-- Running `cg` on embedded data is the embedding of the run. -/
theorem cg_map (hdot : ∀ x y, dot (emb x) (emb y) = dotW x y) (hA : ∀ x, A (emb x) = emb (A' x))
    (hM : ∀ x, M (emb x) = emb (M' x)) (b x0 : W) (tol atol : K) (maxiter : ℕ) :
    cg dot A M (emb b) (emb x0) tol atol maxiter =
      (cg dotW A' M' b x0 tol atol maxiter).map (fun r => (emb r.1, r.2.1, r.2.2)) := by
  unfold cg
  have h1 : cgBound dot (emb b) tol atol = cgBound dotW b tol atol := by simp only [cgBound, hdot]
  have h2 : cgInit dot A M (emb b) (emb x0) = mapState emb (cgInit dotW A' M' b x0) := by
    simp only [cgInit, mapState, hA, ← map_sub, hM, hdot]
  rw [h1, h2, cgLoop_map hdot hA hM]
  cases cgLoop dotW A' M' (cgBound dotW b tol atol) maxiter maxiter (cgInit dotW A' M' b x0) <;> rfl

end map

end Verif.Linalg
