import Verif.Lemmas.CG

/-! Two runs of `cg` on related data go in lock step. -/

namespace Verif.Linalg

variable {K V W : Type*} [Field K] [LinearOrder K] [AddCommGroup V] [Module K V] [AddCommGroup W] [Module K W]

/-- `S` relates iterates and search directions, `R` relates residuals. -/
structure CGRel (dot : V → V → K) (A M : V → V) (dot' : W → W → K) (A' M' : W → W) (S R : V → W → Prop) : Prop where
  sAdd : ∀ {x y x' y'} (c : K), S x x' → S y y' → S (x + c • y) (x' + c • y')
  rSub : ∀ {x y x' y'} (c : K), R x x' → R y y' → R (x - c • y) (x' - c • y')
  op : ∀ {x x'}, S x x' → R (A x) (A' x')
  pre : ∀ {r r'}, R r r' → S (M r) (M' r')
  dotSR : ∀ {x x' r r'}, S x x' → R r r' → dot x r = dot' x' r'
  dotRS : ∀ {x x' r r'}, R r r' → S x x' → dot r x = dot' r' x'

variable {dot : V → V → K} {A M : V → V} {dot' : W → W → K} {A' M' : W → W} {S R : V → W → Prop}

/-- Two loop states at the same point of the two runs. -/
structure StateRel (S R : V → W → Prop) (s : CGState K V) (s' : CGState K W) : Prop where
  x : S s.x s'.x
  r : R s.r s'.r
  p : S s.p s'.p
  gamma : s.gamma = s'.gamma
  k : s.k = s'.k

theorem cgBody_sim (h : CGRel dot A M dot' A' M' S R) {s : CGState K V} {s' : CGState K W} (hs : StateRel S R s s') :
    Option.Rel (StateRel S R) (cgBody dot A M s) (cgBody dot' A' M' s') := by
  have hAp := h.op hs.p
  have hpp := h.dotSR hs.p hAp
  unfold cgBody
  simp only [← hpp, ← hs.gamma]
  split
  · exact .none
  · have hr := h.rSub (s.gamma / dot s.p (A s.p)) hs.r hAp
    have hz := h.pre hr
    have hg := h.dotRS hr hz
    split
    · exact .none
    · refine .some ⟨h.sAdd _ hs.x hs.p, hr, ?_, hg, by simp only [hs.k]⟩
      simp only [← hg]
      exact h.sAdd _ hz hs.p

theorem cgLoop_sim (h : CGRel dot A M dot' A' M' S R) (bound : K) (maxiter : ℕ) :
    ∀ (fuel : ℕ) (s : CGState K V) (s' : CGState K W), StateRel S R s s' →
      Option.Rel (StateRel S R) (cgLoop dot A M bound maxiter fuel s) (cgLoop dot' A' M' bound maxiter fuel s') := by
  intro fuel
  induction fuel with
  | zero => intro s s' hs; exact .some hs
  | succ fuel ih =>
    intro s s' hs
    rw [cgLoop, cgLoop]
    have hc : cgCond bound maxiter s ↔ cgCond bound maxiter s' := by
      unfold cgCond; rw [hs.gamma, hs.k]
    by_cases hcs : cgCond bound maxiter s
    · rw [if_pos hcs, if_pos (hc.mp hcs)]
      have hb := cgBody_sim h hs
      revert hb
      cases cgBody dot A M s <;> cases cgBody dot' A' M' s' <;> intro hb
      · exact .none
      · cases hb
      · cases hb
      · cases hb with | some hb => exact ih _ _ hb
    · rw [if_neg hcs, if_neg (fun h' => hcs (hc.mpr h'))]
      exact .some hs

/-- With the same stopping bound two related runs return related vectors, the same residual and the same number of
iterations, or both fail. -/
theorem cg_sim (h : CGRel dot A M dot' A' M' S R) {b : V} {b' : W} {x0 : V} {x0' : W} (hb : R b b') (hx : S x0 x0')
    {tol atol tol' atol' : K} (hbound : cgBound dot b tol atol = cgBound dot' b' tol' atol') (maxiter : ℕ) :
    Option.Rel (fun a a' => S a.1 a'.1 ∧ a.2 = a'.2)
      (cg dot A M b x0 tol atol maxiter) (cg dot' A' M' b' x0' tol' atol' maxiter) := by
  have hr : R (b - A x0) (b' - A' x0') := by
    have := h.rSub 1 hb (h.op hx)
    rwa [one_smul, one_smul] at this
  have hz := h.pre hr
  have hi : StateRel S R (cgInit dot A M b x0) (cgInit dot' A' M' b' x0') :=
    ⟨hx, hr, hz, h.dotRS hr hz, rfl⟩
  have hl := cgLoop_sim h (cgBound dot b tol atol) maxiter maxiter _ _ hi
  unfold cg
  rw [← hbound]
  revert hl
  cases cgLoop dot A M (cgBound dot b tol atol) maxiter maxiter (cgInit dot A M b x0) <;>
    cases cgLoop dot' A' M' (cgBound dot b tol atol) maxiter maxiter (cgInit dot' A' M' b' x0') <;> intro hl
  · exact .none
  · cases hl
  · cases hl
  · cases hl with | some hl => exact .some ⟨hl.x, by simp only [hl.gamma, hl.k]⟩

end Verif.Linalg
