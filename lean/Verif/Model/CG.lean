import Mathlib.Algebra.Module.Basic
import Mathlib.Algebra.Order.Field.Basic

/-!
# Model of `linalg/cg.py`

`V` is the space of the pytrees `b`, `x`; `dot` is `_vdot` (cg.py 26-27), the sum of `dot_fn` over the leaves. Finite
numbers are exact. A division by zero makes every later value infinite or NaN in Python; the model returns `none`.
-/

namespace Verif.Linalg

variable {K V : Type*} [Field K] [LinearOrder K] [AddCommGroup V] [Module K V]

/-- The loop variable `(x, r, gamma, p, k)` (cg.py 92). -/
structure CGState (K V : Type*) where
  x : V
  r : V
  gamma : K
  p : V
  k : ℕ

/-- `atol2` (cg.py 65-66). -/
def cgBound (dot : V → V → K) (b : V) (tol atol : K) : K := max (tol ^ 2 * dot b b) (atol ^ 2)

/-- `cond_fun` (cg.py 68-73). -/
def cgCond (atol2 : K) (maxiter : ℕ) (s : CGState K V) : Prop := s.gamma > atol2 ∧ s.k < maxiter

instance (atol2 : K) (maxiter : ℕ) (s : CGState K V) : Decidable (cgCond atol2 maxiter s) := by
  unfold cgCond; infer_instance

/-- `body_fun` (cg.py 75-86); `none` when one of the two quotients has a zero denominator. -/
def cgBody (dot : V → V → K) (A M : V → V) (s : CGState K V) : Option (CGState K V) :=
  let Ap := A s.p
  if dot s.p Ap = 0 then none
  else
    let alpha := s.gamma / dot s.p Ap
    let x' := s.x + alpha • s.p
    let r' := s.r - alpha • Ap
    let z' := M r'
    let gamma' := dot r' z'
    if s.gamma = 0 then none
    else
      let beta := gamma' / s.gamma
      some ⟨x', r', gamma', z' + beta • s.p, s.k + 1⟩

/-- `initial_value` (cg.py 88-92). -/
def cgInit (dot : V → V → K) (A M : V → V) (b x0 : V) : CGState K V :=
  let r0 := b - A x0
  let z0 := M r0
  ⟨x0, r0, dot r0 z0, z0, 0⟩

/-- `lax.while_loop` (cg.py 94-95) with a bound on the number of turns; the loop counter never exceeds `maxiter`, so
`maxiter` turns are enough (`cgLoop_done`). -/
def cgLoop (dot : V → V → K) (A M : V → V) (atol2 : K) (maxiter : ℕ) : ℕ → CGState K V → Option (CGState K V)
  | 0, s => some s
  | fuel + 1, s =>
    if cgCond atol2 maxiter s then
      match cgBody dot A M s with
      | none => none
      | some s' => cgLoop dot A M atol2 maxiter fuel s'
    else some s

/-- `cg` (cg.py 30-97) with all arguments given: `(x, residual, num_iterations)`. -/
def cg (dot : V → V → K) (A M : V → V) (b x0 : V) (tol atol : K) (maxiter : ℕ) : Option (V × K × ℕ) :=
  match cgLoop dot A M (cgBound dot b tol atol) maxiter maxiter (cgInit dot A M b x0) with
  | none => none
  | some s => some (s.x, s.gamma, s.k)

/-- `cg(A, b)` with the defaults `x0 = 0`, `M = identity`, `maxiter = 10 * size` (cg.py 54-62). -/
def cgDefault (size : ℕ) (dot : V → V → K) (A : V → V) (b : V) (tol atol : K) : Option (V × K × ℕ) :=
  cg dot A id b 0 tol atol (10 * size)

end Verif.Linalg
