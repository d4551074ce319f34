import Verif.Model.CG
import Mathlib.Algebra.Order.Field.Rat
import Mathlib.Algebra.Module.Pi

/-! Model of `cg` (`swirl_fem/linalg/cg.py` 30-97) in rounded arithmetic.

Every operation on floating point numbers written in `cg` is followed by a rounding `fl`. The operator `A`, the
preconditioner `M` and the dot product are functions given by the caller; here they are arbitrary functions on the
rounded vectors, so that their own rounding is part of them. Vectors are `ι → ℚ`: a pytree with its leaves flattened.
A division by zero gives `none`, as in `Model/CG.lean`; overflow and NaN are not modelled. -/

namespace Verif.Linalg

variable {ι : Type*}

/-- `atol2` (cg.py 65-66). -/
def cgBoundFl (fl : ℚ → ℚ) (dot : (ι → ℚ) → (ι → ℚ) → ℚ) (b : ι → ℚ) (tol atol : ℚ) : ℚ :=
  max (fl (fl (tol ^ 2) * dot b b)) (fl (atol ^ 2))

/-- `tree_map(operator.add, x, tree_map(partial(operator.mul, a), p))` (cg.py 80, 85). -/
def addMulFl (fl : ℚ → ℚ) (x : ι → ℚ) (a : ℚ) (p : ι → ℚ) : ι → ℚ := fun i => fl (x i + fl (a * p i))

/-- `tree_map(operator.sub, r, tree_map(partial(operator.mul, a), Ap))` (cg.py 81). -/
def subMulFl (fl : ℚ → ℚ) (r : ι → ℚ) (a : ℚ) (q : ι → ℚ) : ι → ℚ := fun i => fl (r i - fl (a * q i))

/-- `body_fun` (cg.py 75-86); `none` when one of the two quotients has a zero denominator. -/
def cgBodyFl (fl : ℚ → ℚ) (dot : (ι → ℚ) → (ι → ℚ) → ℚ) (A M : (ι → ℚ) → ι → ℚ)
    (s : CGState ℚ (ι → ℚ)) : Option (CGState ℚ (ι → ℚ)) :=
  let Ap := A s.p
  if dot s.p Ap = 0 then none
  else
    let alpha := fl (s.gamma / dot s.p Ap)
    let x' := addMulFl fl s.x alpha s.p
    let r' := subMulFl fl s.r alpha Ap
    let z' := M r'
    let gamma' := dot r' z'
    if s.gamma = 0 then none
    else
      let beta := fl (gamma' / s.gamma)
      some ⟨x', r', gamma', addMulFl fl z' beta s.p, s.k + 1⟩

/-- `initial_value` (cg.py 88-92). -/
def cgInitFl (fl : ℚ → ℚ) (dot : (ι → ℚ) → (ι → ℚ) → ℚ) (A M : (ι → ℚ) → ι → ℚ) (b x0 : ι → ℚ) :
    CGState ℚ (ι → ℚ) :=
  let r0 : ι → ℚ := fun i => fl (b i - A x0 i)
  let z0 := M r0
  ⟨x0, r0, dot r0 z0, z0, 0⟩

/-- `lax.while_loop` (cg.py 94-95); `maxiter` turns are enough because every turn increases the counter. -/
def cgLoopFl (fl : ℚ → ℚ) (dot : (ι → ℚ) → (ι → ℚ) → ℚ) (A M : (ι → ℚ) → ι → ℚ) (atol2 : ℚ) (maxiter : ℕ) :
    ℕ → CGState ℚ (ι → ℚ) → Option (CGState ℚ (ι → ℚ))
  | 0, s => some s
  | fuel + 1, s =>
    if cgCond atol2 maxiter s then
      match cgBodyFl fl dot A M s with
      | none => none
      | some s' => cgLoopFl fl dot A M atol2 maxiter fuel s'
    else some s

/-- `cg` (cg.py 30-97) with all arguments given: `(x, residual, num_iterations)`. -/
def cgFl (fl : ℚ → ℚ) (dot : (ι → ℚ) → (ι → ℚ) → ℚ) (A M : (ι → ℚ) → ι → ℚ) (b x0 : ι → ℚ) (tol atol : ℚ)
    (maxiter : ℕ) : Option ((ι → ℚ) × ℚ × ℕ) :=
  match cgLoopFl fl dot A M (cgBoundFl fl dot b tol atol) maxiter maxiter (cgInitFl fl dot A M b x0) with
  | none => none
  | some s => some (s.x, s.gamma, s.k)

end Verif.Linalg
