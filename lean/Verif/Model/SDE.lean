import Mathlib.Algebra.Module.Basic
import Mathlib.Algebra.Module.Prod
import Mathlib.Algebra.Module.Pi
import Mathlib.Algebra.Order.Field.Basic

/-!
# Model of `sde/sdeint.py`

`E` is the space of the raveled states, `W` the type of one noise increment (one entry of `dw`), `K` the numbers, which
are exact. The user function `f(y, t, dw, *args)` is a function to pairs `(drift, diffusion)`.

The reverse rule calls `jax.vjp` on the drift and the diffusion. `SDEFun` carries these two functions together with the
two vector-Jacobian products that `jax.vjp` returns for them; that they are the transposed derivatives is a hypothesis of
the theorems. Reverse differentiation of the `lax.scan` over segments (sdeint.py 96) is JAX's; `sdeintVjp` is the program
it derives: segments in reverse order, the cotangent of a segment's result is the cotangent of its output plus the
cotangent of the carry, the cotangents of the arguments are added.
-/

namespace Verif.SDE

variable {K E W : Type*} [Field K] [LinearOrder K] [AddCommGroup E] [Module K E]

/-- Errors of `sdeint`. -/
inductive SDEError
  /-- `ts` is empty (`ts[0]`), sdeint.py 85. -/
  | index
  /-- `dw.reshape((len(touts), -1, ...))` is impossible, sdeint.py 86. -/
  | reshape
  /-- `dw[0]` of an empty segment, sdeint.py 102. -/
  | empty
deriving DecidableEq, Repr

/-- The new state of one Euler-Heun step: lines 118-120 of sdeint.py. -/
def heun (f : E → K → W → E × E) (dt t : K) (x : E) (dw : W) : E :=
  let drift := (f x t dw).1
  let diff := (f x t dw).2
  let diffh := (f (x + diff) (t + dt) dw).2
  x + dt • drift + (1 / 2 : K) • (diff + diffh)

/-- `step_fn` (sdeint.py 116-124): the step is taken only for `ts[0] <= t < ts[1]`, the time always advances. -/
def stepFn (f : E → K → W → E × E) (ts : K × K) (dt : K) (state : K × E) (dw : W) : K × E :=
  if state.1 ≥ ts.1 ∧ state.1 < ts.2 then (state.1 + dt, heun f dt state.1 state.2 dw)
  else (state.1 + dt, state.2)

/-- `_sdeint` (sdeint.py 110-128): `lax.scan` over `dw`, from the last entry to the first when `reverse`. -/
def sdeintSeg (f : E → K → W → E × E) (reverse : Bool) (y0 : E) (ts : K × K) (dw : List W) : E :=
  let dt := (ts.2 - ts.1) / (dw.length : K)
  if reverse then (dw.foldr (fun w s => stepFn f ts dt s w) (ts.1, y0)).2
  else (dw.foldl (stepFn f ts dt) (ts.1, y0)).2

/-- `dw.reshape((m, -1))` of a list with `m * n` entries: `m` consecutive pieces of `n` entries. -/
def segments {α : Type*} (n : ℕ) : ℕ → List α → List (List α)
  | 0, _ => []
  | m + 1, l => l.take n :: segments n m (l.drop n)

/-- The scan over segments (sdeint.py 88-96). -/
def segScan (f : E → K → W → E × E) : K → E → List (List W) → List K → List E
  | tCurr, yCurr, dw :: dws, tNext :: ts =>
    let yNext := sdeintSeg f false yCurr (tCurr, tNext) dw
    yNext :: segScan f tNext yNext dws ts
  | _, _, _, _ => []

/-- The checks on the shapes made before the scan: the start time, the output times and the segments of `dw`. -/
def sdeintArgs (ts : List K) (dw : List W) : Except SDEError (K × List K × List (List W)) :=
  match ts with
  | [] => .error .index
  | t0 :: touts =>
    if touts.length = 0 ∨ dw.length % touts.length ≠ 0 then .error .reshape
    else if dw.length / touts.length = 0 then .error .empty
    else .ok (t0, touts, segments (dw.length / touts.length) touts.length dw)

/-- `sdeint` (sdeint.py 38-97). -/
def sdeint (f : E → K → W → E × E) (y0 : E) (ts : List K) (dw : List W) : Except SDEError (List E) :=
  match sdeintArgs ts dw with
  | .error e => .error e
  | .ok (t0, touts, segs) => .ok (segScan f t0 y0 segs touts)

variable {P : Type*} [AddCommGroup P] [Module K P]

/-- The user's function with extra arguments (`*args`, of type `P`) and what `jax.vjp` gives for its two components
(sdeint.py 165-169): the cotangents for the state and for the arguments. -/
structure SDEFun (K E W P : Type*) where
  f : P → E → K → W → E × E
  driftVjp : P → E → K → W → E → E × P
  diffVjp : P → E → K → W → E → E × P

/-- `aug_f` (sdeint.py 160-170), on states `(y, y_bar, args_bar)`. -/
def augF (F : SDEFun K E W P) (args : P) (s : E × E × P) (t : K) (dw : W) : (E × E × P) × (E × E × P) :=
  ((-(F.f args s.1 (-t) dw).1, F.driftVjp args s.1 (-t) dw s.2.1),
    (-(F.f args s.1 (-t) dw).2, F.diffVjp args s.1 (-t) dw s.2.1))

/-- `_sdeint_rev` (sdeint.py 137-181) for the forward pass (`reverse=False`) with result `y1`: the cotangents of `y0` and
of `args`. -/
def sdeintSegVjp (F : SDEFun K E W P) (args : P) (y1 : E) (ts : K × K) (dw : List W) (y1bar : E) : E × P :=
  (sdeintSeg (augF F args) true (y1, y1bar, 0) (-ts.2, -ts.1) dw).2

/-- Reverse pass over the segments for the cotangents `ybars` of the outputs: the cotangents of the state at the start
and of the arguments. -/
def segScanVjp (F : SDEFun K E W P) (args : P) : K → E → List (List W) → List K → List E → E × P
  | tCurr, yCurr, dw :: dws, tNext :: ts, ybar :: ybars =>
    let yNext := sdeintSeg (F.f args) false yCurr (tCurr, tNext) dw
    let rest := segScanVjp F args tNext yNext dws ts ybars
    let here := sdeintSegVjp F args yNext (tCurr, tNext) dw (ybar + rest.1)
    (here.1, rest.2 + here.2)
  | _, _, _, _, _ => 0

/-- The vector-Jacobian product of `sdeint` with respect to `y0` and `args`, for cotangents `ybars` of the outputs. -/
def sdeintVjp (F : SDEFun K E W P) (args : P) (y0 : E) (ts : List K) (dw : List W) (ybars : List E) :
    Except SDEError (E × P) :=
  match sdeintArgs ts dw with
  | .error e => .error e
  | .ok (t0, touts, segs) => .ok (segScanVjp F args t0 y0 segs touts ybars)

end Verif.SDE
