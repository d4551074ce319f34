import Verif.Model.FESpace

/-!
# Model of q-functions as Python callables (core/fespace.py 36-167, 360-403)

`integrate` evaluates a q-function `f` by `vmap(vmap(f))(quad_coords)`: `f` runs once, on an array that stands for the
coordinates of all quadrature points of all elements. A value computed inside `f` is *batched* when it depends on that
argument and *unbatched* otherwise. A nodal function is a `custom_vmap` function: on an unbatched argument its body runs
(`jnp.ones(())`, 126-129), on a batched one the two batching rules (133-165), which discard the argument.

The body of a q-function is an expression (`QExpr`) of coordinates, constants, elementwise operations and calls of nodal
functions, each with an arbitrary point as its argument. Not modelled: `jax.grad` of a callable (241).
-/

namespace Verif.Core

/-- A value inside `vmap(vmap(f))(quad_coords)`. -/
inductive Staged (α : Type*)
  | unbatched (a : α)
  | batched (v : QFun α)

/-- `vmap` broadcasts an unbatched result (fespace.py 362). -/
def Staged.at {α : Type*} : Staged α → QFun α
  | .unbatched a => fun _ _ => a
  | .batched v => v

/-- The value depends on the coordinates. -/
def Staged.isBatched {α : Type*} : Staged α → Bool
  | .unbatched _ => false
  | .batched _ => true

/-- An elementwise operation. -/
def Staged.map₂ {α β γ : Type*} (g : α → β → γ) : Staged α → Staged β → Staged γ
  | .unbatched a, .unbatched b => .unbatched (g a b)
  | a, b => .batched (fun m q => g (a.at m q) (b.at m q))

variable {K : Type*} [Field K] [LinearOrder K] {d : ℕ}

/-- A nodal function (fespace.py 170-225): its space, its local nodal values and what `_evaluate` returns. A gradient is
the function of the same kind that `grad` returns (fespace.py 233-238). -/
inductive Nodal (K : Type*) (d : ℕ)
  | scalar (fs : FESpace K d) (ul : ℕ → ℕ → K)
  | vector (fs : FESpace K d) (ul : ℕ → ℕ → Fin d → K)
  | scalarGrad (fs : FESpace K d) (ul : ℕ → ℕ → K)
  | vectorGrad (fs : FESpace K d) (ul : ℕ → ℕ → Fin d → K)

/-- The space of a nodal function. -/
def Nodal.space : Nodal K d → FESpace K d
  | .scalar fs _ | .vector fs _ | .scalarGrad fs _ | .vectorGrad fs _ => fs

/-- The entries of a value: none, `[k]`, `[j]` or `[j, k]`. -/
abbrev Entry (d : ℕ) := List (Fin d)

/-- Entry `idx` of `_evaluate()` (fespace.py 178-179, 190-195, 207-209, 221-225); `none` when the array has another
number of axes. -/
def Nodal.values : Nodal K d → Entry d → Option (QFun K)
  | .scalar fs ul, [] => some (fun m q => scalarFn fs ul m q)
  | .vector fs ul, [k] => some (fun m q => vectorFn fs ul m q k)
  | .scalarGrad fs ul, [j] => some (fun m q => Core.scalarGrad fs ul m q j)
  | .vectorGrad fs ul, [j, k] => some (fun m q => Core.vectorGrad fs ul m q j k)
  | _, _ => none

/-- `NodalQFunction.__call__` (fespace.py 121-167) inside `vmap(vmap(·))` over the points of `fs`, followed by taking
entry `idx`. `none` is the failed assertion on the number of elements or of points (135, 152), or an index into an array
without that axis. -/
def Nodal.call (fs : FESpace K d) (u : Nodal K d) (arg : Fin d → Staged K) (idx : Entry d) : Option (Staged K) :=
  if ∃ j, (arg j).isBatched = true then
    if fs.mesh.numElements = u.space.mesh.numElements ∧ fs.numQuad = u.space.numQuad then
      (u.values idx).map .batched
    else none
  else if idx = [] then some (.unbatched 1)
  else none

/-- The bodies of q-functions; `ι` names the nodal functions in use. -/
inductive QExpr (K : Type*) (d : ℕ) (ι : Type*)
  | coord (j : Fin d)
  | const (c : K)
  | op (g : K → K → K) (a b : QExpr K d ι)
  | call (u : ι) (arg : Fin d → QExpr K d ι) (idx : Entry d)

/-- Values of the coordinates of a point, when all of them are defined. -/
def allSome {α : Type*} (f : Fin d → Option α) : Option (Fin d → α) :=
  if h : ∀ j, (f j).isSome = true then some (fun j => (f j).get (h j)) else none

/-- One run of the body on the array of the coordinates. -/
def QExpr.eval {ι : Type*} (fs : FESpace K d) (env : ι → Nodal K d) : QExpr K d ι → Option (Staged K)
  | .coord j => some (.batched (fun m q => fs.quadCoords m q j))
  | .const c => some (.unbatched c)
  | .op g a b =>
    match a.eval fs env, b.eval fs env with
    | some x, some y => some (x.map₂ g y)
    | _, _ => none
  | .call u arg idx =>
    match allSome (fun j => (arg j).eval fs env) with
    | some x => (env u).call fs x idx
    | none => none

/-- `fespace.integrate(f)` (fespace.py 395-403). -/
def QExpr.integrate {ι : Type*} (fs : FESpace K d) (env : ι → Nodal K d) (e : QExpr K d ι) : Option K :=
  (e.eval fs env).map (fun s => Core.integrate fs s.at)

end Verif.Core
