import Verif.Model.SDE
import Verif.Model.PScanTree

/-! `sdeint` for states that are pytrees of arrays: raveling (swirl_fem/sde/sdeint.py 101-107, 187-197) and the solver on
rank one arrays with the broadcasting rules of jax (sdeint.py 110-128). Numbers are exact and all leaves have the same
dtype. -/

namespace Verif.SDE

open Verif.Comm (PyTree unflatten)

/-- A jax array: its shape and its entries in row major order. -/
structure Arr (K : Type) where
  shape : List ℕ
  data : List K
deriving DecidableEq

variable {K : Type}

/-- The first result of `ravel_pytree` (sdeint.py 103, 195, 196): the entries of all leaves in one rank one array. -/
def ravel (t : PyTree (Arr K)) : List K := (t.flatten.map Arr.data).flatten

/-- The shapes of the leaves, which the second result of `ravel_pytree` remembers (sdeint.py 103). -/
def leafShapes (t : PyTree (Arr K)) : List (List ℕ) := t.flatten.map Arr.shape

/-- Cut a rank one array into pieces and reshape them (`unravel`, sdeint.py 103). -/
def splitArrs : List (List ℕ) → List K → List (Arr K)
  | [], _ => []
  | s :: ss, l => ⟨s, l.take s.prod⟩ :: splitArrs ss (l.drop s.prod)

/-- The second result of `ravel_pytree`, for a pytree with structure `d` and leaves of shapes `ss` (sdeint.py 103, 107, 193):
an error unless the size is right. -/
def unravel (d : PyTree Unit) (ss : List (List ℕ)) (l : List K) : Except String (PyTree (Arr K)) :=
  if l.length = (ss.map List.prod).sum then unflatten d (splitArrs ss l)
  else .error "TypeError: the unravel function got an array of the wrong shape"

/-- `a + b` for rank one arrays: arrays with one entry are broadcast. -/
def vadd [Add K] (a b : List K) : Except String (List K) :=
  if a.length = b.length then .ok (List.zipWith (· + ·) a b)
  else match a, b with
    | [c], b => .ok (b.map (c + ·))
    | a, [c] => .ok (a.map (· + c))
    | _, _ => .error "TypeError: add got incompatible shapes for broadcasting"

variable {W : Type} [Field K] [LinearOrder K]

/-- `ravel_first_arg(f, unravel)` (sdeint.py 187-197): the structure of the results of `f` is dropped (`_`, sdeint.py 195-196). -/
def ravelFirstArg (f : PyTree (Arr K) → K → W → PyTree (Arr K) × PyTree (Arr K)) (d : PyTree Unit) (ss : List (List ℕ))
    (y : List K) (t : K) (w : W) : Except String (List K × List K) :=
  match unravel d ss y with
  | .error e => .error e
  | .ok yt => .ok (ravel (f yt t w).1, ravel (f yt t w).2)

/-- Lines 118-120 of sdeint.py on rank one arrays. -/
def heunFlat (f : List K → K → W → Except String (List K × List K)) (dt t : K) (x : List K) (dw : W) :
    Except String (List K) := do
  let (drift, diff) ← f x t dw
  let xh ← vadd x diff
  let (_, diffh) ← f xh (t + dt) dw
  let x1 ← vadd x (drift.map (· * dt))
  let s ← vadd diff diffh
  vadd x1 (s.map ((1 / 2 : K) * ·))

/-- `step_fn` (sdeint.py 116-124): both branches of `lax.cond` are traced and must have the same shape. -/
def stepFlat (f : List K → K → W → Except String (List K × List K)) (ts : K × K) (dt : K) (state : K × List K) (dw : W) :
    Except String (K × List K) := do
  let x ← heunFlat f dt state.1 state.2 dw
  if x.length ≠ state.2.length then .error "TypeError: true_fun and false_fun output must have identical types"
  else if state.1 ≥ ts.1 ∧ state.1 < ts.2 then .ok (state.1 + dt, x)
  else .ok (state.1 + dt, state.2)

/-- `lax.scan` over `dw` (sdeint.py 127). -/
def scanFlat (f : List K → K → W → Except String (List K × List K)) (ts : K × K) (dt : K) :
    List W → K × List K → Except String (K × List K)
  | [], s => .ok s
  | w :: ws, s => do
    let s' ← stepFlat f ts dt s w
    scanFlat f ts dt ws s'

/-- `_sdeint` with `reverse=False` (sdeint.py 110-128) on rank one arrays. -/
def sdeintFlat (f : List K → K → W → Except String (List K × List K)) (y0 : List K) (ts : K × K) (dw : List W) :
    Except String (List K) := do
  let s ← scanFlat f ts ((ts.2 - ts.1) / (dw.length : K)) dw (ts.1, y0)
  .ok s.2

/-- `_sdeint_wrapper` (sdeint.py 100-107): ravel, solve, unravel. -/
def sdeintWrapper (f : PyTree (Arr K) → K → W → PyTree (Arr K) × PyTree (Arr K)) (y0 : PyTree (Arr K)) (ts : K × K)
    (dw : List W) : Except String (PyTree (Arr K)) := do
  let y ← sdeintFlat (ravelFirstArg f y0.treeDef (leafShapes y0)) (ravel y0) ts dw
  unravel y0.treeDef (leafShapes y0) y

/-- The scan over segments (sdeint.py 88-96). -/
def segScanTree (f : PyTree (Arr K) → K → W → PyTree (Arr K) × PyTree (Arr K)) :
    K → PyTree (Arr K) → List (List W) → List K → Except String (List (PyTree (Arr K)))
  | tCurr, yCurr, dw :: dws, tNext :: ts => do
    let yNext ← sdeintWrapper f yCurr (tCurr, tNext) dw
    let rest ← segScanTree f tNext yNext dws ts
    .ok (yNext :: rest)
  | _, _, _, _ => .ok []

/-- `sdeint` (sdeint.py 38-97) for a pytree `y0`; the outputs are listed instead of stacked. -/
def sdeintTree (f : PyTree (Arr K) → K → W → PyTree (Arr K) × PyTree (Arr K)) (y0 : PyTree (Arr K)) (ts : List K)
    (dw : List W) : Except String (List (PyTree (Arr K))) :=
  match sdeintArgs ts dw with
  | .error _ => .error "ts or dw has the wrong length"
  | .ok (t0, touts, segs) => segScanTree f t0 y0 segs touts

end Verif.SDE
