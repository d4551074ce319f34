import Verif.Model.SdeTree

/-! The lifted solver `nn_sdeint` for flax modules (swirl_fem/sde/flax_nn_sde.py 34-85). A flax module is its function of the
variables and its initialiser; one scope; no mutable collections besides `params` change. -/

namespace Verif.SDE

open Verif.Comm (PyTree)

/-- The variables of a scope, `s.variables()`: collections by name, each with its entries by name (flax_nn_sde.py 64). -/
abbrev Vars (V : Type) := List (String × List (String × V))

/-- `is_scope_initializing` (flax_nn_sde.py 63-65): `'params' not in vs or not vs['params']`. -/
def isScopeInitializing {V : Type} (vs : Vars V) : Bool :=
  match vs.lookup "params" with
  | none => true
  | some ps => ps.isEmpty

/-- `is_initializing = all(map(is_scope_initializing, scope))` (flax_nn_sde.py 66). -/
def isInitializing {V : Type} (scope : List (Vars V)) : Bool := scope.all isScopeInitializing

variable {K W V : Type}

/-- Python's `drift + diffusion` (flax_nn_sde.py 70): arrays are added (here only arrays of the same shape), tuples and lists are
concatenated, other containers raise. The label of a container starts with its type. -/
def pyAdd [Add K] : PyTree (Arr K) → PyTree (Arr K) → Except String (PyTree (Arr K))
  | .leaf a, .leaf b =>
    if a.shape = b.shape then .ok (.leaf ⟨a.shape, List.zipWith (· + ·) a.data b.data⟩)
    else .error "TypeError: add got incompatible shapes for broadcasting"
  | .node s xs, .node t ys =>
    if s = t ∧ (s = "tuple" ∨ s = "list") then .ok (.node s (xs ++ ys))
    else .error "TypeError: unsupported operand type(s) for +"
  | _, _ => .error "TypeError: unsupported operand type(s) for +"

/-- Whether a state is an array. -/
def isArray : PyTree (Arr K) → Bool
  | .leaf _ => true
  | .node _ _ => false

/-- `jnp.stack([s] * n)` (flax_nn_sde.py 70): the rows of the result are listed; it needs at least one array and nothing but
arrays. -/
def stackCopies (s : PyTree (Arr K)) (n : ℕ) : Except String (List (PyTree (Arr K))) :=
  if n = 0 then .error "ValueError: Need at least one array to stack."
  else if isArray s then .ok (List.replicate n s)
  else .error "TypeError: stack requires ndarray or scalar arguments"

variable [Field K] [LinearOrder K]

/-- `inner` of `core_sdeint` (flax_nn_sde.py 51-76) for a scope with the given variables: the state, not the repacked scope, is
returned. `fn` is the function of the module for the variables of the scope. -/
def coreSdeint (fn : List (Vars V) → PyTree (Arr K) → K → W → PyTree (Arr K) × PyTree (Arr K)) (scope : List (Vars V))
    (x : PyTree (Arr K)) (ts : List K) (dw : List W) : Except String (List (PyTree (Arr K))) :=
  if isInitializing scope then
    match ts, dw with
    | [], _ => .error "IndexError"
    | _, [] => .error "IndexError"
    | t0 :: touts, w0 :: _ =>
      match pyAdd (fn scope x t0 w0).1 (fn scope x t0 w0).2 with
      | .error e => .error e
      | .ok s => stackCopies s touts.length
  else sdeintTree (fn scope) x ts dw

/-- A flax module that is lifted by `nn_sdeint`: the parameters it creates on the first call (by name, for a key), and its
function of the parameters. -/
structure SdeModule (R K W V : Type) where
  newParams : R → List (String × V)
  fn : List (String × V) → PyTree (Arr K) → K → W → PyTree (Arr K) × PyTree (Arr K)

/-- The parameters in the scopes. -/
def paramsOf (scope : List (Vars V)) : List (String × V) :=
  scope.flatMap fun vs => (vs.lookup "params").getD []

/-- `nn_sdeint(Module)().init(key, x, ts, dw)`: the scope is empty and `fn` creates its parameters when it is called
(flax_nn_sde.py 60-71); the output and the variables. -/
def nnInit {R : Type} (m : SdeModule R K W V) (key : R) (x : PyTree (Arr K)) (ts : List K) (dw : List W) :
    Except String (List (PyTree (Arr K)) × List (Vars V)) :=
  match coreSdeint (fun _ => m.fn (m.newParams key)) ([[]] : List (Vars V)) x ts dw with
  | .error e => .error e
  | .ok out => .ok (out, [if m.newParams key = [] then [] else [("params", m.newParams key)]])

/-- `nn_sdeint(Module)().apply(variables, x, ts, dw)`. -/
def nnApply {R : Type} (m : SdeModule R K W V) (scope : List (Vars V)) (x : PyTree (Arr K)) (ts : List K) (dw : List W) :
    Except String (List (PyTree (Arr K))) :=
  coreSdeint (fun s => m.fn (paramsOf s)) scope x ts dw

end Verif.SDE
