import Mathlib.Data.List.Basic
import Mathlib.Data.List.Nodup
import Mathlib.Data.List.Lookmap

/-!
# Model of argument handling in `communication/jit_distributed.py`

Signatures consist of positional-or-keyword parameters followed by keyword-only ones (no positional-only
parameters, no `*args`, `**kwargs`). `shard_map`, `vmap` and `jit` are taken to pass arguments through;
a value carries a tag that tells whether it was passed as a constant or along the sharded axis.
-/

namespace Verif.Comm

/-- `inspect.Parameter.kind`. -/
inductive ParamKind where
  | posOrKw | kwOnly
deriving DecidableEq, Repr

/-- `inspect.Parameter`. -/
structure Param (V : Type*) where
  name : String
  kind : ParamKind
  default : Option V

variable {V : Type*}

/-- How Python binds a call `f(*args, **kwargs)` to the parameters of `f`, defaults included;
`sig.bind(...)` followed by `apply_defaults()` (jit_distributed.py 63-64) gives the same result. -/
def bindCall : List (Param V) → List V → List (String × V) → Except String (List (String × V))
  | [], [], [] => .ok []
  | [], [], _ :: _ => .error "TypeError: unexpected keyword argument"
  | [], _ :: _, _ => .error "TypeError: too many positional arguments"
  | p :: ps, [], kw =>
    match kw.lookup p.name with
    | some v =>
      match bindCall ps [] (kw.filter (fun e => e.1 ≠ p.name)) with
      | .ok r => .ok ((p.name, v) :: r)
      | .error e => .error e
    | none =>
      match p.default with
      | some v =>
        match bindCall ps [] kw with
        | .ok r => .ok ((p.name, v) :: r)
        | .error e => .error e
      | none => .error "TypeError: missing a required argument"
  | p :: ps, a :: args, kw =>
    match p.kind with
    | .kwOnly => .error "TypeError: too many positional arguments"
    | .posOrKw =>
      if (kw.map Prod.fst).contains p.name then .error "TypeError: multiple values for argument"
      else
        match bindCall ps args kw with
        | .ok r => .ok ((p.name, a) :: r)
        | .error e => .error e

/-- `BoundArguments.args` of the Python standard library. -/
def argsOf : List (Param V) → List (String × V) → List V
  | [], _ => []
  | p :: ps, b =>
    match p.kind with
    | .kwOnly => []
    | .posOrKw =>
      match b.lookup p.name with
      | none => []
      | some v => v :: argsOf ps b

/-- `BoundArguments.kwargs` of the Python standard library; `started` is its local `kwargs_started`. -/
def kwargsOf : Bool → List (Param V) → List (String × V) → List (String × V)
  | _, [], _ => []
  | true, p :: ps, b =>
    match b.lookup p.name with
    | none => kwargsOf true ps b
    | some v => (p.name, v) :: kwargsOf true ps b
  | false, p :: ps, b =>
    match p.kind, b.lookup p.name with
    | .kwOnly, none => kwargsOf true ps b
    | .kwOnly, some v => (p.name, v) :: kwargsOf true ps b
    | .posOrKw, none => kwargsOf true ps b
    | .posOrKw, some _ => kwargsOf false ps b

/-- How a parameter of `f` got its value inside the compiled function. -/
inductive Passed (V : Type*) where
  | static (v : V)
  | sharded (v : V)
  | default (v : V)
deriving DecidableEq, Repr

/-- `bind(argnames, *args, **kwargs)` (jit_distributed.py 61-68). -/
def bindSubset (sig : List (Param V)) (argnames : List String) (args : List V) (kwargs : List (String × V)) :
    Except String (List (String × V)) :=
  match bindCall sig args kwargs with
  | .error e => .error e
  | .ok b => .ok (b.filter (fun e => argnames.contains e.1))

/-- The default of `static_argnames` (jit_distributed.py 70-73). -/
def defaultStatic (sig : List (Param V)) : List String :=
  (sig.filter (fun p => p.kind = .kwOnly)).map (·.name)

/-- `pmapped` (jit_distributed.py 83-95): the parameter values that `f` sees in the end. In the case
without sharded arguments `f(*nonsharded.args, **nonsharded.kwargs)` is called, which is the same call with
nothing added. -/
def pmapped (sig : List (Param V)) (static : List String) (args : List V) (kwargs : List (String × V)) :
    Except String (List (String × Passed V)) := do
  let sharded := (sig.map (·.name)).filter (fun x => ¬ static.contains x)
  let ns ← bindSubset sig static args kwargs
  let sh ← bindSubset sig sharded args kwargs
  bindCall (sig.map (fun p => { name := p.name, kind := p.kind, default := p.default.map .default }))
    ((argsOf sig ns).map .static ++ (argsOf sig sh).map .sharded)
    ((kwargsOf false sig ns).map (fun e => (e.1, .static e.2)) ++
      (kwargsOf false sig sh).map (fun e => (e.1, .sharded e.2)))

/-- `jit_distributed(f, mesh, axis_name, static_argnames=...)` (jit_distributed.py 26-97). -/
def jitDistributed (sig : List (Param V)) (static : Option (List String)) (args : List V)
    (kwargs : List (String × V)) : Except String (List (String × Passed V)) :=
  pmapped sig (match static with | none => defaultStatic sig | some s => s) args kwargs

end Verif.Comm
