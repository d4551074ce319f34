import Mathlib.Algebra.Field.Defs

/-!
# Model of niles/datagen/datagen.py: the simulation cycles

Velocities, pressures and convection terms are arbitrary types `U`, `P`, `C`. Time is exact (`t += DT` in a ring). The
directory is the list of files written, in order; a file is named by its first and last step (lines 154-156) and holds
the three arrays of lines 127-131.
-/

namespace Verif.Niles

/-- The exceptions: wrong number of values in an assignment to a tuple, the assertions of `run_simulation`, and exceptions of
the solver. -/
inductive GenError
  | unpack
  | assertion
  | solver (message : String)
deriving DecidableEq, Repr

/-- One HDF5 file. -/
structure GenFile (K U P : Type*) where
  first : ℕ
  last : ℕ
  t : List K
  u : List U
  p : List P
deriving DecidableEq, Repr

variable {K U P C : Type*}

/-- `u, p = value` for a tuple value (line 100): two values are required. -/
def unpackTwo {α : Type*} : List α → Except GenError (α × α)
  | [a, b] => .ok (a, b)
  | _ => .error .unpack

/-- A Python value returned by `stokes_one_step`: velocity, pressure or the dictionary of solver information. -/
inductive GenValue (U P : Type*)
  | velocity (u : U)
  | pressure (p : P)
  | info
deriving DecidableEq, Repr

/-- The tuple returned by `stokes_one_step` (navier_stokes.py 458: `return u, p, aux`). -/
def stokesTuple (r : U × P) : List (GenValue U P) := [.velocity r.1, .pressure r.2, .info]

/-- `_solve_one_step` (lines 90-102), for an arbitrary Stokes step and the convection operator `conv`. -/
def solveOneStep (stokes : List U → List P → List C → U × P) (conv : U → C) (us : List U) (ps : List P) (cus : List C) :
    Except GenError (U × P × C) :=
  match unpackTwo (stokesTuple (stokes us ps cus)) with
  | .ok (.velocity u, .pressure p) => .ok (u, p, conv u)
  | .ok _ => .error .unpack
  | .error e => .error e

/-- The local variables of `one_cycle`. -/
structure GenVars (K U P C : Type*) where
  t : K
  us : List U
  ps : List P
  cus : List C
  dt : List K
  du : List U
  dp : List P

/-- The loop body (lines 136-146). -/
def cycleBody [Ring K] (DT : K) (solve : List U → List P → List C → Except GenError (U × P × C)) (stepIdx : ℕ)
    (v : GenVars K U P C) : Except GenError (GenVars K U P C) :=
  let t := v.t + DT
  match solve v.us v.ps v.cus with
  | .error e => .error e
  | .ok (u, p, cu) =>
    let us := v.us.drop 1 ++ [u]
    let ps := v.ps.drop 1 ++ [p]
    let cus := v.cus.drop 1 ++ [cu]
    if stepIdx % 10 = 0 then .ok ⟨t, us, ps, cus, v.dt ++ [t], v.du ++ [u], v.dp ++ [p]⟩
    else .ok ⟨t, us, ps, cus, v.dt, v.du, v.dp⟩

/-- The loop (line 135), `n` iterations starting with `stepIdx`. -/
def cycleLoop [Ring K] (DT : K) (solve : List U → List P → List C → Except GenError (U × P × C)) :
    ℕ → ℕ → GenVars K U P C → Except GenError (GenVars K U P C)
  | 0, _, v => .ok v
  | n + 1, stepIdx, v =>
    match cycleBody DT solve stepIdx v with
    | .error e => .error e
    | .ok v' => cycleLoop DT solve n (stepIdx + 1) v'

/-- Python's `xs[-1:]`. -/
def lastSlice {α : Type*} (xs : List α) : List α := xs.drop (xs.length - 1)

/-- `one_cycle` (lines 105-167): the directory afterwards, and the new histories. An exception leaves the directory as
it is: the file is written after the loop. -/
def oneCycle [Ring K] (DT : K) (conv : U → C) (solve : List U → List P → List C → Except GenError (U × P × C))
    (startStep numSteps : ℕ) (us : List U) (ps : List P) (dir : List (GenFile K U P)) :
    List (GenFile K U P) × Except GenError (List U × List P) :=
  let t : K := startStep * DT
  match cycleLoop DT solve numSteps 1 ⟨t, us, ps, us.map conv, [t], lastSlice us, lastSlice ps⟩ with
  | .error e => (dir, .error e)
  | .ok v => (dir ++ [⟨startStep, startStep + numSteps, v.dt, v.du, v.dp⟩], .ok (v.us, v.ps))

/-- The loop of `run_simulation` (lines 189-193), `n` cycles starting with number `idx`. -/
def simLoop [Ring K] (DT : K) (timeOrder stepsPerCycle : ℕ) (conv : U → C)
    (solve : List U → List P → List C → Except GenError (U × P × C)) :
    ℕ → ℕ → List U → List P → List (GenFile K U P) → List (GenFile K U P) × Except GenError (List U × List P)
  | 0, _, us, ps, dir => (dir, .ok (us, ps))
  | n + 1, idx, us, ps, dir =>
    if us.length ≠ ps.length ∨ us.length ≠ timeOrder then (dir, .error .assertion)
    else
      match oneCycle DT conv solve (idx * stepsPerCycle) stepsPerCycle us ps dir with
      | (dir', .error e) => (dir', .error e)
      | (dir', .ok (us', ps')) => simLoop DT timeOrder stepsPerCycle conv solve n (idx + 1) us' ps' dir'

/-- `run_simulation` (lines 170-197), with the constants of lines 50-54 as arguments. -/
def runSimulation [Ring K] (DT : K) (timeOrder numCycles stepsPerCycle : ℕ) (conv : U → C)
    (solve : List U → List P → List C → Except GenError (U × P × C)) (uInit : U) (pInit : P) :
    List (GenFile K U P) × Except GenError (List U × List P) :=
  simLoop DT timeOrder stepsPerCycle conv solve numCycles 0 (List.replicate timeOrder uInit)
    (List.replicate timeOrder pInit) []

end Verif.Niles
