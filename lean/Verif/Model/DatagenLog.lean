import Verif.Model.DatagenSim

/-!
# Model of niles/datagen/datagen.py: the numbers that are logged

The smallest distance of nodes and the CFL number after each cycle. Arithmetic is exact (the code rounds the coordinates and the
largest velocity to single precision).
-/

namespace Verif.Niles

open Verif.Core Verif.NS

variable {K U P C L : Type*} {d : ℕ}

/-- `np.linalg.norm(x - y)` (lines 82-83). -/
noncomputable def pointDistance (x y : Fin d → ℝ) : ℝ := Real.sqrt (∑ k, (x k - y k) ^ 2)

/-- An entry of `pairwise` (lines 82-84); `⊤` is `np.inf`. -/
noncomputable def pairwise (mesh : Mesh ℝ d) (e i j : ℕ) : WithTop ℝ :=
  if i = j then ⊤ else (pointDistance (mesh.elementCoords e i) (mesh.elementCoords e j) : ℝ)

/-- `pairwise.min()` (line 85). -/
noncomputable def pairwiseMin (mesh : Mesh ℝ d) (e : ℕ) : WithTop ℝ :=
  ((List.range mesh.nodesPerElem).flatMap fun i => (List.range mesh.nodesPerElem).map fun j => pairwise mesh e i j).foldl min ⊤

/-- `compute_dx` (lines 76-87). -/
noncomputable def computeDx (mesh : Mesh ℝ d) : WithTop ℝ :=
  (List.range mesh.numElements).foldl (fun dx e => min dx (pairwiseMin mesh e)) ⊤

/-- `u.max()` of an array of velocities (line 194); `none` for an array without entries. -/
noncomputable def maxEntry (numNodes : ℕ) (u : Vel ℝ 2) : Option ℝ :=
  ((List.range numNodes).flatMap fun j => (List.finRange 2).map fun k => u j k).max?

/-- `cfl` (line 194). -/
noncomputable def cflNumber (DT : ℝ) (dx : WithTop ℝ) (numNodes : ℕ) (us : List (Vel ℝ 2)) : Except GenError ℝ :=
  match us.getLast? with
  | none => .error (.solver "IndexError")
  | some u =>
    match maxEntry numNodes u with
    | none => .error (.solver "ValueError")
    | some m =>
      match dx with
      | ⊤ => .ok 0
      | (dx : ℝ) => .ok (m * DT / dx)

/-- The loop of `run_simulation` with the log (lines 189-195): the files, the logged numbers, and how the loop ends. -/
def simLoopLog [Ring K] (DT : K) (timeOrder stepsPerCycle : ℕ) (conv : U → C)
    (solve : List U → List P → List C → Except GenError (U × P × C)) (log : List U → Except GenError L) :
    ℕ → ℕ → List U → List P → List (GenFile K U P) → List L →
      List (GenFile K U P) × List L × Except GenError (List U × List P)
  | 0, _, us, ps, dir, logs => (dir, logs, .ok (us, ps))
  | n + 1, idx, us, ps, dir, logs =>
    if us.length ≠ ps.length ∨ us.length ≠ timeOrder then (dir, logs, .error .assertion)
    else
      match oneCycle DT conv solve (idx * stepsPerCycle) stepsPerCycle us ps dir with
      | (dir', .error e) => (dir', logs, .error e)
      | (dir', .ok (us', ps')) =>
        match log us' with
        | .error e => (dir', logs, .error e)
        | .ok c => simLoopLog DT timeOrder stepsPerCycle conv solve log n (idx + 1) us' ps' dir' (logs ++ [c])

/-- `run_simulation` (lines 170-197) with the logged CFL numbers. -/
noncomputable def generateLogged (g : GenConsts) (numCycles stepsPerCycle : ℕ) (low : Nodes1D ℝ) (sem : StokesSEM ℝ 2) :
    List (GenFile ℝ (Vel ℝ 2) (ℕ → ℝ)) × List ℝ × Except GenError (List (Vel ℝ 2) × List (ℕ → ℝ)) :=
  simLoopLog g.dt g.timeOrder stepsPerCycle sem.C (genStep g low sem)
    (cflNumber g.dt (computeDx sem.vspace.mesh) sem.vspace.mesh.numNodes) numCycles 0
    (List.replicate g.timeOrder fun j => uInitFn (sem.vspace.mesh.coords j)) (List.replicate g.timeOrder fun _ => 0) [] []

end Verif.Niles
