import Verif.Model.Datagen
import Verif.Model.Rollout
import Mathlib.Analysis.SpecialFunctions.Trigonometric.Basic

/-!
# Model of niles/datagen/datagen.py: initial state, forcing and time step

Arithmetic is exact; the arrays are those of the Stokes solver. The module constants (lines 47-54) are arguments. The time step
takes velocity and pressure out of the returned tuple; the code's assignment of three values to two names is modelled in
Datagen.lean (`solveOneStep`).
-/

namespace Verif.Niles

open Verif.Core Verif.NS

/-- The module constants (datagen.py 49-54), the tolerances of line 101 and the default `alpha` of `stokes_one_step`
(navier_stokes.py 352). -/
structure GenConsts where
  timeOrder : ℕ
  reynolds : ℝ
  dt : ℝ
  drag : ℝ
  alpha : ℝ
  tol : ℝ
  atol : ℝ

/-- The values in the code. -/
noncomputable def genConsts : GenConsts := ⟨3, 20000, 1 / 10000, 1 / 10, 1 / 20, 1 / 100000, 1 / 10000⟩

/-- `u_init_fn` (datagen.py 57-63). -/
noncomputable def uInitFn (x : Fin 2 → ℝ) : Fin 2 → ℝ :=
  ![Real.cos (2 * 2 * Real.pi * x 0) * Real.sin (2 * 2 * Real.pi * x 1),
    -Real.sin (2 * 2 * Real.pi * x 0) * Real.cos (2 * 2 * Real.pi * x 1)]

/-- `forcing` (datagen.py 66-73). -/
noncomputable def genForcing (drag : ℝ) (x u : Fin 2 → ℝ) : Fin 2 → ℝ :=
  fun k => (![Real.sin (2 * Real.pi * 4 * x 1), 0] : Fin 2 → ℝ) k - drag * u k

/-- `_solve_one_step` (datagen.py 90-102), with the unpacking of line 100 corrected. -/
noncomputable def genStep (g : GenConsts) (low : Nodes1D ℝ) (sem : StokesSEM ℝ 2) (us : List (Vel ℝ 2)) (ps : List (ℕ → ℝ))
    (cus : List (Vel ℝ 2)) : Except GenError (Vel ℝ 2 × (ℕ → ℝ) × Vel ℝ 2) :=
  match extAdvection (g.timeOrder - 1) cus with
  | .error e => .error (.solver e)
  | .ok cu =>
    match us.getLast? with
    | none => .error (.solver "IndexError")
    | some ul =>
      let f1 : Vel ℝ 2 := fun p k => genForcing g.drag (sem.vspace.mesh.coords p) (ul p) k
      let f2 : Vel ℝ 2 := fun p k => -cu p k + sem.B f1 p k
      match sem.oneStep low us ps f2 (1 / g.reynolds) g.dt g.timeOrder g.alpha none none true g.tol g.atol with
      | .error e => .error (.solver e)
      | .ok st => .ok (st.u, st.p, sem.C st.u)

/-- `run_simulation` (datagen.py 170-193) on a mesh; velocities and pressures start as in lines 183-187. -/
noncomputable def generate (g : GenConsts) (numCycles stepsPerCycle : ℕ) (low : Nodes1D ℝ) (sem : StokesSEM ℝ 2) :
    List (GenFile ℝ (Vel ℝ 2) (ℕ → ℝ)) × Except GenError (List (Vel ℝ 2) × List (ℕ → ℝ)) :=
  runSimulation g.dt g.timeOrder numCycles stepsPerCycle sem.C (genStep g low sem)
    (fun j => uInitFn (sem.vspace.mesh.coords j)) (fun _ => 0)

end Verif.Niles
