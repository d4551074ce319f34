import Mathlib.Logic.Function.Basic
import Verif.Model.Datagen

/-!
# Model of niles/datagen/datagen.py: the files on disk

`one_cycle` serialises a cycle into memory and then writes it with `output_file.write_bytes` (lines 154-163), which on a local disk
opens the file for writing, so that it is empty, and then writes the bytes. A process can be killed at every point; the bytes
written so far stay. A process that is started again knows nothing of the files on disk (`run_simulation`, lines 170-197, has no
code to resume). `ser` is the serialisation of h5py into `io.BytesIO` (lines 158-161); computing a cycle is one tick of the clock,
since nothing is written meanwhile.
-/

namespace Verif.Niles

variable {K U P C B : Type*}

/-- The name of a file (lines 153-155), without the directory. -/
def genFileName (resolution order start last : ℕ) : String :=
  "kolmogorov_flow_grid_" ++ resolution.repr ++ "_order_" ++ order.repr ++ "_step_" ++ start.repr ++ "_" ++ last.repr ++ ".hdf5"

/-- The files in the directory: their bytes by name. -/
abbrev GenDisk (B : Type*) := String → Option (List B)

/-- Where a process is: between two cycles, writing a file, behind the loop, or dead by an exception. -/
inductive GenPhase (B : Type*)
  | between
  | writing (name : String) (todo : List B)
  | done
  | failed

/-- A running process. -/
structure GenProc (U P B : Type*) where
  idx : ℕ
  us : List U
  ps : List P
  phase : GenPhase B

/-- The disk and the process, if one is running. -/
structure GenSys (U P B : Type*) where
  disk : GenDisk B
  proc : Option (GenProc U P B)

/-- What a run is about: the constants of the module (lines 47-54), the solver, the initial state and the serialisation. -/
structure GenRun (K U P C B : Type*) where
  DT : K
  resolution : ℕ
  order : ℕ
  timeOrder : ℕ
  numCycles : ℕ
  stepsPerCycle : ℕ
  conv : U → C
  solve : List U → List P → List C → Except GenError (U × P × C)
  uInit : U
  pInit : P
  ser : GenFile K U P → List B

variable [Ring K]

/-- The process at the start of the loop of `run_simulation` (lines 185-189). -/
def GenRun.start (r : GenRun K U P C B) : GenProc U P B :=
  ⟨0, List.replicate r.timeOrder r.uInit, List.replicate r.timeOrder r.pInit, .between⟩

/-- The name of a file of the run. -/
def GenRun.nameOf (r : GenRun K U P C B) (f : GenFile K U P) : String := genFileName r.resolution r.order f.first f.last

/-- One tick of a process. -/
def GenRun.tick (r : GenRun K U P C B) (disk : GenDisk B) (p : GenProc U P B) : GenDisk B × GenProc U P B :=
  match p.phase with
  | .done => (disk, p)
  | .failed => (disk, p)
  | .between =>
    if p.idx < r.numCycles then
      if p.us.length ≠ p.ps.length ∨ p.us.length ≠ r.timeOrder then (disk, { p with phase := .failed })
      else
        match oneCycle r.DT r.conv r.solve (p.idx * r.stepsPerCycle) r.stepsPerCycle p.us p.ps [] with
        | ([f], .ok (us, ps)) =>
          (Function.update disk (r.nameOf f) (some []), ⟨p.idx, us, ps, .writing (r.nameOf f) (r.ser f)⟩)
        | _ => (disk, { p with phase := .failed })
    else (disk, { p with phase := .done })
  | .writing name (b :: todo) =>
    (Function.update disk name (some ((disk name).getD [] ++ [b])), { p with phase := .writing name todo })
  | .writing _ [] => (disk, { p with idx := p.idx + 1, phase := .between })

/-- The histories of the system: processes are started, run, and are killed at any point. -/
inductive GenReachable (r : GenRun K U P C B) (disk0 : GenDisk B) : GenSys U P B → Prop
  | init : GenReachable r disk0 ⟨disk0, none⟩
  | start {disk} : GenReachable r disk0 ⟨disk, none⟩ → GenReachable r disk0 ⟨disk, some r.start⟩
  | tick {disk p} : GenReachable r disk0 ⟨disk, some p⟩ →
      GenReachable r disk0 ⟨(r.tick disk p).1, some (r.tick disk p).2⟩
  | crash {disk p} : GenReachable r disk0 ⟨disk, some p⟩ → GenReachable r disk0 ⟨disk, none⟩

/-- The uninterrupted run, without the disk. -/
def GenRun.run (r : GenRun K U P C B) : List (GenFile K U P) × Except GenError (List U × List P) :=
  runSimulation r.DT r.timeOrder r.numCycles r.stepsPerCycle r.conv r.solve r.uInit r.pInit

end Verif.Niles
