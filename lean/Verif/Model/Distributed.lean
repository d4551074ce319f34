import Verif.Model.Poisson
import Verif.Model.Premesh

/-!
# A partitioned mesh in use

What user code does inside `pmap` with the result of `finalize(partitions, axis_name)`: every device has its own `Mesh`
and its own `FiniteElementSpace`, applies the operators to its own arrays, and passes `mesh.exchange` as `M` and the sum
over the devices of `jnp.vdot` as `dot_fn` to `cg`. An array of shape `(P, N)`, one row per device, is a function
`ℕ → ℕ → K`. The loop of `cg` runs on all devices in lock step, because the numbers that control it are results of
`dot_fn` and hence the same on every device.
-/

namespace Verif.Core

open Verif.Linalg

variable {K : Type*} [Field K] [LinearOrder K] {d : ℕ}

/-- `premesh.finalize()` (premesh.py 152-168, core/mesh.py 90-135). -/
def wholeMesh (grid : Nodes1D K) (pm : Premesh (Fin d → K)) : Mesh K d where
  numNodes := pm.numNodes
  numElements := (finalizeUnpartitioned pm).elements.length
  grid := grid
  coords := (finalizeUnpartitioned pm).nodeCoords
  elements := fun e n => ((finalizeUnpartitioned pm).elements.getD e []).getD n sentinel
  nodeIndices := (finalizeUnpartitioned pm).nodeIndices

/-- The mesh of device `p` (premesh.py 170-222, core/mesh.py 90-135); the element array of a device was flattened by the
model of `finalize`. -/
def deviceMesh (grid : Nodes1D K) (dm : DeviceMesh (Fin d → K)) (p : ℕ) : Mesh K d where
  numNodes := (dm.nodeIndices.getD p []).length
  numElements := (dm.elements.getD p []).length / grid.numPoints ^ d
  grid := grid
  coords := fun i => (dm.nodeCoords.getD p []).getD i 0
  elements := fun m n => (dm.elements.getD p []).getD (m * grid.numPoints ^ d + n) sentinel
  nodeIndices := fun i => (dm.nodeIndices.getD p []).getD i sentinel

/-- Number of nodes of every device (the rows of `node_indices` are padded to the same width). -/
def DeviceMesh.width {C : Type*} (dm : DeviceMesh C) : ℕ := (dm.nodeIndices.map List.length).foldl max 0

/-- Global node in slot `i` of device `p`. -/
def DeviceMesh.node {C : Type*} (dm : DeviceMesh C) (p i : ℕ) : ℤ := (dm.nodeIndices.getD p []).getD i sentinel

/-- `physical_masks` of device `p` (premesh.py 206-214). -/
def deviceMasks {C : Type*} (dm : DeviceMesh C) (p : ℕ) : List (String × (ℕ → Bool)) :=
  dm.physicalMasks.map (fun g => (g.1, fun i => (g.2.getD p []).getD i false))

/-- `mesh.exchange` (core/mesh.py 174-179) on all devices, with the exchange indices that `finalize` stored. -/
def deviceExchange (dm : DeviceMesh (Fin d → K)) (u : ℕ → ℕ → K) : ℕ → ℕ → K :=
  exchangePart dm.nodeIndices.length dm.width
    (indicesToExchange (flattenNodes dm.nodeIndices.length dm.width dm.node)).length
    (fun p => dm.exchangeRows.getD p (fun _ => sentinel)) u

/-- `dot_fn = lambda a, b: lax.psum(jnp.vdot(a, b), axis_name)` (argument of `cg`, cg.py 30-32, 47) on `P` devices
with arrays of length `N`. -/
def psumDot (P N : ℕ) (u v : ℕ → ℕ → K) : K := ∑ p ∈ Finset.range P, nodeDot N (u p) (v p)

/-- A function of one device, applied on all devices (`pmap`). -/
def onDevices {α β : Type*} (f : ℕ → α → β) (u : ℕ → α) : ℕ → β := fun p => f p (u p)

end Verif.Core
