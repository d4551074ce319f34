import Verif.Model.UnitCube
import Verif.Model.Refiner

/-!
# The premesh that `unit_cube_mesh` hands to `refine_premesh`
-/

namespace Verif.Core

open Verif.Common

/-- A coordinate row of `node_coords` as a vector. -/
def toVec {K : Type*} [Zero K] (d : ℕ) (row : List K) : Fin d → K := fun k => row.getD k 0

/-- `Premesh.create(node_coords, elements, periodic_links, physical_groups)` at the end of `unit_cube_mesh`
(premesh_commons.py 122-145) as the argument of `refine_premesh`. The order that `Premesh.create` infers from `2 ^ ndim`
nodes per element is one (premesh.py 97-111). -/
def cubePremesh {K : Type*} [Field K] (n d : ℕ) (a b : K) (per : List ℕ) : Premesh1 (Fin d → K) :=
  let m := unitCubeMesh n d a b per
  { ndim := d
    order := 1
    nodeCoords := m.nodeCoords.map (toVec d)
    elements := m.elements
    physicalGroups := match m.boundary with
      | none => []
      | some fs => [("boundary", fs)]
    periodicLinks := m.periodicLinks }

end Verif.Core
