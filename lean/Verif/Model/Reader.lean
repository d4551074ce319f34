import Verif.Model.Refiner

/-!
# Model of `common/mesh_reader.py`

`meshio.read` is external: its result is the input of the model.
-/

namespace Verif.Common

open Verif.Core

/-- What the reader uses of a `meshio.Mesh`: the points (already cut to the first `ndim` coordinates,
mesh_reader.py 97), the dictionary `cells_dict` and the entries of `gmsh_periodic` (dimension of the entity, pairs of
nodes). -/
structure GmshMesh (V : Type*) where
  points : List V
  cells : String → Option (List (List ℕ))
  periodic : Option (List (ℕ × List (ℕ × ℕ)))

/-- `_NODE_ORDERING_PERMUTATIONS` (mesh_reader.py 40-44). -/
def nodeOrdering : ℕ → List ℕ
  | 1 => [0, 1]
  | 2 => [0, 3, 1, 2]
  | 3 => [0, 4, 3, 7, 1, 5, 2, 6]
  | _ => []

/-- `src_tgt_mapping` (mesh_reader.py 60-64): the pairs of all entities of dimension `ndim - 1`; later entries
overwrite earlier ones. -/
def srcTgt (periodic : List (ℕ × List (ℕ × ℕ))) (ndim : ℕ) (x : ℕ) : Option ℕ :=
  (((periodic.filter (fun e => e.1 + 1 = ndim)).flatMap (·.2)).reverse.find? (fun p => p.1 = x)).map (·.2)

/-- `facet_elem_type` (mesh_reader.py 68); a missing key raises. -/
def facetCellType (ndim : ℕ) : Option String :=
  if ndim = 2 then some "line" else if ndim = 3 then some "quad" else none

/-- `_get_periodic_links` (mesh_reader.py 47-75). `np.stack` of an empty list raises. -/
def periodicLinksOf {V : Type*} (g : GmshMesh V) (periodic : List (ℕ × List (ℕ × ℕ))) (ndim : ℕ) :
    Except String (List (List ℕ × List ℕ)) :=
  match facetCellType ndim with
  | none => .error "KeyError"
  | some t => match g.cells t with
    | none => .error "KeyError"
    | some facets =>
      let links := (facets.filter (fun f => f.all (fun x => (srcTgt periodic ndim x).isSome))).map
        (fun f => (f, f.map (fun x => (srcTgt periodic ndim x).getD 0)))
      if links = [] then .error "ValueError" else .ok links

/-- `elem_type` (mesh_reader.py 99). -/
def elemCellType (ndim : ℕ) : String := if ndim = 1 then "line" else if ndim = 2 then "quad" else "hexahedron"

/-- `read` (mesh_reader.py 78-114), followed by `Premesh.create` (premesh.py 73-115), which for cells with `2 ^ ndim`
nodes gives order 1. -/
def readMesh {V : Type*} (g : GmshMesh V) (ndim : ℕ) : Except String (Premesh1 V) :=
  if ndim ≠ 1 ∧ ndim ≠ 2 ∧ ndim ≠ 3 then .error "ValueError"
  else match g.cells (elemCellType ndim) with
    | none => .error "ValueError"
    | some cells =>
      let elements := cells.map (fun el => (nodeOrdering ndim).map (fun k => el.getD k 0))
      match g.periodic with
      | none => .ok ⟨ndim, 1, g.points, elements, [], none⟩
      | some [] => .ok ⟨ndim, 1, g.points, elements, [], none⟩
      | some (p :: ps) => match periodicLinksOf g (p :: ps) ndim with
        | .error e => .error e
        | .ok links => .ok ⟨ndim, 1, g.points, elements, [], some links⟩

end Verif.Common
