import Verif.Model.Facet
import Mathlib.Algebra.Field.Defs
import Mathlib.Data.List.Basic

/-!
# Model of `common/premesh_commons.py`
-/

namespace Verif.Common

/-- `np.ravel_multi_index(multi_idx, [b] * ndim)`. -/
def ravel (b : ℕ) (I : List ℕ) : ℕ := I.foldl (fun acc i => acc * b + i) 0

/-- `more_itertools.pairwise(np.arange(n + 1))` as a list of two element lists (premesh_commons.py 44-45). -/
def elements1d (n : ℕ) : List (List ℕ) :=
  ((List.range (n + 1)).zip (List.range (n + 1)).tail).map (fun p => [p.1, p.2])

/-- `dim_to_elem` (premesh_commons.py 46-50). -/
def dimToElem (n : ℕ) : FacetDim → List (List ℕ)
  | .first => [[0]]
  | .inner => elements1d n
  | .last => [[n]]

/-- `_unit_cube_facet_elements` (premesh_commons.py 28-64). -/
def facetElements (n : ℕ) (facet : List FacetDim) : List (List ℕ) :=
  (cartesian (facet.map (dimToElem n))).map (fun et => (cartesian et).map (ravel (n + 1)))

/-- `np.linspace(a, b, num=n + 1)` in exact arithmetic (premesh_commons.py 95). -/
def linspace {K : Type*} [Field K] (a b : K) (n : ℕ) : List K :=
  (List.range (n + 1)).map (fun i : ℕ => a + (i : K) * ((b - a) / (n : K)))

/-- `np.stack(np.meshgrid(...,indexing='ij'), -1).reshape(num_nodes, ndim)` (premesh_commons.py 96-97). -/
def gridCoords {K : Type*} [Field K] (a b : K) (n ndim : ℕ) : List (List K) :=
  cartesian (List.replicate ndim (linspace a b n))

/-- `facet_axis` (premesh_commons.py 108-109). -/
def facetAxis (f : List FacetDim) : ℕ :=
  if FacetDim.first ∈ f then f.idxOf FacetDim.first else f.idxOf FacetDim.last

/-- `axis_to_facets[axis]` (premesh_commons.py 105-110). -/
def axisToFacets (n ndim axis : ℕ) : List (List (List ℕ)) :=
  ((facetTypesOfDim ndim (ndim - 1)).filter (fun f => facetAxis f = axis)).map (facetElements n)

/-- `np.array(axis_to_facets[axis]).transpose((1, 0, 2))` (premesh_commons.py 118): pairs of facets. There
are two facets per axis. -/
def axisLinks (n ndim axis : ℕ) : List (List ℕ × List ℕ) :=
  match axisToFacets n ndim axis with
  | [f0, f1] => f0.zip f1
  | _ => []

/-- `periodic_links` (premesh_commons.py 115-118). -/
def cubeLinks (n ndim : ℕ) (periodicDims : List ℕ) : List (List ℕ × List ℕ) :=
  (List.range ndim).flatMap (fun axis => if axis ∈ periodicDims then axisLinks n ndim axis else [])

/-- `boundary_facets` (premesh_commons.py 114-121). -/
def cubeBoundary (n ndim : ℕ) (periodicDims : List ℕ) : List (List ℕ) :=
  (List.range ndim).flatMap (fun axis => if axis ∈ periodicDims then [] else (axisToFacets n ndim axis).flatten)

/-- An `ndim`-dimensional numpy array: shape and entries by multi index. -/
structure NdArray (α : Type*) where
  shape : List ℕ
  data : List ℕ → α

/-- `np.repeat(x, repeats=r, axis=axis)`. -/
def NdArray.repeatAxis {α : Type*} (x : NdArray α) (r axis : ℕ) : NdArray α where
  shape := x.shape.modify axis (· * r)
  data := fun I => x.data (I.modify axis (· / r))

/-- One iteration of the loop over the axes (premesh_commons.py 131-137). The assertion fails when the count
does not divide `n`; a count of zero raises too. -/
def repeatStep {α : Type*} (n : ℕ) (x : NdArray α) (axis : ℕ) : Except String (NdArray α) :=
  match x.shape[axis]? with
  | none => .error "IndexError"
  | some p =>
    if p = 0 then .error "ZeroDivisionError"
    else if n % p ≠ 0 then .error "AssertionError"
    else .ok (x.repeatAxis (n / p) axis)

/-- Multi index of flat position `e` in an array of the given shape (C order). -/
def unravel : List ℕ → ℕ → List ℕ
  | [], _ => []
  | _ :: shape, e => e / shape.prod :: unravel shape (e % shape.prod)

/-- `partitions` of the premesh (premesh_commons.py 130-138): `reshape(len(elements))` flattens, and fails if the
number of entries differs. -/
def cubePartitions {α : Type*} (n ndim : ℕ) (partitions : NdArray α) : Except String (List α) :=
  match (List.range ndim).foldlM (repeatStep n) partitions with
  | .error e => .error e
  | .ok x =>
    if x.shape.prod ≠ (facetElements n (List.replicate ndim .inner)).length then .error "ValueError"
    else .ok ((List.range x.shape.prod).map (fun e => x.data (unravel x.shape e)))

/-- The arrays that `unit_cube_mesh` (premesh_commons.py 67-145) passes to `Premesh.create`, without
partitions. -/
structure CubeMesh (K : Type*) where
  nodeCoords : List (List K)
  elements : List (List ℕ)
  periodicLinks : Option (List (List ℕ × List ℕ))
  boundary : Option (List (List ℕ))

def unitCubeMesh {K : Type*} [Field K] (n ndim : ℕ) (a b : K) (periodicDims : List ℕ) : CubeMesh K where
  nodeCoords := gridCoords a b n ndim
  elements := facetElements n (List.replicate ndim .inner)
  periodicLinks := if (cubeLinks n ndim periodicDims).length = 0 then none
    else some (cubeLinks n ndim periodicDims)
  boundary := if (cubeBoundary n ndim periodicDims).length = 0 then none
    else some (cubeBoundary n ndim periodicDims)

end Verif.Common
