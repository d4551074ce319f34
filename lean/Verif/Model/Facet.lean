import Mathlib.Data.List.Basic

/-!
# Model of `common/facet_util.py`
-/

namespace Verif.Common

/-- `FacetDimType` (facet_util.py 45-50); the order of the constructors is the enumeration order. -/
inductive FacetDim
  | first
  | last
  | inner
  deriving DecidableEq, Repr

/-- `itertools.product(*ls)`: the last position varies fastest. -/
def cartesian {α : Type*} : List (List α) → List (List α)
  | [] => [[]]
  | l :: ls => l.flatMap (fun a => (cartesian ls).map (fun t => a :: t))

/-- `get_facet_types(ndim)` (facet_util.py 88-90). -/
def facetTypes (ndim : ℕ) : List (List FacetDim) :=
  cartesian (List.replicate ndim [FacetDim.first, FacetDim.last, FacetDim.inner])

/-- `get_facet_types(ndim, facet_ndim)` (facet_util.py 92). -/
def facetTypesOfDim (ndim facetNdim : ℕ) : List (List FacetDim) :=
  (facetTypes ndim).filter (fun f => f.count FacetDim.inner = facetNdim)

/-- Positions selected along one axis of length `m` by the slice of a facet dimension
(`slice_from_facet_type`, facet_util.py 70-75): `0`, `-1`, `slice(1, -1)` or `slice(None)`. -/
def axisSlice (m : ℕ) (interiorOnly : Bool) : FacetDim → List ℕ
  | .first => [0]
  | .last => [m - 1]
  | .inner => if interiorOnly then (List.range (m - 1)).drop 1 else List.range m

/-- Multi indices of the nodes selected by `slice_from_facet_type` in an element with `m` points per axis, in
the order of the selected sub array. -/
def facetSlice (m : ℕ) (interiorOnly : Bool) (f : List FacetDim) : List (List ℕ) :=
  cartesian (f.map (axisSlice m interiorOnly))

end Verif.Common
