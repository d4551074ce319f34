import Verif.Model.Orderings
import Verif.Model.Interpolation
import Mathlib.Data.List.Sort
import Mathlib.Algebra.Module.Basic

/-!
# Model of `core/mesh_refiner.py`

`V` is the type of a coordinate tuple (a vector space over the number field `K`); arithmetic is exact.
-/

namespace Verif.Core

open Verif.Common

/-- The mutable state of `_MeshRefiner` (mesh_refiner.py 93-105): the coordinates of the nodes allocated so far and
`_inner_facets_mapping`, from the sorted corners of a facet to the corners in the order in which they were first met
and the nodes allocated inside the facet. -/
structure RState (V : Type*) where
  nodes : List V
  mapping : List (List ℕ × List ℕ × List ℕ)

/-- `_add_nodes` (mesh_refiner.py 120-126). -/
def addNodes {V : Type*} (st : RState V) (coords : List V) : RState V × List ℕ :=
  ({ st with nodes := st.nodes ++ coords }, List.range' st.nodes.length coords.length)

/-- Corners of a subfacet: `facets_nd[(slice(None), *source_slice_nd)]` flattened, for one facet
(mesh_refiner.py 147, 160, 164, 193). -/
def facetCorners (ft : List FacetDim) (el : List ℕ) : List ℕ :=
  (facetSlice 2 false ft).map (fun I => el.getD (ravel 2 I) 0)

/-- Dictionary lookup (mesh_refiner.py 196). -/
def mappingGet (mapping : List (List ℕ × List ℕ × List ℕ)) (key : List ℕ) : Option (List ℕ × List ℕ) :=
  (mapping.find? (fun e => e.1 = key)).map (·.2)

/-- Processing one subfacet of one facet (mesh_refiner.py 166-214). `D` is `premesh.ndim`, `m` the number of points
per axis, `coords` the target coordinates of the facet (by multi index) or `None`. Returns the nodes stored in the
interior of the subfacet, in the order of the slice. -/
def refineFacet {V : Type*} (D m : ℕ) (ft : List FacetDim) (el : List ℕ) (coords : Option (List ℕ → V))
    (st : RState V) : Except String (RState V × List ℕ) :=
  let dim := ft.count FacetDim.inner
  let cur := facetCorners ft el
  if dim = 0 then .ok (st, cur)
  else match coords, decide (dim = D) with
    | some tc, true => .ok (addNodes st ((facetSlice m true ft).map tc))
    | _, _ =>
      let key := cur.insertionSort (· ≤ ·)
      match mappingGet st.mapping key with
      | none => match coords with
        | none => .error "TypeError"
        | some tc =>
          let r := addNodes st ((facetSlice m true ft).map tc)
          .ok ({ r.1 with mapping := r.1.mapping ++ [(key, cur, r.2)] }, r.2)
      | some (orientation, targetNodes) =>
        match orderingsGet dim (m - 2) (orientation.map (fun k => cur.idxOf k)) with
        | none => .error "KeyError"
        | some perm => .ok (st, perm.map (fun i => targetNodes.getD i 0))

/-- A facet to refine: its position in the array, its corners and its target coordinates. -/
structure Job (V : Type*) where
  ft : List FacetDim
  idx : ℕ
  el : List ℕ
  coords : Option (List ℕ → V)

/-- The loop over subfacet types and facets (mesh_refiner.py 157-226): results tagged with the facet type and the
position of the facet. -/
def runJobs {V : Type*} (D m : ℕ) : List (Job V) → RState V →
    Except String (RState V × List (List FacetDim × ℕ × List ℕ))
  | [], st => .ok (st, [])
  | j :: js, st => match refineFacet D m j.ft j.el j.coords st with
    | .error e => .error e
    | .ok (st1, ns) => match runJobs D m js st1 with
      | .error e => .error e
      | .ok (st2, rest) => .ok (st2, (j.ft, j.idx, ns) :: rest)

/-- The jobs in the order of the two loops: facet types outside, facets inside. -/
def refineJobs {V : Type*} (ndim : ℕ) (facets : List (List ℕ)) (coords : Option (ℕ → List ℕ → V)) : List (Job V) :=
  (facetTypes ndim).flatMap (fun ft =>
    (List.range facets.length).map (fun e => ⟨ft, e, facets.getD e [], coords.map (fun c => c e)⟩))

/-- `target_facets_nd` (mesh_refiner.py 148-150, 132-141, 228): the array for facet `e` after all assignments,
starting from `-1` everywhere. -/
def assemble (m ndim : ℕ) (outs : List (List FacetDim × ℕ × List ℕ)) (e : ℕ) : List ℤ :=
  let assigns := (outs.filter (fun o => o.2.1 = e)).flatMap (fun o => (facetSlice m true o.1).zip o.2.2)
  (cartesian (List.replicate ndim (List.range m))).map (fun I =>
    match assigns.reverse.find? (fun a => a.1 = I) with
    | none => -1
    | some a => (a.2 : ℤ))

/-- `_refine_facets` (mesh_refiner.py 143-229). -/
def refineFacets {V : Type*} (D m ndim : ℕ) (facets : List (List ℕ)) (coords : Option (ℕ → List ℕ → V))
    (st : RState V) : Except String (RState V × List (List ℤ)) :=
  match runJobs D m (refineJobs ndim facets coords) st with
  | .error e => .error e
  | .ok (st', outs) => .ok (st', (List.range facets.length).map (assemble m ndim outs))

/-- The first order premesh to refine. -/
structure Premesh1 (V : Type*) where
  ndim : ℕ
  order : ℤ
  nodeCoords : List V
  elements : List (List ℕ)
  physicalGroups : List (String × List (List ℕ))
  periodicLinks : Option (List (List ℕ × List ℕ))

/-- The refined premesh. -/
structure Refined (V : Type*) where
  nodeCoords : List V
  elements : List (List ℤ)
  physicalGroups : List (String × List (List ℤ))
  periodicLinks : Option (List (List ℤ × List ℤ))

variable {K V : Type*} [Field K] [LinearOrder K] [AddCommGroup V] [Module K V]

/-- `einsum('mn,end->emd', interpolation_matrix, node_coords[elements])` (mesh_refiner.py 233-237): row `i` for the
element `el`. -/
def targetCoord (A : NMat K) (nodeCoords : List V) (el : List ℕ) (i : ℕ) : V :=
  ∑ c ∈ Finset.range A.cols, A.entry i c • nodeCoords.getD (el.getD c 0) 0

/-- Refining the physical groups (mesh_refiner.py 262-269). -/
def refineGroups (D m : ℕ) : List (String × List (List ℕ)) → RState V →
    Except String (RState V × List (String × List (List ℤ)))
  | [], st => .ok (st, [])
  | (name, facets) :: gs, st =>
    if facets = [] then .error "ValueError"
    else match refineFacets D m (D - 1) facets none st with
      | .error e => .error e
      | .ok (st1, fs) => match refineGroups D m gs st1 with
        | .error e => .error e
        | .ok (st2, rest) => .ok (st2, (name, fs) :: rest)

/-- `refine_premesh` (mesh_refiner.py 35-57, 81-115, 231-287). The gridpoints of the premesh are the two end points;
`m = n + 1` target points. In three and more dimensions a single target point makes `np.arange(1).reshape([-1, -1])`
raise (mesh_refiner.py 113-115, facet_util.py 130-132). -/
def refinePremesh {n : ℕ} (pm : Premesh1 V) (nodes : Fin (n + 1) → K) : Except String (Refined V) :=
  let D := pm.ndim
  let m := n + 1
  if pm.order ≠ 1 then .error "ValueError"
  else if 3 ≤ D ∧ m < 2 then .error "ValueError"
  else match interpMatrix1d (ncWeight 2) (ncNode 2) nodes with
    | none => .error "non-finite interpolation matrix"
    | some M => match interpMatrix D M with
      | none => .error "TypeError"
      | some A =>
        if isContinuous nodes then
          match refineFacets D m D pm.elements
              (some (fun e I => targetCoord A pm.nodeCoords (pm.elements.getD e []) (ravel m I)))
              ⟨pm.nodeCoords, []⟩ with
          | .error e => .error e
          | .ok (st1, elements) => match refineGroups D m pm.physicalGroups st1 with
            | .error e => .error e
            | .ok (st2, groups) => match pm.periodicLinks with
              | none => .ok ⟨st1.nodes, elements, groups, none⟩
              | some links => match refineFacets D m (D - 1) (links.map (·.1)) none st2 with
                | .error e => .error e
                | .ok (st3, l0) => match refineFacets D m (D - 1) (links.map (·.2)) none st3 with
                  | .error e => .error e
                  | .ok (_, l1) => .ok ⟨st1.nodes, elements, groups, some (l0.zip l1)⟩
        else
          let coords := pm.elements.flatMap (fun el =>
            (List.range (m ^ D)).map (fun i => targetCoord A pm.nodeCoords el i))
          .ok ⟨coords, (List.range pm.elements.length).map (fun e =>
            (List.range (m ^ D)).map (fun i => ((e * m ^ D + i : ℕ) : ℤ))), [], none⟩

end Verif.Core
